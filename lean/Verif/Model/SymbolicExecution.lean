/-
Model of the self-timed ("symbolic") execution: src/libkiter/algorithms/throughput/actor.cpp, state.cpp and the main
loops of symbolic_execution.cpp (`computeComponentThroughput`, lines 207-301, and the loop of
`computeComponentThroughputCycles`, lines 303-407, which only differs by the bounded buffers and by the critical
channels it returns; those are in Model/StorageDeps.lean).

The nested `for`/`while` loops are written as a machine that executes one loop test per step, so that every
intermediate state of the program is a state of the machine and a loop that never ends is a machine that never halts.
`TIME_UNIT` is `ℚ`; counters do not overflow.
-/
import Mathlib.Data.Rat.Defs
import Mathlib.Data.Fintype.Defs
import Mathlib.Data.List.FinRange
import Mathlib.Data.Fintype.Basic
import Mathlib.Algebra.Order.Ring.Rat

set_option autoImplicit false

namespace Kiter.Sim

/-- What the simulation reads of a `Dataflow` with vertices `0..nV-1` (in `ForEachVertex` order) and edges
`0..nE-1`: end points, production (`in`) and consumption (`out`) rates per phase, initial tokens, number of phases,
phase durations and repetition factor of each vertex (models/Dataflow.h:635-912). -/
structure Graph (nV nE : Nat) where
  src : Fin nE → Fin nV
  tgt : Fin nE → Fin nV
  prod : Fin nE → List Int
  cons : Fin nE → List Int
  preload : Fin nE → Int
  phases : Fin nV → Nat
  dur : Fin nV → List ℚ
  ni : Fin nV → Int

variable {nV nE : Nat}

/-- The mutable part of an `Actor` (actor.h:57-66): `numExecs`, `isExecuting`. -/
structure Act where
  numExecs : Nat
  isExecuting : Bool
deriving DecidableEq

/-- `State` (state.h:55-66). `bufferSpaces` is only meaningful with bounded buffers. `std::map`s are functions: every
key is inserted by the constructors, and `executingActors` reads as empty for a missing key. -/
structure St (nV nE : Nat) where
  queue : Fin nV → List (ℚ × Nat)
  phase : Fin nV → Nat
  tokens : Fin nE → Int
  space : Fin nE → Int
  elapsed : ℚ

/-- `LONG_MAX`, used as "no execution is running" (state.cpp:153). -/
def longMax : ℚ := 9223372036854775807
/-- `INT_MAX`, the initial value of `minRepFactor` (symbolic_execution.cpp:212). -/
def intMax : Int := 2147483647

/-- `prodExecRate[e][p]` / `consExecRate[e][p]`: filled for the phases 1..`n` of the actor (actor.cpp:37-40, 48-51);
`std::map::operator[]` gives 0 for any other key. -/
def rateMap (n : Nat) (l : List Int) (p : Nat) : Int := if 1 ≤ p ∧ p ≤ n then l.getD (p - 1) 0 else 0

/-- `Actor::getPhaseCount(e)` (actor.cpp:56-67): the consumption side is looked up first. The assertion that the edge is
attached to the actor always holds in the code modelled here. -/
def phaseCount (g : Graph nV nE) (a : Fin nV) (e : Fin nE) : Nat :=
  if g.tgt e = a then (g.cons e).length else (g.prod e).length

/-- `Actor::getExecRate(e, p)` (actor.cpp:105-117): the production side is looked up first. -/
def rateAt (g : Graph nV nE) (a : Fin nV) (e : Fin nE) (p : Nat) : Int :=
  if g.src e = a then rateMap (g.phases a) (g.prod e) p else rateMap (g.phases a) (g.cons e) p

/-- `Actor::getExecRate(e)` (actor.cpp:91-103). -/
def execRate (g : Graph nV nE) (acts : Fin nV → Act) (a : Fin nV) (e : Fin nE) : Int :=
  rateAt g a e ((acts a).numExecs % phaseCount g a e + 1)

/-- `Actor::getPhase()` (actor.cpp:75-77). -/
def phaseOf (g : Graph nV nE) (acts : Fin nV → Act) (a : Fin nV) : Nat := (acts a).numExecs % g.phases a + 1

/-- `Dataflow::getVertexDuration(t, k)` for `k ≥ 1` (models/Dataflow.h:882-888). -/
def duration (g : Graph nV nE) (a : Fin nV) (k : Nat) : ℚ := (g.dur a).getD ((k - 1) % (g.dur a).length) 0

/-- `Actor::isReadyForExec` (actor.cpp:121-151): `isExecuting` is only tested inside the loops over the channels.
`cap = none` is an unbounded state. -/
def ready (g : Graph nV nE) (cap : Option (Fin nE → Int)) (acts : Fin nV → Act) (s : St nV nE) (a : Fin nV) : Bool :=
  decide (∀ e, g.tgt e = a → ¬ (s.tokens e < execRate g acts a e ∨ (acts a).isExecuting = true)) &&
  (cap.isNone || decide (∀ e, g.src e = a → ¬ (s.space e < execRate g acts a e ∨ (acts a).isExecuting = true)))

/-- `Actor::isReadyToEndExec` (actor.cpp:154-161). -/
def readyToEnd (s : St nV nE) (a : Fin nV) : Bool :=
  match s.queue a with
  | [] => false
  | x :: _ => decide (x.1 = 0)

/-- `State::updateState` (state.cpp:142-150): the phase of every actor is recomputed, tokens are left as they are. -/
def updateState (g : Graph nV nE) (acts : Fin nV → Act) (s : St nV nE) : St nV nE := { s with phase := phaseOf g acts }

/-- `Actor::execStart` (actor.cpp:164-182). Each edge is visited once, so the loops are pointwise updates. -/
def execStart (g : Graph nV nE) (cap : Option (Fin nE → Int)) (acts : Fin nV → Act) (s : St nV nE) (a : Fin nV) :
    (Fin nV → Act) × St nV nE :=
  (Function.update acts a ⟨(acts a).numExecs + 1, true⟩,
   { s with
     tokens := fun e => if g.tgt e = a then s.tokens e - execRate g acts a e else s.tokens e
     space := fun e => if cap.isSome ∧ g.src e = a then s.space e - execRate g acts a e else s.space e
     queue := Function.update s.queue a (s.queue a ++ [(duration g a (phaseOf g acts a), phaseOf g acts a)]) })

/-- `Actor::execEnd` (actor.cpp:185-205). The queue is not empty when it is called (`front` on an empty list is
undefined): `readyToEnd` is always tested first. -/
def execEnd (g : Graph nV nE) (cap : Option (Fin nE → Int)) (acts : Fin nV → Act) (s : St nV nE) (a : Fin nV) :
    (Fin nV → Act) × St nV nE :=
  match s.queue a with
  | [] => (acts, s)
  | x :: rest =>
    (Function.update acts a ⟨(acts a).numExecs, false⟩,
     { s with
       tokens := fun e => if g.src e = a then s.tokens e + rateAt g a e x.2 else s.tokens e
       space := fun e => if cap.isSome ∧ g.tgt e = a then s.space e + rateAt g a e x.2 else s.space e
       queue := Function.update s.queue a rest })

/-- The smallest remaining time among the heads of the queues, `LONG_MAX` when nothing runs (state.cpp:153-158). -/
def nextEvent (s : St nV nE) : ℚ :=
  (List.finRange nV).foldl (fun m a => match s.queue a with | [] => m | x :: _ => min m x.1) longMax

/-- `State::advanceTime` (state.cpp:152-174): the new state and the returned time step. -/
def advanceTime (s : St nV nE) : St nV nE × ℚ :=
  let d := nextEvent s
  if d = 0 then (s, d)
  else if d = longMax then (s, d)
  else ({ s with queue := fun a => (s.queue a).map fun x => (x.1 - d, x.2), elapsed := s.elapsed + d }, d)

/-- `State::operator==` (state.cpp:205-226): buffer spaces are not compared. -/
def same (s t : St nV nE) : Prop :=
  s.elapsed = t.elapsed ∧ (∀ a, s.phase a = t.phase a) ∧ (∀ e, s.tokens e = t.tokens e) ∧ ∀ a, s.queue a = t.queue a

instance (s t : St nV nE) : Decidable (same s t) := by unfold same; infer_instance

/-- `StateList::addState` (state.cpp:264-273): position of the first recorded state equal to `s`. -/
def findState : List (St nV nE) → St nV nE → Option Nat
  | [], _ => none
  | v :: vs, s => if same v s then some 0 else (findState vs s).map (· + 1)

/-- `StateList::computeThroughput` (state.cpp:282-296): `none` is the division by a total time of 0. -/
def throughput (visited : List (St nV nE)) (i : Nat) : Option ℚ :=
  let cyc := visited.drop i
  let total := (cyc.map fun s => s.elapsed).sum
  if total = 0 then none else some ((cyc.length : ℚ) / total)

/-- Where the program is: in the `for` loop that ends executions (vertices still to visit), in the one that starts
executions, about to advance time, or returned. -/
inductive Pc (nV : Nat) where
  | ends (rest : List (Fin nV))
  | starts (rest : List (Fin nV))
  | advance
  | deadlock
  | recurrent (thr : Option ℚ)
deriving DecidableEq

/-- All program variables of the main loop. `clock` and `completed` are ghosts (total simulated time, number of
executions of each actor that have ended): nothing reads them. -/
structure Machine (nV nE : Nat) where
  pc : Pc nV
  acts : Fin nV → Act
  st : St nV nE
  count : Int
  visited : List (St nV nE)
  clock : ℚ
  completed : Fin nV → Nat

/-- The part of the machine that the loops never change: graph, capacities, actor with the smallest repetition factor
and whether the loop stops at a recurrent state (it always does in the program; `false` is the same execution carried
on forever). -/
structure Cfg (nV nE : Nat) where
  g : Graph nV nE
  cap : Option (Fin nE → Int)
  minActor : Fin nV
  detect : Bool

/-- Ends one execution of `t` (symbolic_execution.cpp:268-269). -/
def endOne (c : Cfg nV nE) (m : Machine nV nE) (t : Fin nV) : Machine nV nE :=
  let r := execEnd c.g c.cap m.acts m.st t
  { m with acts := r.1, st := updateState c.g r.1 r.2,
           completed := Function.update m.completed t (m.completed t + 1) }

/-- One loop test with its body, or one time advance (symbolic_execution.cpp:243-300). -/
def step (c : Cfg nV nE) (m : Machine nV nE) : Machine nV nE :=
  match m.pc with
  | .ends [] => { m with pc := .starts (List.finRange nV) }
  | .ends (t :: rest) =>
    if readyToEnd m.st t then                                                     -- line 252
      if t = c.minActor then                                                      -- line 253
        if m.count + 1 = c.g.ni c.minActor then                                   -- lines 254-255
          match (if c.detect then findState m.visited m.st else none) with        -- line 258
          | some i => { m with pc := .recurrent (throughput m.visited i), count := m.count + 1 }
          | none => endOne c { m with visited := m.visited ++ [m.st], st := { m.st with elapsed := 0 }, count := 0 } t
        else endOne c { m with count := m.count + 1 } t
      else endOne c m t
    else { m with pc := .ends rest }
  | .starts [] => { m with pc := .advance }
  | .starts (t :: rest) =>
    if ready c.g c.cap m.acts m.st t then                                         -- line 281
      let r := execStart c.g c.cap m.acts m.st t
      { m with acts := r.1, st := updateState c.g r.1 r.2 }                       -- lines 282-283
    else { m with pc := .starts rest }
  | .advance =>
    let r := advanceTime m.st                                                     -- line 293
    if r.2 = longMax then { m with pc := .deadlock, st := r.1 }                   -- line 294
    else { m with pc := .ends (List.finRange nV), st := r.1, clock := m.clock + r.2 }
  | .deadlock => m
  | .recurrent _ => m

/-- The machine after `n` steps. -/
def run (c : Cfg nV nE) (m : Machine nV nE) : Nat → Machine nV nE
  | 0 => m
  | n + 1 => step c (run c m n)

/-- Selection of the actor with the smallest repetition factor (symbolic_execution.cpp:231-238): the first one, `none`
when every factor is at least `INT_MAX` (the code then reads an uninitialised variable). -/
def selectMin (g : Graph nV nE) : Option (Fin nV) :=
  ((List.finRange nV).foldl (fun (b : Option (Fin nV) × Int) t => if g.ni t < b.2 then (some t, g.ni t) else b)
    (none, intMax)).1

/-- The start of the main loop: constructors of `Actor` (actor.cpp:24-54) and `State` (state.cpp:22-66), then the choice
of the reference actor. `none`: the constructors fail (a rate vector shorter than the number of phases), divide by zero
(no phase, no duration), or no reference actor is found. -/
def start (g : Graph nV nE) (cap : Option (Fin nE → Int)) (detect : Bool) : Option (Cfg nV nE × Machine nV nE) :=
  if (∀ e, g.phases (g.src e) ≤ (g.prod e).length ∧ g.phases (g.tgt e) ≤ (g.cons e).length) ∧
      (∀ a, g.phases a ≠ 0 ∧ g.dur a ≠ []) then
    match selectMin g with
    | none => none
    | some t =>
      let acts : Fin nV → Act := fun _ => ⟨0, false⟩
      some (⟨g, cap, t, detect⟩,
        { pc := .ends (List.finRange nV), acts := acts,
          st := { queue := fun _ => [], phase := phaseOf g acts, tokens := g.preload,
                  space := fun e => (cap.elim 0 fun k => k e) - g.preload e, elapsed := 0 },
          count := 0, visited := [], clock := 0, completed := fun _ => 0 })
  else none

/-- Result of `computeComponentThroughput` (or of the throughput part of `computeComponentThroughputCycles`) if it
returns within `n` loop tests: `some (some thr)`; `some none` is a division by zero in `computeThroughput`; a deadlock
returns 0 (symbolic_execution.cpp:263, 297). -/
def result (m : Machine nV nE) : Option (Option ℚ) :=
  match m.pc with
  | .deadlock => some (some 0)
  | .recurrent t => some t
  | _ => none

end Kiter.Sim
