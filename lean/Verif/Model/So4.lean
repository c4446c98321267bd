/-
Model of the execution over a network with time slots: src/libkiter/algorithms/throughput/so4_noc.cpp, with the parts of actor.cpp
and state.cpp that only it uses (`execEndWithMod`, `advanceTimeWithMod`).

A channel crosses the network in the time slot of its rule: what an execution produces leaves at the next date of that slot and
arrives after one time unit per link of the route. The tables of rules are those read by `generateConditions`; the loop is that of
`computeComponentSo4Schedule`, one round of its `while (true)` being one call of `round`. Inside a round every loop ends, so
that a round is a total function and only the number of rounds is unbounded.

`TIME_UNIT` is `ℚ`; counters do not overflow, but the conversion of the date to `int` (actor.cpp:214) is checked. Not modelled: the XML and text
parsing (the rules are given as the numbers read) and what `So4Scheduling` prints besides the throughput and the schedule (lines 317-335, 344-351).
-/
import Verif.Model.AsapSchedule
import Mathlib.Data.Rat.Floor

set_option autoImplicit false

namespace Kiter.So4

open Kiter.Sim

variable {nV nE : Nat}

/-! ### The table of rules -/

/-- What `generateConditions` reads of the channels of a graph (so4_noc.cpp:56-62, 86-98): whether its type is `VIRTUAL_EDGE`, the links of its route
and the nodes that its source and target are mapped to. -/
structure Placed (nE : Nat) where
  virt : Fin nE → Bool
  route : Fin nE → List Int
  srcNode : Fin nE → Int
  dstNode : Fin nE → Int

/-- What the loop reads: the type of each channel, its slot (`condition`), the number of links of its route, and the number of slots. -/
structure Table (nE : Nat) where
  virt : Fin nE → Bool
  slot : Fin nE → Int
  hops : Fin nE → Nat
  slots : Int

/-- `std::map::insert` for every rule, then `operator[]` (so4_noc.cpp:25, 52, 60): the first rule of a key wins, a missing key reads as 0. -/
def firstRule {κ : Type} [DecidableEq κ] : List (κ × Int) → κ → Option Int
  | [], _ => none
  | (k, s) :: r, x => if k = x then some s else firstRule r x

/-- The rules of an `.xml` file (so4_noc.cpp:24-69, 101): the attribute of the root is the number read by `atoi`, a rule is a link and a slot.
A channel takes the slot of the first link of its route; `getRoute(e)[0]` of an empty route is undefined. -/
def xmlTable (p : Placed nE) (slotsAttr : Int) (rules : List (Int × Int)) : Option (Table nE) :=
  if ∀ e, p.virt e = false → p.route e ≠ [] then
    some ⟨p.virt, fun e => if p.virt e then -1 else (firstRule rules ((p.route e).headD 0)).getD 0,
      fun e => (p.route e).length, slotsAttr + 1⟩
  else none

/-- One line of a `.txt` file (so4_noc.cpp:74-85): the numbers of the line, the words `src`, `dest` and `slot` being left out; fewer than three is a
read out of bounds. `size` is the number of routers, added to both ends. -/
def txtRule (size : Int) (vals : List Int) : Option ((Int × Int) × Int) :=
  match vals with
  | a :: b :: s :: _ => some ((a + size, b + size), s)
  | _ => none

/-- The rules of a `.txt` file (so4_noc.cpp:70-101). A channel without a rule gets slot 0, with a message (line 95). -/
def txtTable (p : Placed nE) (size : Int) (lines : List (List Int)) : Option (Table nE) := do
  let rules ← lines.mapM (txtRule size)
  some ⟨p.virt, fun e => if p.virt e then -1 else (firstRule rules (p.srcNode e, p.dstNode e)).getD 0,
    fun e => (p.route e).length, rules.foldl (fun m r => if r.2 > m then r.2 else m) 0 + 1⟩

/-! ### Arrival dates -/

/-- `(int) step` (actor.cpp:214): truncation, undefined out of the range of `int`. -/
def toInt (t : ℚ) : Option Int :=
  let n := if 0 ≤ t then ⌊t⌋ else ⌈t⌉
  if -2147483648 ≤ n ∧ n ≤ 2147483647 then some n else none

/-- Date at which what is produced at date `step` on channel `e` arrives (actor.cpp:212-225). The remainder is computed before the type of the
channel is looked at: it is undefined for 0 slots. -/
def arrival (T : Table nE) (e : Fin nE) (step : ℚ) : Option ℚ := do
  let n ← toInt step
  if T.slots = 0 then none
  else
    let m := Int.tmod n T.slots
    if T.virt e then some step
    else if m ≤ T.slot e then some (step + (T.slot e - m) + T.hops e)
    else some (step + T.slots - (m - T.slot e) + T.hops e)

/-! ### The loop -/

/-- The variables of the loop (so4_noc.cpp:105-151): those of the loop of `ASAPScheduling` (Model/AsapSchedule.lean: state, dates of the starts, recurrent state
found; `clock` is `curr_step`, `pc` is not used) and `n_buffer`, what is on its way: arrival date, channel, tokens. `hist` is a ghost: the dates of
all starts of each task; nothing reads it. -/
structure Run (nV nE : Nat) where
  r : Logger nV nE
  net : List (ℚ × Fin nE × Int)
  hist : Fin nV → List ℚ

/-- `Actor::execEndWithMod` (actor.cpp:208-234): nothing is produced yet, the tokens are put on the network. The output channels are visited in
the order of their ids. -/
def execEnd (T : Table nE) (g : Graph nV nE) (x : Run nV nE) (a : Fin nV) : Option (Run nV nE) :=
  match x.r.m.st.queue a with
  | [] => some x
  | q :: rest => do
    let l ← ((List.finRange nE).filter fun e => decide (g.src e = a)).mapM fun e =>
      (arrival T e x.r.m.clock).map fun d => (d, e, rateAt g a e q.2)
    some { x with
      net := x.net ++ l
      r := { x.r with m := { x.r.m with
        acts := Function.update x.r.m.acts a ⟨(x.r.m.acts a).numExecs, false⟩
        st := { x.r.m.st with queue := Function.update x.r.m.st.queue a rest }
        completed := Function.update x.r.m.completed a (x.r.m.completed a + 1) } } }

/-- The bookkeeping before an execution of `a` ends (so4_noc.cpp:165-186): the executions of the reference actor are counted and the state is recorded once per
iteration (`record` of Model/AsapSchedule.lean, the same lines). -/
def mark (c : Cfg nV nE) (x : Run nV nE) (a : Fin nV) : Run nV nE :=
  if a = c.minActor then
    if x.r.m.count + 1 = c.g.ni c.minActor then { x with r := record x.r }
    else { x with r := { x.r with m := { x.r.m with count := x.r.m.count + 1 } } }
  else x

/-- The `while` loop that ends the executions of `a` (so4_noc.cpp:164-191). Each pass removes one execution from its queue, so that `n` is its length. -/
def endTask (T : Table nE) (c : Cfg nV nE) (a : Fin nV) : Nat → Run nV nE → Option (Run nV nE)
  | 0, x => some x
  | n + 1, x =>
    if readyToEnd x.r.m.st a then (execEnd T c.g (mark c x a) a).bind (endTask T c a n)
    else some x

/-- The delivery (so4_noc.cpp:194-210): `n_buffer` is read from its front up to the first item not yet due, what has been read is added to the channels
and removed. Then `updateState`. -/
def deliver (g : Graph nV nE) (x : Run nV nE) : Run nV nE :=
  let due := x.net.takeWhile fun i => decide (i.1 ≤ x.r.m.clock)
  { x with
    net := x.net.dropWhile fun i => decide (i.1 ≤ x.r.m.clock)
    r := { x.r with m := { x.r.m with st := updateState g x.r.m.acts { x.r.m.st with
      tokens := fun e => x.r.m.st.tokens e + ((due.filter fun i => decide (i.2.1 = e)).map fun i => i.2.2).sum } } } }

/-- The start of an execution of `a` (so4_noc.cpp:217-258), at most one per round; nothing more happens once the function has returned. -/
def startTask (c : Cfg nV nE) (x : Run nV nE) (a : Fin nV) : Option (Run nV nE) :=
  if x.r.done then some x
  else if ready c.g none x.r.m.acts x.r.m.st a then
    (logStart x.r a).map fun r' =>
      let s := execStart c.g none x.r.m.acts x.r.m.st a
      { x with r := { r' with m := { x.r.m with acts := s.1, st := updateState c.g s.1 s.2 } }
               hist := Function.update x.hist a (x.hist a ++ [x.r.m.clock]) }
  else some x

/-- `State::advanceTimeWithMod` (state.cpp:176-199) and lines 260-261 of so4_noc.cpp. When nothing runs, time goes on by 1: `LONG_MAX` is never returned and the
deadlock of lines 262-265 is never reached. -/
def advance (x : Run nV nE) : Run nV nE :=
  let d := nextEvent x.r.m.st
  if d = 0 then x
  else if d = longMax then
    { x with r := { x.r with m := { x.r.m with st := { x.r.m.st with elapsed := x.r.m.st.elapsed + 1 }, clock := x.r.m.clock + 1 } } }
  else
    { x with r := { x.r with m := { x.r.m with
      st := { x.r.m.st with queue := fun a => (x.r.m.st.queue a).map fun q => (q.1 - d, q.2), elapsed := x.r.m.st.elapsed + d }
      clock := x.r.m.clock + d } } }

/-- One pass of `while (true)` (so4_noc.cpp:155-266). -/
def round (T : Table nE) (c : Cfg nV nE) (x : Run nV nE) : Option (Run nV nE) :=
  if x.r.done then some x
  else do
    let x ← (List.finRange nV).foldlM (fun y a => endTask T c a (y.r.m.st.queue a).length y) x
    let x ← (List.finRange nV).foldlM (startTask c) (deliver c.g x)
    if x.r.done then some x else some (advance x)

/-- The loop after `n` passes. -/
def rounds (T : Table nE) (c : Cfg nV nE) (x : Run nV nE) : Nat → Option (Run nV nE)
  | 0 => some x
  | n + 1 => (rounds T c x n).bind (round T c)

/-- The variables before the loop (so4_noc.cpp:105-151), on a graph with its repetition vector. -/
def init (m : Machine nV nE) : Run nV nE := ⟨logInit m, [], fun _ => []⟩

/-- What `computeComponentSo4Schedule` returns if it does within `n` passes: reference actor, throughput, one entry per task. -/
def component (T : Table nE) (g : Graph nV nE) (n : Nat) : Option (Fin nV × ℚ × Option (Fin nV → Chart.Entry)) := do
  let s ← start g none true
  let x ← rounds T s.1 (init s.2) n
  (if x.r.done then outcome x.r else none).map fun o => (s.1.minActor, o)

/-! ### The command -/

/-- The table that `generateConditions` makes for a component: the rules and the number of slots come from the same file. -/
def Table.sub (T : Table nE) (g : Graph nV nE) (K : List (Fin nV)) : Table (g.inner K).length :=
  ⟨fun e => T.virt (g.inner K)[e], fun e => T.slot (g.inner K)[e], fun e => T.hops (g.inner K)[e], T.slots⟩

/-- One component (so4_noc.cpp:289-315): its throughput in iterations of the whole graph and the entries it adds to the schedule. A task without
channel has no entry. A result of `component` without schedule does not happen; the schedule would then be left as it is (line 264). -/
def componentResult (T : Table nE) (g : Graph nV nE) (n : Nat) (K : List (Fin nV)) : Option (Option ℚ × List (Fin nV × Chart.Entry)) :=
  if 0 < (g.inner K).length then do                                               -- line 290
    let s ← (g.sub K).repeated
    let r ← component (T.sub g K) s n
    some (some (r.2.1 * s.ni r.1 / g.ni K[r.1]),                                  -- lines 295-296
      match r.2.2 with
      | none => []
      | some f => (List.finRange K.length).map fun i => (K[i], f i))
  else
    match K with
    | [v] => do                                                                   -- line 300
      let d ← totalDuration (g.dur v)
      if d = 0 then none else some (some ((g.phases v : ℚ) / d / g.ni v), [])     -- lines 310-312
    | _ => some (none, [])

/-- `So4Scheduling` (so4_noc.cpp:268-354): the throughput and the schedule printed, `n` passes being allowed for each component. -/
def command (T : Table nE) (g : Graph nV nE) (id : Fin nV → Int) (n : Nat) : Option (ℚ × List (Fin nV × Chart.Entry)) := do
  let g ← g.repeated
  let cs ← SCC.kosaraju (g.toSCC id)
  if cs.length > 1 then
    let rs ← cs.mapM fun comp => componentResult T g n (keep id comp)
    some ((rs.map Prod.fst).foldl (fun m t => match t with | some t => if t < m then t else m | none => m) longMax, (rs.map Prod.snd).flatten)
  else
    let r ← component T g n
    some (r.2.1, match r.2.2 with
      | none => []
      | some f => (List.finRange nV).map fun i => (i, f i))

end Kiter.So4
