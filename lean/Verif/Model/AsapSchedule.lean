/-
Model of the ASAP schedule: `computeComponentThroughputSchedule` (algorithms/throughput/symbolic_execution.cpp:576-734), the
self-timed execution of Model/SymbolicExecution.lean that also writes down when executions start, and `ASAPScheduling`
(lines 736-818), which runs it on every strongly connected component.

The main loop is the machine of Model/SymbolicExecution.lean; it is not stopped by the recurrent state (the `step` of
`c.free`) but goes on until every actor has started once more. Reading `back()` or `end() - 1` of an empty vector is `none`.
-/
import Verif.Model.AsapThroughput
import Verif.Model.Chart

set_option autoImplicit false

namespace Kiter.Sim

variable {nV nE : Nat}

/-- The same execution, carried on forever instead of stopping at a recurrent state: the schedule loop only tests for a
recurrent state itself (symbolic_execution.cpp:638-648). -/
def Cfg.noStop (c : Cfg nV nE) : Cfg nV nE := ⟨c.g, c.cap, c.minActor, false⟩

/-- Variables of the loop: those of the throughput loop, `starts` (per task, a vector of start times for each recorded state),
`end_check` with `thr` and `periodic_state_idx` (`found`), `actors_check` (`-1` is `none`: times are never negative),
`actors_left`, and whether the function has returned (symbolic_execution.cpp:580-598). `curr_step` is `clock`: 0 at
the start, increased by every time step (line 727); after the time step of a deadlock nothing reads it. -/
structure Logger (nV nE : Nat) where
  m : Machine nV nE
  starts : Fin nV → List (List ℚ)
  found : Option (Option ℚ × Nat)
  check : Fin nV → Option ℚ
  left : Nat
  done : Bool

/-- `v.back().push_back(x)`. -/
def pushLast : List (List ℚ) → ℚ → Option (List (List ℚ))
  | [], _ => none
  | [l], x => some [l ++ [x]]
  | l :: l' :: r, x => (pushLast (l' :: r) x).map (l :: ·)

/-- The record of a state (symbolic_execution.cpp:636-657), before the end of the execution: until the recurrent state is
found, a new state opens a new vector of starts for every task. -/
def record (r : Logger nV nE) : Logger nV nE :=
  match r.found with
  | some _ => { r with m := { r.m with st := { r.m.st with elapsed := 0 }, count := 0 } }
  | none =>
    match findState r.m.visited r.m.st with
    | some i =>
      { r with found := some (throughput r.m.visited i, i),
               m := { r.m with st := { r.m.st with elapsed := 0 }, count := 0 } }
    | none =>
      { r with starts := fun a => r.starts a ++ [[]],
               m := { r.m with visited := r.m.visited ++ [r.m.st], st := { r.m.st with elapsed := 0 }, count := 0 } }

/-- The start of an execution of `t` is written down (symbolic_execution.cpp:681-721): before the recurrent state in the
current vector of `t`, after it only the first time, until no actor is left. -/
def logStart (r : Logger nV nE) (t : Fin nV) : Option (Logger nV nE) :=
  if r.found.isSome then
    if (r.check t).isNone then
      (pushLast (r.starts t) r.m.clock).map fun l =>
        { r with check := Function.update r.check t (some r.m.clock), starts := Function.update r.starts t l,
                 left := r.left - 1, done := decide (r.left - 1 = 0) }
    else some { r with done := decide (r.left = 0) }
  else if (r.starts t).length = 0 then some { r with starts := Function.update r.starts t [[r.m.clock]] }
  else (pushLast (r.starts t) r.m.clock).map fun l => { r with starts := Function.update r.starts t l }

/-- One loop test with its body (symbolic_execution.cpp:624-733). -/
def logStep (c : Cfg nV nE) (r : Logger nV nE) : Option (Logger nV nE) :=
  if r.done then some r
  else
    match r.m.pc with
    | .ends (t :: _) =>
      if readyToEnd r.m.st t = true ∧ t = c.minActor ∧ r.m.count + 1 = c.g.ni c.minActor then      -- lines 634-637
        let r' := record r
        some { r' with m := endOne c r'.m t }                                                     -- lines 661-662
      else some { r with m := step c.noStop r.m }
    | .starts (t :: _) =>
      if ready c.g c.cap r.m.acts r.m.st t then                                                   -- line 675
        (logStart r t).map fun r' => { r' with m := step c.noStop r.m }                           -- lines 676-677
      else some { r with m := step c.noStop r.m }
    | _ => some { r with m := step c.noStop r.m }

/-- The loop after `n` tests. -/
def logRun (c : Cfg nV nE) (r : Logger nV nE) : Nat → Option (Logger nV nE)
  | 0 => some r
  | n + 1 => (logRun c r n).bind (logStep c)

/-- The variables before the loop (symbolic_execution.cpp:580-620). -/
def logInit (m : Machine nV nE) : Logger nV nE := ⟨m, fun _ => [], none, fun _ => none, nV, false⟩

/-- `periodics.second` (symbolic_execution.cpp:700-705) from the vectors at and after `periodic_state_idx`: all starts but the
last one. -/
def periodicPart : List (List ℚ) → Option (List ℚ)
  | [] => some []
  | [l] => if l.length = 0 then none else some l.dropLast
  | l :: l' :: r => (periodicPart (l' :: r)).map (l ++ ·)

/-- The schedule of one task (symbolic_execution.cpp:692-711): the vectors before `periodic_state_idx` are initial starts, the
others are periodic ones; the period is the distance from the first of them to the start after the recurrent state.
`periodics.second[0]` of an empty vector is `none`. -/
def taskEntry (idx : Nat) (segs : List (List ℚ)) (check : Option ℚ) : Option Chart.Entry := do
  let p ← periodicPart (segs.drop idx)
  let first ← p.head?
  let t ← check
  pure ⟨(segs.take idx).flatten, t - first, p⟩

/-- What the function returns if it does within `n` loop tests: the throughput and one entry per task, or 0 and no entry for
a deadlock (symbolic_execution.cpp:690-715, 728-731). -/
def outcome (r : Logger nV nE) : Option (ℚ × Option (Fin nV → Chart.Entry)) :=
  if r.done then do
    let f ← r.found
    let thr ← f.1
    let es ← (List.finRange nV).mapM fun a => taskEntry f.2 (r.starts a) (r.check a)
    if h : es.length = nV then pure (thr, some fun a => es[a]) else none
  else match r.m.pc with
    | .deadlock => some (0, none)
    | _ => none

/-- `computeComponentThroughputSchedule` (symbolic_execution.cpp:576-734) on a graph with its repetition vector, `n` loop tests
being allowed: reference actor, throughput and schedule. -/
def componentSchedule (g : Graph nV nE) (n : Nat) : Option (Fin nV × ℚ × Option (Fin nV → Chart.Entry)) := do
  let s ← start g none true
  let r ← logRun s.1 (logInit s.2) n
  let o ← outcome r
  pure (s.1.minActor, o)

/-- The entries that one component adds to the schedule of the graph (symbolic_execution.cpp:763-796): none for a component
without channel, none after a deadlock. -/
def componentEntries (g : Graph nV nE) (n : Nat) (K : List (Fin nV)) : Option (List (Fin nV × Chart.Entry)) :=
  if 0 < (g.inner K).length then do
    let s ← (g.sub K).repeated
    let r ← componentSchedule s n
    match r.2.2 with
    | none => pure []
    | some f => pure ((List.finRange K.length).map fun i => (K[i], f i))
  else some []

/-- The schedule that `ASAPScheduling` prints (symbolic_execution.cpp:736-818): one entry per task that has one. -/
def asapSchedule (g : Graph nV nE) (id : Fin nV → Int) (n : Nat) : Option (List (Fin nV × Chart.Entry)) := do
  let g ← g.repeated
  let cs ← SCC.kosaraju (g.toSCC id)
  if cs.length > 1 then
    let l ← cs.mapM fun comp => componentEntries g n (keep id comp)
    pure l.flatten
  else
    let r ← componentSchedule g n
    match r.2.2 with
    | none => pure []
    | some f => pure ((List.finRange nV).map fun i => (i, f i))

end Kiter.Sim
