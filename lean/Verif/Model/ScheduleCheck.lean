/-
Model of the check of a schedule, `Scheduling::is_valid_schedule` (src/libkiter/models/Scheduling.cpp:276-474), that `So4Scheduling` prints as "Schedule Check".

Vertices and edges are numbered from 1 in the order of `Fin` (as `addVertex` and `addEdge` do), so that `std::map`s over identifiers are read in the order of `Fin`.
`TIME_UNIT` is `ℚ`, counters do not overflow. A channel has one rate per phase of its ends; a rate outside reads as 0. Both `while` loops may run for ever: the number of
passes is bounded by a parameter, `none` when it is reached, as for undefined behaviour.
-/
import Verif.Model.SymbolicExecution
import Verif.Model.Chart

set_option autoImplicit false

namespace Kiter.Check
open Kiter.Sim

variable {nV nE : Nat}

/-- One date is taken from the front of the periodic starts and put back one period later (Scheduling.cpp:319-323, 340-344). -/
def pop (p : ℚ) : List ℚ → Option (ℚ × List ℚ)
  | [] => none
  | x :: q => some (x, q ++ [x + p])

/-- The loop of lines 318-324: `n` dates, and what is left of the periodic starts. -/
def dates (p : ℚ) : Nat → List ℚ → Option (List ℚ × List ℚ)
  | 0, q => some ([], q)
  | n + 1, q => do
    let x ← pop p q
    let r ← dates p n x.2
    some (x.1 :: r.1, r.2)

/-- The initial starts and `Ni + 1` periodic ones (Scheduling.cpp:312-324). A task without schedule has an empty vector, whose `back()` is undefined (line 331). -/
def base (g : Graph nV nE) (sched : Fin nV → Option Chart.Entry) (a : Fin nV) : Option (List ℚ × List ℚ) := do
  let en ← sched a
  let r ← dates en.period (g.ni a + 1).toNat en.starts
  if en.init ++ r.1 = [] then none else some (en.init ++ r.1, r.2)

/-- `max_time` (Scheduling.cpp:329-334). -/
def maxTime (L : Fin nV → List ℚ) : ℚ := (List.finRange nV).foldl (fun m a => if m < (L a).getLastD 0 then (L a).getLastD 0 else m) 0

/-- The loop of lines 338-346: dates are added until one is not before `top`. -/
def fillUp (p top : ℚ) : Nat → ℚ → List ℚ → Option (List ℚ)
  | 0, _, _ => none
  | n + 1, last, q =>
    if last < top then do
      let x ← pop p q
      let r ← fillUp p top n x.1 x.2
      some (x.1 :: r)
    else some []

/-- The dates of every task (Scheduling.cpp:312-347). -/
def lists (g : Graph nV nE) (sched : Fin nV → Option Chart.Entry) (n : Nat) (a : Fin nV) : Option (List ℚ) := do
  if ∀ b, (base g sched b).isSome then
    let top := maxTime fun b => ((base g sched b).getD ([], [])).1
    let en ← sched a
    let r ← base g sched a
    let more ← fillUp en.period top n (r.1.getLastD 0) r.2
    some (r.1 ++ more)
  else none

/-- The variables of the symbolic execution (Scheduling.cpp:356-369): `cur_phase`, `schedule`, `exec_left`, `buffer_load`, `task_history`, `next_task`. -/
structure State (nV nE : Nat) where
  phase : Fin nV → Nat
  dates : Fin nV → List ℚ
  left : Fin nV → Int
  load : Fin nE → Int
  hist : Fin nV → ℚ
  next : Fin nV × ℚ

/-- The search of lines 433-437: the first date that is neither before `t` nor up to `h`, or the last one. -/
def pick (t h : ℚ) : List ℚ → Option ℚ
  | [] => none
  | [x] => some x
  | x :: y :: r => if x < t ∨ x ≤ h then pick t h (y :: r) else some x

/-- The candidate of a task (Scheduling.cpp:431-441). -/
def candidate (t h : ℚ) (l : List ℚ) : Option ℚ := (pick t h l).filter fun x => decide (h < x)

/-- A candidate against the first element of `potential_next_tasks` so far (Scheduling.cpp:440): the last task put at a date replaces the others. -/
def better (best : Option (Fin nV × ℚ)) (a : Fin nV) (x : Option ℚ) : Option (Fin nV × ℚ) :=
  match x, best with
  | none, best => best
  | some x, none => some (a, x)
  | some x, some (b, y) => if x ≤ y then some (a, x) else some (b, y)

/-- `potential_next_tasks` and its first element (Scheduling.cpp:427-446). -/
def earliest (c : Fin nV → Option ℚ) : Option (Fin nV × ℚ) := (List.finRange nV).foldl (fun best a => better best a (c a)) none

/-- Outcome of a pass: go on, or return. -/
inductive Pass (nV nE : Nat) where
  | go (s : State nV nE)
  | stop (valid : Bool)

/-- The date at which the execution in front of a task ends (Scheduling.cpp:384-385). -/
def finish (g : Graph nV nE) (s : State nV nE) (a : Fin nV) : Option ℚ := do
  let d ← (g.dur a)[s.phase a]?
  let x ← (s.dates a).head?
  some (d + x)

/-- The tasks found at lines 382-394. -/
def ends (g : Graph nV nE) (s : State nV nE) (a : Fin nV) : Bool :=
  match finish g s a with
  | some f => decide (f ≤ s.next.2)
  | none => false

/-- One pass of the loop (Scheduling.cpp:376-470). `reent` is the reentrancy factor. -/
def pass (g : Graph nV nE) (reent : Fin nV → Int) (s : State nV nE) : Option (Pass nV nE) :=
  if ((List.finRange nV).map s.left).sum = 0 then some (.stop true)                         -- line 376
  else if ∃ a, (finish g s a).isNone then none
  else
    let b := s.next.1
    let t := s.next.2
    let load := fun e => s.load e + (if ends g s (g.src e) then (g.prod e).getD (s.phase (g.src e)) 0 else 0)  -- lines 402-410
    let load := fun e => load e - (if g.tgt e = b then (g.cons e).getD (s.phase b) 0 else 0)                   -- lines 412-416
    if ∃ e, g.tgt e = b ∧ load e < 0 then some (.stop false)                                -- line 419
    else
      let phase := fun a => if ends g s a then (s.phase a + 1) % (g.dur a).length else s.phase a
      let dates := fun a => if ends g s a then (s.dates a).tail else s.dates a
      let left := fun a => if ends g s a ∧ 0 < s.left a then s.left a - 1 else s.left a     -- lines 422-426
      let hist := Function.update s.hist b t                                                -- line 437
      do
        let nx ← earliest fun a => candidate t (hist a) (dates a)
        let d ← (g.dur nx.1)[phase nx.1]?
        if reent nx.1 = 0 ∧ nx.2 < hist nx.1 + d then some (.stop false)                    -- lines 463-468
        else some (.go ⟨phase, dates, left, load, hist, nx⟩)

/-- The loop, at most `n` passes. -/
def loop (g : Graph nV nE) (reent : Fin nV → Int) : Nat → State nV nE → Option Bool
  | 0, _ => none
  | n + 1, s =>
    match pass g reent s with
    | none => none
    | some (.stop r) => some r
    | some (.go s) => loop g reent n s

/-- `next_task` before the loop (Scheduling.cpp:361-366): the last task that starts at 0. Without one it is vertex 0, which does not exist. -/
def first (L : Fin nV → List ℚ) : Option (Fin nV) :=
  (List.finRange nV).foldl (fun r a => if (L a).headD 1 = 0 then some a else r) none

/-- `is_valid_schedule` with at most `n` passes of each loop. Vectors of `auto_edge_num` elements are indexed by identifiers of tasks: undefined when there are more tasks than channels. -/
def check (g : Graph nV nE) (reent : Fin nV → Int) (sched : Fin nV → Option Chart.Entry) (n : Nat) : Option Bool :=
  if nE < nV then none
  else if ∀ a, (lists g sched n a).isSome then
    let L := fun a => (lists g sched n a).getD []
    (first L).bind fun b =>
      loop g reent n ⟨fun _ => 0, L, fun a => ((sched a).map fun en => (en.init.length : Int)).getD 0 + g.ni a, g.preload, fun _ => 0, (b, 0)⟩
  else none

end Kiter.Check
