/-
Model of `EventGraph::computeStartingTimeWithOmega` (src/libkiter/models/EventGraph.h:363-448).
The starting-time property map is a function on events; `TIME_UNIT` is `ℚ`; an infinite period is `none`.
-/
import Verif.Model.KPeriodic

set_option autoImplicit false

namespace Kiter

/-- `flow = d - omega * w` (EventGraph.h:377-381). -/
def flow (ω : ℚ) (c : EvConstraint) : ℚ := c.d - ω * c.w

/-- One test/update of the inner loop (EventGraph.h:411-423): the new starting times and the `updated` flag. -/
def relax (ω : ℚ) (st : (Event → ℚ) × Bool) (c : EvConstraint) : (Event → ℚ) × Bool :=
  if st.1 c.dst - st.1 c.src < flow ω c then
    (Function.update st.1 c.dst (flow ω c + st.1 c.src), true)
  else st

/-- The order in which a round visits the constraints: for every event, its output constraints
(EventGraph.h:406-409). -/
def relaxOrder (events : List Event) (cs : List EvConstraint) : List EvConstraint :=
  events.flatMap fun e => cs.filter fun c => c.src = e

/-- One round (EventGraph.h:405-425). -/
def relaxRound (ω : ℚ) (order : List EvConstraint) (S : Event → ℚ) : (Event → ℚ) × Bool :=
  order.foldl (relax ω) (S, false)

/-- At most `n` rounds, stopping when a round changes nothing (EventGraph.h:404, 426-429). -/
def relaxRounds (ω : ℚ) (order : List EvConstraint) : ℕ → (Event → ℚ) → (Event → ℚ)
  | 0, S => S
  | n + 1, S =>
    let r := relaxRound ω order S
    if r.2 then relaxRounds ω order n r.1 else r.1

/-- Shift so that the smallest starting time is 0 (EventGraph.h:435-448). The initial value
`numeric_limits::max()` of the minimum is treated as larger than every time. -/
def shiftMin (events : List Event) (S : Event → ℚ) : Event → ℚ :=
  match events with
  | [] => S
  | e :: es =>
    let m := es.foldl (fun acc x => min acc (S x)) (S e)
    fun x => if x ∈ e :: es then S x - m else S x

/-- `computeStartingTimeWithOmega`: returned flag and starting times. -/
def computeStartingTime (events : List Event) (cs : List EvConstraint) (ω : Option ℚ) : Bool × (Event → ℚ) :=
  match ω with
  | none => (false, fun _ => 0)
  | some ω => (true, shiftMin events (relaxRounds ω (relaxOrder events cs) events.length (fun _ => 0)))

/-- Entry of `scheduling_t` for a task: id, period, starting times of one period (models/Scheduling.h,
`task_schedule_t::periodic_starts`). -/
structure TaskSchedule where
  id : Int
  period : ℚ
  starts : List ℚ
deriving Repr, DecidableEq

/-- Starting time read through `getEventGraphVertex` (EventGraph.h:176-200): the event-to-vertex map is
read with `operator[]`, so an event that was never created reads vertex 0, the first event added. -/
def eventStart (events : List Event) (S : Event → ℚ) (e : Event) : Option ℚ :=
  if e ∈ events then some (S e) else events.head?.map S

/-- `period2scheduling` (kperiodic.cpp:171-217). `throughput = 0` makes the period infinite and is `none`. -/
def period2scheduling (g : KGraph) (throughput : ℚ) : Option (List TaskSchedule) :=
  if throughput = 0 then none
  else do
    let cs ← eventGraph g
    let ω := 1 / throughput
    if ω ≤ 0 then pure []
    else
      let S := (computeStartingTime (graphEvents g) cs (some ω)).2
      g.tasks.mapM fun tk =>
        if tk.1.ni = 0 then none
        else do
          let evs := (List.range tk.2).flatMap fun (k : Nat) =>
            (List.range (tk.1.initDurations.length + tk.1.durations.length)).map fun (p : Nat) =>
              (⟨tk.1.id, (p : Int) + 1 - tk.1.initDurations.length, (k : Int) + 1⟩ : Event)
          let starts ← evs.mapM (eventStart (graphEvents g) S)
          pure ⟨tk.1.id, ((tk.2 : ℚ) * tk.1.durations.length * ω) / tk.1.ni, starts⟩

end Kiter
