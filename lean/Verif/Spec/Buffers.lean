/-
Specification of schedules of a dataflow graph whose channels have bounded capacities, and of its throughput.
-/
import Verif.Spec.Throughput

set_option autoImplicit false

namespace Kiter

/-- A schedule of the graph that never exceeds the capacities `w`: an execution takes the room for what it produces at its
start, the room of what it consumes is given back at its end, and no channel is ever short of room. -/
structure BoundedSchedule (B : BaseGraph) (w : Fin B.channels.length → Int) (σ : Int → ℕ → ℚ) : Prop where
  valid : ValidGen B σ
  room : ∀ i : Fin B.channels.length, NeverShort (rate B.channels[i].1.outPhases) (rate B.channels[i].1.inPhases)
    (w i - B.channels[i].1.preload) (fun k => σ B.channels[i].2.2.id k + B.channels[i].2.2.dur k) (σ B.channels[i].2.1.id)

/-- The schedule is periodic with graph period `Ω`: each task repeats its phases every `Ω * phases / ni`, since it executes `ni`
times per graph iteration. -/
def PeriodicSchedule (B : BaseGraph) (σ : Int → ℕ → ℚ) (Ω : ℚ) : Prop :=
  ∀ t ∈ B.tasks, ∀ k, σ t.id (k + t.durations.length) = σ t.id k + Ω * t.durations.length / t.ni

/-- The throughput of the graph with these capacities, over all schedules: the inverse of the smallest sustainable period,
0 when there is no schedule. -/
def HasThroughput (B : BaseGraph) (w : Fin B.channels.length → Int) (thr : ℚ) : Prop :=
  (0 < thr ∧ IsLeast {Ω | ∃ σ, BoundedSchedule B w σ ∧ Sustains B σ Ω} (1 / thr)) ∨
    (thr = 0 ∧ ¬ ∃ σ, BoundedSchedule B w σ)

end Kiter
