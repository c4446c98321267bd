/-
Specification of offsets: starts of the phases of a task relative to the start of the task.
-/
import Verif.Spec.Buffers

set_option autoImplicit false

namespace Kiter
open Finset

/-- Time from the start of the first phase to the start of phase `a` (from 0) when phases follow each other without gap. -/
def workBefore (t : KTask) (a : ℕ) : ℚ := ∑ i ∈ range a, t.dur i

/-- The offsets `l` describe executions of the phases of the task without overlap, repeated with the period of the task. -/
structure OffsetsFit (t : KTask) (Ω : ℚ) (l : List ℚ) : Prop where
  length : l.length = t.durations.length
  nonneg : ∀ a < t.durations.length, 0 ≤ l.getD a 0
  chain : ∀ a, a + 1 < t.durations.length → l.getD a 0 + t.dur a ≤ l.getD (a + 1) 0
  wrap : l.getD (t.durations.length - 1) 0 + t.dur (t.durations.length - 1) ≤ l.getD 0 0 + Ω * t.durations.length / t.ni

/-- Periodic schedules in which the phases of each task start at the given offsets from a non-negative start of the task. -/
def WithOffsets (B : BaseGraph) (o : Int → List ℚ) (Ω : ℚ) (σ : Int → ℕ → ℚ) : Prop :=
  PeriodicSchedule B σ Ω ∧ ∀ t ∈ B.tasks, ∃ x, 0 ≤ x ∧ ∀ a < t.durations.length, σ t.id a = x + (o t.id).getD a 0

/-- Strictly periodic schedules: the executions of each task, whatever their phase, start at a constant distance. -/
def StrictlyPeriodic (B : BaseGraph) (Ω : ℚ) (σ : Int → ℕ → ℚ) : Prop :=
  ∀ t ∈ B.tasks, ∃ x, 0 ≤ x ∧ ∀ n : ℕ, σ t.id n = x + n * (Ω / t.ni)

end Kiter
