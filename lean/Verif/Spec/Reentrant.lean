/-
Specification of the schedules of graphs with reentrant tasks. A task with a reentrancy factor of 0 (the default for the
tasks of an SDF3 file) may run any number of executions at the same time; its executions still start in the order of
their phases.
-/
import Verif.Spec.Throughput

set_option autoImplicit false

namespace Kiter

/-- An arbitrary schedule: starts are non-negative, the executions of a task start in order, those of a task that is not
reentrant do not overlap, and no channel is ever short of tokens. -/
structure OrderedSchedule (B : BaseGraph) (σ : Int → ℕ → ℚ) : Prop where
  nonneg : ∀ t ∈ B.tasks, ∀ k, 0 ≤ σ t.id k
  ordered : ∀ t ∈ B.tasks, ∀ k, σ t.id k ≤ σ t.id (k + 1)
  noOverlap : ∀ t ∈ B.tasks, 0 < t.reentrancy → ∀ k, σ t.id k + t.dur k ≤ σ t.id (k + 1)
  channels : ∀ c ∈ B.channels, NeverShort (rate c.1.inPhases) (rate c.1.outPhases) c.1.preload
    (fun k => σ c.2.1.id k + c.2.1.dur k) (σ c.2.2.id)

/-- Periods that some such schedule sustains. -/
def OrderedPeriods (B : BaseGraph) : Set ℚ := {Ω | ∃ σ, OrderedSchedule B σ ∧ Sustains B σ Ω}

/-- A task covered by the theorems on reentrant tasks: as `TaskOK` with any reentrancy factor, but the phases of a
reentrant task all last as long (any task of an SDF graph). -/
structure ReTaskOK (t : KTask) : Prop where
  phases : 0 < t.durations.length
  noInit : t.initDurations = []
  durNonneg : ∀ d ∈ t.durations, 0 ≤ d
  constant : t.reentrancy ≤ 0 → ∀ d ∈ t.durations, ∀ d' ∈ t.durations, d = d'
  ni : 0 < t.ni

/-- As `BaseOK`, with `ReTaskOK`. -/
structure ReBaseOK (B : BaseGraph) : Prop where
  ids : ∀ s ∈ B.tasks, ∀ t ∈ B.tasks, s.id = t.id → s = t
  tasks : ∀ t ∈ B.tasks, ReTaskOK t
  multiple : ∀ t ∈ B.tasks, (t.durations.length : Int) ∣ t.ni
  channels : ∀ c ∈ B.channels, c.2.1 ∈ B.tasks ∧ c.2.2 ∈ B.tasks ∧ ChannelOK c.1 c.2.1 c.2.2
  channelIds : ∀ c ∈ B.channels, ∀ e ∈ B.channels, c.1.id = e.1.id → c = e

end Kiter
