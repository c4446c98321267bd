/-
Specification of the throughput of a dataflow graph over *all* schedules, periodic or not.
-/
import Verif.Spec.KPeriodic
import Verif.Model.KIter
import Mathlib.Order.Bounds.Defs

set_option autoImplicit false

namespace Kiter

/-- An arbitrary schedule: start of the `k`-th execution (from 0) of the task with a given id. It is valid when starts
are non-negative, executions of a task run in order without overlap, and no channel is ever short of tokens. -/
structure ValidGen (B : BaseGraph) (σ : Int → ℕ → ℚ) : Prop where
  nonneg : ∀ t ∈ B.tasks, ∀ k, 0 ≤ σ t.id k
  noOverlap : ∀ t ∈ B.tasks, ∀ k, σ t.id k + t.dur k ≤ σ t.id (k + 1)
  channels : ∀ c ∈ B.channels, NeverShort (rate c.1.inPhases) (rate c.1.outPhases) c.1.preload
    (fun k => σ c.2.1.id k + c.2.1.dur k) (σ c.2.2.id)

/-- The schedule completes a graph iteration every `Ω` time units on average: task `t`, which executes `ni` times per
iteration, has started its `k`-th execution at the latest at `Ω * k / ni`, up to a constant delay. -/
def Sustains (B : BaseGraph) (σ : Int → ℕ → ℚ) (Ω : ℚ) : Prop :=
  ∀ t ∈ B.tasks, ∃ C, ∀ k : ℕ, σ t.id k ≤ Ω * k / t.ni + C

/-- Periods that some valid schedule sustains. -/
def SustainablePeriods (B : BaseGraph) : Set ℚ := {Ω | ∃ σ, ValidGen B σ ∧ Sustains B σ Ω}

/-- A graph the theorems cover: unique ids, tasks and channels as in `TaskOK` and `ChannelOK`, repetition counts
multiples of the number of phases (which the repetition vector guarantees, C12). -/
structure BaseOK (B : BaseGraph) : Prop where
  ids : ∀ s ∈ B.tasks, ∀ t ∈ B.tasks, s.id = t.id → s = t
  tasks : ∀ t ∈ B.tasks, TaskOK t 1
  multiple : ∀ t ∈ B.tasks, (t.durations.length : Int) ∣ t.ni
  channels : ∀ c ∈ B.channels, c.2.1 ∈ B.tasks ∧ c.2.2 ∈ B.tasks ∧ ChannelOK c.1 c.2.1 c.2.2
  channelIds : ∀ c ∈ B.channels, ∀ e ∈ B.channels, c.1.id = e.1.id → c = e

/-- Number of graph iterations' worth of periods: executions per graph iteration divided by the number of phases. -/
def reps (t : KTask) : ℕ := (t.ni / t.durations.length).toNat

/-- Total duration and total weight of a sequence of constraints. -/
def totalD (p : List EvConstraint) : ℚ := (p.map fun c => c.d).sum
def totalW (p : List EvConstraint) : ℚ := (p.map fun c => c.w).sum

/-- `(th, p)` answers the cycle ratio problem, whatever the sign: `p` is a circuit of positive duration and of ratio
`th = W/D`, and no circuit has a smaller ratio. -/
structure CycleAnswer (cs : List EvConstraint) (th : ℚ) (p : List EvConstraint) : Prop where
  circuit : ∃ u, IsWalk cs u p u
  posD : 0 < totalD p
  ratio : totalD p * th = totalW p
  best : ∀ u q, IsWalk cs u q u → totalD q * th ≤ totalW q

/-- `(th, p)` is an exact answer to the cycle ratio problem: `p` is a circuit of ratio `th = W/D`, with `W, D`
positive, and no circuit has a smaller ratio. -/
structure ExactRatio (cs : List EvConstraint) (th : ℚ) (p : List EvConstraint) : Prop where
  circuit : ∃ u, IsWalk cs u p u
  posD : 0 < totalD p
  posW : 0 < totalW p
  ratio : totalD p * th = totalW p
  best : ∀ u q, IsWalk cs u q u → totalD q * th ≤ totalW q

end Kiter
