/-
Specification for the check of schedules: the executions that a date of start leaves enough tokens to. Independent of the loops of Scheduling.cpp.
-/
import Verif.Model.ScheduleCheck
import Verif.Spec.SelfTimed
import Verif.Spec.Chart

set_option autoImplicit false

namespace Kiter.Check
open Kiter.Sim

variable {nV nE : Nat}

/-- What the first `k + 1` executions of the consumer of channel `e` take is covered by the initial tokens and by executions of the producer that end when the
`k`-th of the consumer starts, or before. -/
def Fed (g : Graph nV nE) (σ : Fin nV → ℕ → ℚ) (e : Fin nE) (k : ℕ) : Prop :=
  ∃ c : ℕ, (∀ j < c, σ (g.src e) j + g.execDur (g.src e) j ≤ σ (g.tgt e) k) ∧
    Sim.cum (g.cons e) (k + 1) ≤ g.preload e + Sim.cum (g.prod e) c

/-- What the check needs in order to be right: one phase per task, no execution of zero duration, executions of a task that do not overlap, and exactly one task that starts at date 0. -/
structure Plain (g : Graph nV nE) (σ : Fin nV → ℕ → ℚ) : Prop where
  one : ∀ a, g.phases a = 1
  pos : ∀ a, ∀ d ∈ g.dur a, 0 < d
  seq : ∀ a k, σ a k + g.execDur a k ≤ σ a (k + 1)
  zero : ∃ b, σ b 0 = 0 ∧ ∀ a, a ≠ b → 0 < σ a 0

end Kiter.Check
