/-
Specification of the schedules produced by the periodic analyses other than the K-periodic one, and of an exact answer
to a maximum cycle ratio problem.
-/
import Verif.Spec.Throughput

set_option autoImplicit false

namespace Kiter

/-- Starts `σ t k` of the `k`-th execution (from 0) of every task `t` form a valid infinite schedule: executions of a
task run in order without overlap, and no channel is ever short of tokens. -/
structure ValidStarts (B : BaseGraph) (σ : KTask → ℕ → ℚ) : Prop where
  noOverlap : ∀ t ∈ B.tasks, ∀ k, σ t k + t.dur k ≤ σ t (k + 1)
  channels : ∀ c ∈ B.channels, NeverShort (rate c.1.inPhases) (rate c.1.outPhases) c.1.preload
    (fun k => σ c.2.1 k + c.2.1.dur k) (σ c.2.2)

/-- A schedule fixed by the *completion* times `E` of the `N` executions of a graph iteration, repeated every `Ω`. -/
def iterationStart (E : Event → ℚ) (Ω : ℚ) (t : KTask) (k : ℕ) : ℚ :=
  E ⟨t.id, 1, (k % t.ni.toNat : ℕ) + 1⟩ - t.dur k + ((k / t.ni.toNat : ℕ) : ℚ) * Ω

/-- A strictly periodic schedule: one start `S` per task, then one execution every `Ω / N`. -/
def strictStart (S : Event → ℚ) (Ω : ℚ) (t : KTask) (k : ℕ) : ℚ := S ⟨t.id, 1, 1⟩ + k * (Ω / t.ni)

/-- `(r, p)` is an exact answer to the maximum cycle ratio problem: `p` is a circuit of ratio `r = W/D`, with `D`
positive, and no circuit has a larger ratio. -/
structure MaxRatio (cs : List EvConstraint) (r : ℚ) (p : List EvConstraint) : Prop where
  circuit : ∃ u, IsWalk cs u p u
  posD : 0 < totalD p
  ratio : totalW p = r * totalD p
  best : ∀ u q, IsWalk cs u q u → totalW q ≤ r * totalD q

end Kiter
