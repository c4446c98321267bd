/-
Specification of the optimum cycle ratio problem on an event graph.
-/
import Verif.Spec.Throughput
import Verif.Model.Howard

set_option autoImplicit false

namespace Kiter
namespace Howard

/-- A well-formed event graph: distinct vertices that contain the ends of every edge. -/
structure WF (G : EGraph) : Prop where
  nodup : G.vs.Nodup
  ends : ∀ e ∈ G.cs, e.src ∈ G.vs ∧ e.dst ∈ G.vs

/-- A non-empty closed sequence of edges. -/
def Circuit (G : EGraph) (p : List EvConstraint) : Prop := p ≠ [] ∧ ∃ u, IsWalk G.cs u p u

/-- No circuit has total duration zero. -/
def NoNullCircuit (G : EGraph) : Prop := ∀ p, Circuit G p → totalD p ≠ 0

/-- Durations lie between 0 and `D`; weights are multiples of `1/N` and durations multiples of `1/M`. -/
structure OnGrid (G : EGraph) (N M : ℕ) (D : ℚ) : Prop where
  posN : 0 < N
  posM : 0 < M
  weight : ∀ e ∈ G.cs, ∃ z : ℤ, e.w * N = z
  duration : ∀ e ∈ G.cs, ∃ z : ℤ, e.d * M = z
  nonneg : ∀ e ∈ G.cs, 0 ≤ e.d
  le : ∀ e ∈ G.cs, e.d ≤ D

/-- The machine precision is small enough for the numbers and the size of the graph. -/
def Fine (eps : ℚ) (G : EGraph) (N M : ℕ) (D : ℚ) : Prop :=
  0 < eps ∧ 100 * eps * G.vs.length * ((G.vs.length + 1) * D) * N * M < 1

end Howard
end Kiter
