/-
Specification of the circuits of a graph given by its edges (source, target).
-/
import Mathlib.Logic.Relation
import Mathlib.Data.List.Basic
import Mathlib.Data.Finset.Dedup

set_option autoImplicit false

namespace Kiter

/-- Distinct vertices, each joined to the next and the last to the first. -/
def SimpleCircuit (edges : List (ℕ × ℕ)) (q : List ℕ) : Prop :=
  q.Nodup ∧ ∃ v, q.head? = some v ∧ (q ++ [v]).IsChain fun a b => (a, b) ∈ edges

/-- Following edges, some or none, leads from `a` to `b`. -/
def Reaches (edges : List (ℕ × ℕ)) (a b : ℕ) : Prop := Relation.ReflTransGen (fun a b => (a, b) ∈ edges) a b

/-- The set of vertices of a circuit that can be reached from `v`. -/
def CircuitFrom (edges : List (ℕ × ℕ)) (v : ℕ) (c : Finset ℕ) : Prop :=
  ∃ q, SimpleCircuit edges q ∧ q.toFinset = c ∧ ∃ w ∈ q, Reaches edges v w

/-- The elements of `seq`, each once, in the order of their first occurrences. -/
def InOrderOfFirst (seq o : List Int) : Prop :=
  (∀ i, i ∈ o ↔ i ∈ seq) ∧ o.Pairwise fun a b => seq.idxOf a < seq.idxOf b

end Kiter
