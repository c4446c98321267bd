/-
Specifications for C88: what is assumed of the analysis and of the initial quantities, and the answer of a complete exploration.
-/
import Verif.Props.DSE

set_option autoImplicit false

namespace Kiter

open Finset

variable {n : ℕ}

/-- The quantities the search considers: at least the initial ones, and equal to them on the other edges. -/
def DSE.Above (D : DSE n) (init q : Fin n → Int) : Prop := init ≤ q ∧ ∀ e, D.modelled e = false → q e = init e

/-- What is assumed of the analysis: throughput does not fall when quantities grow, and to raise it one of the reported
edges has to grow. -/
structure DSE.Analysed (D : DSE n) (init : Fin n → Int) : Prop where
  mono : ∀ q q', D.Above init q → D.Above init q' → q ≤ q' → D.thrOf q ≤ D.thrOf q'
  complete : ∀ q q', D.Above init q → D.Above init q' → q ≤ q' → D.thrOf q < D.thrOf q' →
    ∃ e ∈ (D.analyse q).2, D.modelled e = true ∧ q e < q' e

/-- What is assumed of the initial quantities: positive on the edges considered, zero on the others. -/
def DSE.Starts (D : DSE n) (init : SD n) : Prop := init.Consistent ∧ (∀ e, D.modelled e = true → 1 ≤ init.quantity e) ∧
  (∀ e, D.modelled e = false → init.quantity e = 0)

/-- Specification: the answer of a complete exploration. For every distribution on the step lattice above the initial one there
is a returned one that is no larger and reaches its throughput up to `2 * eps`; every returned one is on the lattice with its
size and throughput, or is the empty distribution with throughput 0; none dominates another. -/
def DSE.IsFront (D : DSE n) (init : Fin n → Int) (R : List (SD n)) : Prop :=
  (∀ q, D.Lattice init q → ∃ r ∈ R, r.size ≤ ∑ e, q e ∧ D.thrOf q - 2 * D.eps < r.thr) ∧
  (∀ r ∈ R, (D.Lattice init r.quantity ∧ r.size = ∑ e, r.quantity e ∧ r.thr = D.thrOf r.quantity) ∨
    ((∀ e, r.quantity e = 0) ∧ r.size = 0 ∧ r.thr = 0)) ∧
  (∀ x ∈ R, ∀ y ∈ R, x ≠ y → ¬ Dominates D.eps x y)

end Kiter
