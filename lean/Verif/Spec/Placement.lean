/-
Specification of the placement of tasks on the cores of a square mesh and of the routes of their channels.
-/
import Verif.Props.NoC

set_option autoImplicit false

namespace Kiter

open NoC

/-- `p` leads from node `a` to node `b` of the network, and no route does with fewer links. -/
def ShortestRoute (n : Net) (p : List Int) (a b : Int) : Prop :=
  IsRoute n p a b ∧ ∀ q, IsRoute n q a b → p.length ≤ q.length

/-- The tasks (by ids) are on cores of the mesh of `r` rows and `r` columns, no two on the same, and each channel
(id, source, target) has a shortest route from the core of its source to that of its target. -/
structure PlacedWell (r : ℕ) (tasks : List ℕ) (channels : List (ℕ × ℕ × ℕ)) (node : ℕ → Int)
    (route : ℕ → Option (List Int)) : Prop where
  core : ∀ v ∈ tasks, ∃ X Y, X < r ∧ Y < r ∧ node v = coreId r r X Y
  alone : ∀ v ∈ tasks, ∀ w ∈ tasks, node v = node w → v = w
  routed : ∀ i u w, (i, u, w) ∈ channels → ∃ p, route i = some p ∧ ShortestRoute (generate r r) p (node u) (node w)

/-- `edges` (source, target) between the tasks, and from `start`, which is not a task, make no circuit, and each task has
one that enters it: the tasks can be taken in an order in which each comes after those before it. -/
structure TakesAll (tasks : List ℕ) (edges : List (ℕ × ℕ)) (start : ℕ) : Prop where
  rank : ∃ rank : ℕ → ℕ, ∀ e ∈ edges, rank e.1 < rank e.2
  source : ∀ e ∈ edges, e.1 ∈ tasks ∨ e.1 = start
  target : ∀ e ∈ edges, e.2 ∈ tasks
  entered : ∀ v ∈ tasks, ∃ u, (u, v) ∈ edges
  new : start ∉ tasks

end Kiter
