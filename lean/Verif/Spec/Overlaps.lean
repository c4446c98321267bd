/-
Specification for C116: when two tasks of a router compete for a link.
-/
import Verif.Model.Overlaps
import Mathlib.Logic.Relation

set_option autoImplicit false

namespace Kiter.Overlap

/-- The task stands for a transfer through the router `r`, from the link `i` to the link `o`: it is mapped to a router, its
only predecessor is mapped to `i` and its only successor to `o`. -/
structure Passes (n : NoC.Net) (tasks : List Task) (t : Task) (r i o : Int) : Prop where
  at_ : t.mapping = r
  router : ∃ v, NoC.getNode n r = some v ∧ v.router = true
  input : ∃ a ta, t.ins = [a] ∧ tasks[a]? = some ta ∧ ta.mapping = i
  output : ∃ b tb, t.outs = [b] ∧ tasks[b]? = some tb ∧ tb.mapping = o

/-- Two links are tied together by transfers of `sub` through `r`: by one transfer that uses both, or by a sequence of such
transfers. -/
def Tied (n : NoC.Net) (tasks sub : List Task) (r : Int) : Int → Int → Prop :=
  Relation.EqvGen fun i o => ∃ t ∈ sub, Passes n tasks t r i o

/-- The link is used by a transfer of `sub` through `r`. -/
def Used (n : NoC.Net) (tasks sub : List Task) (r l : Int) : Prop :=
  ∃ t ∈ sub, ∃ i o, Passes n tasks t r i o ∧ (l = i ∨ l = o)

/-- When the task comes, both its links are already in use and nothing ties them yet: the task ties two groups. -/
def TiesTwoGroups (n : NoC.Net) (tasks before : List Task) (r i o : Int) : Prop :=
  Used n tasks before r i ∧ Used n tasks before r o ∧ ¬ Tied n tasks before r i o

/-- Every task is on a link or a node of the network, and every task on a router has one predecessor and one successor, on
links that arrive at and leave this router: the graphs made by `ModelNoCConflictFreeCommunication`. -/
structure Modelled (n : NoC.Net) (tasks : List Task) : Prop where
  ids : ∀ l ∈ n.links, ∀ v ∈ n.nodes, l.id ≠ v.id
  linkIds : ∀ l ∈ n.links, ∀ k ∈ n.links, l.id = k.id → l = k
  mapped : ∀ t ∈ tasks, 0 ≤ t.mapping ∧ ((∃ l ∈ n.links, l.id = t.mapping) ∨ (∃ v ∈ n.nodes, v.id = t.mapping))
  routed : ∀ t ∈ tasks, ∀ v ∈ n.nodes, v.id = t.mapping → v.router = true →
    ∃ a ta b tb, t.ins = [a] ∧ tasks[a]? = some ta ∧ t.outs = [b] ∧ tasks[b]? = some tb ∧
      (∃ l ∈ n.links, l.id = ta.mapping ∧ l.dst = t.mapping) ∧ (∃ l ∈ n.links, l.id = tb.mapping ∧ l.src = t.mapping)

end Kiter.Overlap
