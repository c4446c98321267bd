/-
Specification of executions over a network with time slots: when what an execution produces arrives, and which dates of starts respect it.
Independent of the loop of so4_noc.cpp.
-/
import Verif.Model.So4
import Verif.Spec.SelfTimed

set_option autoImplicit false

namespace Kiter.So4
open Kiter.Sim

variable {nV nE : Nat}

/-- What is produced on channel `e` at date `fin` is available to its consumer at date `arr`: at once on a virtual channel, otherwise it leaves at the first
integer date from `fin` on that is in the slot of the channel and takes one time unit per link of the route. -/
def Crosses (T : Table nE) (e : Fin nE) (fin arr : ℚ) : Prop :=
  (T.virt e = true ∧ arr = fin) ∨
  (T.virt e = false ∧ ∃ d : ℤ, IsLeast {d : ℤ | fin ≤ d ∧ d % T.slots = T.slot e} d ∧ arr = d + T.hops e)

/-- Date of the end of the `j`-th execution of a task. -/
def endOf (g : Graph nV nE) (starts : Fin nV → List ℚ) (a : Fin nV) (j : ℕ) : ℚ := (starts a).getD j 0 + g.execDur a j

/-- Dates of starts that respect the network: whatever an execution consumes is covered by the initial tokens and by the first `d` executions of the producer,
all of which have arrived when it starts; and an execution of a task starts after the end of the one before. -/
structure Respects (g : Graph nV nE) (T : Table nE) (starts : Fin nV → List ℚ) : Prop where
  tokens : ∀ e k, k < (starts (g.tgt e)).length → ∃ d ≤ (starts (g.src e)).length,
    (∀ j < d, ∃ arr, Crosses T e (endOf g starts (g.src e) j) arr ∧ arr ≤ (starts (g.tgt e)).getD k 0) ∧
    cum (g.cons e) (k + 1) ≤ g.preload e + cum (g.prod e) d
  noOverlap : ∀ a k, k + 1 < (starts a).length → endOf g starts a k ≤ (starts a).getD (k + 1) 0

/-- The same, for the channels inside the strongly connected components only (from the target of such a channel there is a way back to its source). -/
structure RespectsInside (g : Graph nV nE) (T : Table nE) (starts : Fin nV → List ℚ) : Prop where
  tokens : ∀ e, Relation.ReflTransGen (fun a b => ∃ e, g.src e = a ∧ g.tgt e = b) (g.tgt e) (g.src e) → ∀ k, k < (starts (g.tgt e)).length →
    ∃ d ≤ (starts (g.src e)).length,
      (∀ j < d, ∃ arr, Crosses T e (endOf g starts (g.src e) j) arr ∧ arr ≤ (starts (g.tgt e)).getD k 0) ∧
      cum (g.cons e) (k + 1) ≤ g.preload e + cum (g.prod e) d
  noOverlap : ∀ a k, k + 1 < (starts a).length → endOf g starts a k ≤ (starts a).getD (k + 1) 0

/-- Tables that the arrival dates make sense for: at least one slot, and the slot of every channel over the network is one of them. -/
def Table.OK (T : Table nE) : Prop := 0 < T.slots ∧ ∀ e, T.virt e = false → 0 ≤ T.slot e ∧ T.slot e < T.slots

end Kiter.So4
