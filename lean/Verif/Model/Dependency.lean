/-
Model of `addDependency` (src/libkiter/algorithms/software_noc.cpp:1236-1261), which puts two channels between two tasks of the graph. No
command of this version calls it.

Simplifications: counts and tokens are natural numbers without bound; the identifiers of the channels are left out. `none` is a
division by zero.
-/
import Verif.Model.Conflict

set_option autoImplicit false

namespace Kiter.Depend

/-- A channel with one phase at each end: what the source produces (`setEdgeInPhases`), what the target consumes (`setEdgeOutPhases`)
and the initial tokens. -/
structure Chan where
  produced : ℕ
  consumed : ℕ
  preload : ℕ

/-- The channels `e1` from `vi` to `vj` and `e2` back (software_noc.cpp:1239-1257). -/
def addDependency (ni nj : ℕ) : Option (Chan × Chan) :=
  (SNoC.gcdExtended (ni + 1) ni nj).bind fun g =>
    if g.1 = 0 then none
    else
      let a := ni / g.1
      let b := nj / g.1
      (SNoC.gcdExtended (a + 1) a b).map fun h => (⟨b, a, a + b - h.1⟩, ⟨a, b, 0⟩)

end Kiter.Depend
