/-
Specification for the linear programs of LP1, LPN and REALLP1: what a solution is, what the solver must return.
-/
import Verif.Model.PeriodicLP

set_option autoImplicit false

namespace Kiter

/-- The row is satisfied. -/
def SRow.Ok (r : SRow) (v : SVar → ℚ) : Prop := if r.fixed then r.value v = r.lo else r.lo ≤ r.value v

/-- All rows are satisfied. -/
def SHolds (v : SVar → ℚ) (rows : List SRow) : Prop := ∀ r ∈ rows, r.Ok v

/-- Solutions of the program: no negative column, all rows satisfied. -/
def SFeasible (cols : List SVar) (rows : List SRow) (v : SVar → ℚ) : Prop := (∀ c ∈ cols, 0 ≤ v c) ∧ SHolds v rows

/-- The solver is right on the program: it returns a solution with the smallest `OMEGA`, and fails only when there is none. -/
structure SSolves (solve : List SVar → List SRow → Option (SVar → ℚ)) (cols : List SVar) (rows : List SRow) : Prop where
  sound : ∀ v, solve cols rows = some v → SFeasible cols rows v
  best : ∀ v, solve cols rows = some v → ∀ w, SFeasible cols rows w → v .omega ≤ w .omega
  fails : solve cols rows = none → ∀ w, ¬ SFeasible cols rows w

end Kiter
