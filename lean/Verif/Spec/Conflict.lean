/-
Vocabulary for C115: two periodic activities that start at the same date.
-/
import Mathlib.Data.Rat.Defs
import Mathlib.Algebra.Order.Ring.Rat

set_option autoImplicit false

namespace Kiter

/-- Some start `s + a * P` is also a start `s' + b * P'`. -/
def StartTogether (s P s' P' : ℚ) : Prop := ∃ a b : ℕ, s + a * P = s' + b * P'

/-- The date is a whole number of time units. -/
def WholeTime (t : ℚ) : Prop := ∃ z : Int, t = z

end Kiter
