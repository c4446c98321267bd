/-
Vocabulary for C114: schedules that repeat every `K` executions of a task, and the precedences of a channel, independent
of the code of the expansion.
-/
import Mathlib.Data.Rat.Defs
import Mathlib.Algebra.Order.Field.Basic
import Mathlib.Algebra.Order.Ring.Rat

set_option autoImplicit false

namespace Kiter

/-- The start of execution `n` (counted from 0) of a task that repeats every `K` executions, each repetition taking
`K * z * Ω` (`z` is the number of tokens one execution counts for, `Ω` the time per token); `s 1, …, s K` are the starts
of the first `K` executions. -/
def RepeatedStart (s : ℕ → ℚ) (K : ℕ) (z : Int) (Ω : ℚ) (n : ℕ) : ℚ := s (n % K + 1) + (n / K : ℕ) * (K * z * Ω)

/-- With `preload` initial tokens, `prod` produced and `cons` consumed per execution, execution `n'` of the reader needs
tokens written by execution `n` of the writer (both counted from 0). -/
def NeedsTokens (prod cons preload : Int) (n n' : ℕ) : Prop := preload + prod * n < cons * (n' + 1)

end Kiter
