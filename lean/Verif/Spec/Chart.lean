/-
Specification of a chart of a schedule: what each column shows.
-/
import Verif.Model.Chart

set_option autoImplicit false

namespace Kiter
namespace Chart

/-- Start of the `k`-th execution (from 0) of a schedule with initial starts, then periodic ones. -/
def Entry.start (s : Entry) (k : ℕ) : ℚ :=
  if k < s.init.length then s.init.getD k 0
  else s.starts.getD ((k - s.init.length) % s.starts.length) 0 +
    (((k - s.init.length) / s.starts.length : ℕ) : ℚ) * s.period

/-- Duration of the `k`-th execution: the phases repeat. -/
def durAt (phases : List ℚ) (k : ℕ) : ℚ := phases.getD (k % phases.length) 0

open Classical in
/-- What column `x` of a chart shows for starts `σ` and durations `d`: `@` when an execution starts at time `x`, `#` when
one is running, a space when none is. -/
noncomputable def column (σ d : ℕ → ℚ) (x : ℕ) : Char :=
  if ∃ k, σ k = x then '@' else if ∃ k, σ k < x ∧ (x : ℚ) < σ k + d k then '#' else ' '

/-- A line of `n` columns is the chart of the executions. -/
def Shows (line : List Char) (n : ℕ) (σ d : ℕ → ℚ) : Prop :=
  line = (List.range n).map (column σ d)

end Chart
end Kiter
