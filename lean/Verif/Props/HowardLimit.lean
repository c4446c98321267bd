/-
C65: the iteration limit of the cycle ratio solver. The computation is carried out by the kernel, which takes a while.
-/
import Verif.Props.Howard

set_option autoImplicit false

namespace Kiter
namespace Howard
namespace Example

/-- One vertex with `n` loops; loop `i` has ratio `i + 1`, and the loop with the largest ratio has the smallest weight. -/
def many (n : ℕ) : EGraph := ⟨[a], (List.range n).map fun i : ℕ => ⟨a, a, (n : ℚ) - i, ((n : ℚ) - i) / (i + 1), 0⟩⟩

/-- The first loop of `many 102`. -/
def best : EvConstraint := ⟨a, a, 102, 102, 0⟩

/-- The answer is wrong when the iteration limit stops the search: on this graph the solver returns 3 although a circuit of
ratio 1 exists. The condition on the limit in `C65_tolerance` and `C65_exact` cannot be dropped. -/
theorem C65_iteration_limit : Circuit (many 102) [best] ∧ totalW [best] / totalD [best] = 1 ∧
    ((minCycleRatio (1 / 10 ^ 19) (10 ^ 300) (many 102)).map fun r => (r.value, r.limited)) = some (some 3, true) := by
  refine ⟨⟨by simp, a, ⟨?_, rfl, rfl⟩⟩, by norm_num [totalW, totalD, best], by decide +kernel⟩
  refine List.mem_map.mpr ⟨0, by simp, ?_⟩
  norm_num [best]

end Example
end Howard
end Kiter
