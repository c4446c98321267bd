/-
Property C111 with the cycle ratio solver of the program itself.
-/
import Verif.Props.FileThroughput
import Verif.Props.KIterHoward

set_option autoImplicit false

namespace Kiter

open SDF3 FileT Howard

/-- **C111** The throughput reported for a file, with the program's own cycle ratio solver instead of an assumed one: for a
machine precision that is fine enough for the numbers of the file, whatever the value that stands for infinity, every
report is right. -/
theorem C111_own_solver {g : SDF3.Graph} (lib : Lib) (doc : Node) (hread : read lib doc = some g) (hg : Analysable g)
    (hpos : ∀ a ∈ g.actors, ∀ d ∈ a.durs, 0 < d) (hre : ∀ a ∈ g.actors, 0 < a.reent) :
    ∃ ε₀ : ℚ, 0 < ε₀ ∧ ∀ eps huge : ℚ, 0 < eps → eps ≤ ε₀ → ∀ (fuel : ℕ) (r : KIterResult),
      kiterFile lib (solver eps huge endpoints) fuel doc = some (some r) →
      ∃ q, FileSmallest g q ∧ (0 < r.throughput → IsLeast (FilePeriods g q) (1 / r.throughput)) ∧
        (r.throughput ≤ 0 → ¬ ∃ σ, FileSchedule g σ) := by
  by_cases hc : FileConsistent g
  · obtain ⟨q, B, hq, hm, hB, ha⟩ := analysed hg hre hc
    obtain ⟨ε₀, h0, h⟩ := C52_kiter_with_solver hB (FileT.positive hm hpos) (allEvents B).length
    refine ⟨ε₀, h0, fun eps huge e0 e1 fuel r hr => ?_⟩
    unfold kiterFile at hr
    rw [hread, Option.bind_some, ha] at hr
    have v := h eps huge endpoints e0 e1 (fun K cs hK hcs => endpoints_ok hB hK hcs) fuel r hr
    refine ⟨q, hq, fun h => ?_, fun h ⟨τ, hτ⟩ => v.2 h ⟨byId τ, (valid_iff hm (byId_succ τ)).mpr hτ⟩⟩
    rw [← periods hm]
    exact (v.1 h).1
  · refine ⟨1, one_pos, fun eps huge _ _ fuel r hr => ?_⟩
    unfold kiterFile at hr
    rw [hread, Option.bind_some, FileT.inconsistent hg hc] at hr
    cases hr

namespace FileExample

/-- The saved example meets the hypotheses, and the program with its own solver reports a third. -/
example : Analysable (saved file) ∧ (∀ a ∈ (saved file).actors, ∀ d ∈ a.durs, 0 < d) ∧ (∀ a ∈ (saved file).actors, 0 < a.reent) ∧
    ((analyse (solver (1 / 10 ^ 19) (10 ^ 300) endpoints) 10 (saved file)).map fun o => o.map fun r => r.throughput) = some (some (1 / 3)) :=
  ⟨same_analysable (g := file) (by decide +kernel) (by decide +kernel) (analysable (n := 1)), by decide +kernel, by decide +kernel,
    by decide +kernel⟩

end FileExample

end Kiter
