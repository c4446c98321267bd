import Verif.Spec.Periodic
import Verif.Lemmas.KIterOpt

set_option autoImplicit false

namespace Kiter
open Finset

theorem neverShort_shift {f v : ℕ → Int} {pre : Int} {e t : ℕ → ℚ} (h : NeverShort f v pre e t) (M : ℚ) :
    NeverShort f v pre (fun k => e k + M) (fun k => t k + M) := by
  intro x C hC
  obtain ⟨P, h1, h2⟩ := h (x - M) C (fun l hl => by have := hC l hl; linarith)
  exact ⟨P, fun k hk => by have := h1 k hk; linarith, h2⟩

theorem starts_mono {B : BaseGraph} (hB : BaseOK B) {σ : KTask → ℕ → ℚ} (hσ : ValidStarts B σ) {t : KTask}
    (ht : t ∈ B.tasks) : Monotone (σ t) := by
  refine monotone_nat_of_le_succ fun k => ?_
  have h1 := hσ.noOverlap t ht k
  have h2 := dur_nonneg (hB.tasks t ht).phases (hB.tasks t ht).durNonneg k
  linarith

theorem ends_mono {B : BaseGraph} (hB : BaseOK B) {σ : KTask → ℕ → ℚ} (hσ : ValidStarts B σ) {t : KTask}
    (ht : t ∈ B.tasks) : Monotone (fun k => σ t k + t.dur k) := by
  refine monotone_nat_of_le_succ fun k => ?_
  have h1 := hσ.noOverlap t ht k
  have h2 := dur_nonneg (hB.tasks t ht).phases (hB.tasks t ht).durNonneg (k + 1)
  linarith

/-- A valid schedule whose starts grow like `Ω * k / N` shows that the period `Ω` is sustainable. -/
theorem sustainable_of_starts {B : BaseGraph} (hB : BaseOK B) {σ : KTask → ℕ → ℚ} (hσ : ValidStarts B σ) {Ω : ℚ}
    (hs : ∀ t ∈ B.tasks, ∃ C, ∀ k : ℕ, σ t k ≤ Ω * k / t.ni + C) : Ω ∈ SustainablePeriods B := by
  obtain ⟨M, hM⟩ : ∃ M : ℚ, ∀ t ∈ B.tasks, 0 ≤ σ t 0 + M := by
    have : ∀ l : List KTask, ∃ M : ℚ, ∀ t ∈ l, 0 ≤ σ t 0 + M := by
      intro l
      induction l with
      | nil => exact ⟨0, by simp⟩
      | cons a l ih =>
        obtain ⟨M, hM⟩ := ih
        refine ⟨max M (-σ a 0), fun t ht => ?_⟩
        rcases List.mem_cons.mp ht with rfl | ht
        · have := le_max_right M (-σ t 0); linarith
        · have := hM t ht
          have := le_max_left M (-σ a 0); linarith
    exact this B.tasks
  set τ : Int → ℕ → ℚ := fun i k => ((B.find i).map fun t => σ t k + M).getD 0 with hτ
  have hτe : ∀ t ∈ B.tasks, ∀ k, τ t.id k = σ t k + M := by
    intro t ht k; rw [hτ]; simp only [find_eq hB ht, Option.map_some, Option.getD_some]
  refine ⟨τ, ⟨?_, ?_, ?_⟩, ?_⟩
  · intro t ht k
    rw [hτe t ht]
    have := starts_mono hB hσ ht (Nat.zero_le k)
    have := hM t ht
    linarith
  · intro t ht k
    rw [hτe t ht, hτe t ht]
    have := hσ.noOverlap t ht k
    linarith
  · intro c hc
    obtain ⟨a, b, -⟩ := hB.channels c hc
    have := neverShort_shift (hσ.channels c hc) M
    have e1 : τ c.2.2.id = fun k => σ c.2.2 k + M := funext (hτe _ b)
    have e2 : (fun k => τ c.2.1.id k + c.2.1.dur k) = fun k => σ c.2.1 k + c.2.1.dur k + M := by
      funext k; rw [hτe _ a]; ring
    rw [e1, e2]
    exact this
  · intro t ht
    obtain ⟨C, hC⟩ := hs t ht
    refine ⟨C + M, fun k => ?_⟩
    rw [hτe t ht]
    have := hC k
    linarith

end Kiter
