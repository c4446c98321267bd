import Verif.Model.Fraction
import Mathlib.Tactic.Linarith
import Mathlib.Tactic.FieldSimp
import Mathlib.Tactic.Ring
import Mathlib.Tactic.Positivity
import Mathlib.Data.Rat.Lemmas

set_option autoImplicit false

namespace Kiter
namespace Frac

theorem normNeg_spec (q r d : Int) (hd : 0 < d) (hr : -d < r ∧ r < d) :
    let p := normNeg q r d
    p.1 * d + p.2 = q * d + r ∧ 0 ≤ p.2 ∧ p.2 < d := by
  unfold normNeg
  split
  · rename_i h
    unfold normNeg
    have : ¬ (r + d < 0 ∧ 0 < d) := by omega
    simp only [this, dif_neg, not_false_eq_true]
    refine ⟨by ring, by omega, by omega⟩
  · rename_i h
    refine ⟨rfl, by simp only; omega, by simp only; omega⟩

theorem tmod_bounds (n d : Int) (hd : 0 < d) : -d < n.tmod d ∧ n.tmod d < d := by
  constructor
  · have := Int.natAbs_tmod n d
    have h2 : n.natAbs % d.natAbs < d.natAbs := Nat.mod_lt _ (by omega)
    omega
  · exact Int.tmod_lt_of_pos n hd

/-- quotient and remainder after normalisation are Euclidean. -/
theorem normNeg_div (n d : Int) (hd : 0 < d) :
    let p := normNeg (n.tdiv d) (n.tmod d) d
    p.1 * d + p.2 = n ∧ 0 ≤ p.2 ∧ p.2 < d := by
  have h := normNeg_spec (n.tdiv d) (n.tmod d) d hd (tmod_bounds n d hd)
  obtain ⟨h1, h2, h3⟩ := h
  refine ⟨?_, h2, h3⟩
  rw [h1]
  have := Int.tmod_add_tdiv_mul n d
  linarith

theorem ltLoop_spec (td tq tr rd rq rr : Int) (rev : Bool)
    (ht : 0 ≤ tr ∧ tr < td) (hr : 0 ≤ rr ∧ rr < rd) :
    ltLoop td tq tr rd rq rr rev =
      if rev then decide ((rq : ℚ) + rr / rd < tq + tr / td)
      else decide ((tq : ℚ) + tr / td < rq + rr / rd) := by
  induction hk : tr.natAbs using Nat.strong_induction_on generalizing td tq tr rd rq rr rev with
  | _ k ih =>
  have htd : (0 : ℚ) < td := by exact_mod_cast (by omega : (0 : Int) < td)
  have hrd : (0 : ℚ) < rd := by exact_mod_cast (by omega : (0 : Int) < rd)
  have ht0 : (0 : ℚ) ≤ tr / td := div_nonneg (by exact_mod_cast ht.1) htd.le
  have hr0 : (0 : ℚ) ≤ rr / rd := div_nonneg (by exact_mod_cast hr.1) hrd.le
  have ht1 : (tr : ℚ) / td < 1 := by rw [div_lt_one htd]; exact_mod_cast ht.2
  have hr1 : (rr : ℚ) / rd < 1 := by rw [div_lt_one hrd]; exact_mod_cast hr.2
  rw [ltLoop]
  by_cases hq : tq ≠ rq
  · rw [if_pos hq]
    rcases lt_or_gt_of_ne hq with h | h
    · have h' : (tq : ℚ) + 1 ≤ rq := by exact_mod_cast h
      have a1 : (tq : ℚ) + tr / td < rq + rr / rd := by linarith
      have a2 : ¬ ((rq : ℚ) + rr / rd < tq + tr / td) := by linarith
      cases rev <;> simp [a1, a2, h, h.le]
    · have h' : (rq : ℚ) + 1 ≤ tq := by exact_mod_cast h
      have a1 : (rq : ℚ) + rr / rd < tq + tr / td := by linarith
      have a2 : ¬ ((tq : ℚ) + tr / td < rq + rr / rd) := by linarith
      cases rev <;> simp [a1, a2, h, h.le]
  · rw [if_neg hq]
    simp only [ne_eq, not_not] at hq
    subst hq
    simp only
    by_cases hz : tr = 0 ∨ rr = 0
    · rw [dif_pos hz]
      by_cases he : tr = rr
      · rw [if_pos he]
        have h0 : tr = 0 := by omega
        have h0' : rr = 0 := by omega
        subst h0; subst h0'
        cases rev <;> simp
      · rw [if_neg he]
        rcases hz with hz | hz
        · subst hz
          have hp : (0 : ℚ) < rr / rd :=
            div_pos (by exact_mod_cast (by omega : (0:Int) < rr)) hrd
          have hn : ¬ ((rr : ℚ) / rd < 0) := by linarith
          cases rev <;> simp [hp, hp.le]
        · subst hz
          have hp : (0 : ℚ) < tr / td :=
            div_pos (by exact_mod_cast (by omega : (0:Int) < tr)) htd
          have hn : ¬ ((tr : ℚ) / td < 0) := by linarith
          have : tr ≠ 0 := by omega
          cases rev <;> simp [hp, hp.le, this]
    · rw [dif_neg hz]
      have htr : 0 < tr := by omega
      have hrr : 0 < rr := by omega
      have e1 := Int.tmod_add_tdiv_mul td tr
      have e2 := Int.tmod_add_tdiv_mul rd rr
      have b1 := Int.tmod_nonneg tr (show 0 ≤ td by omega)
      have b2 := Int.tmod_nonneg rr (show 0 ≤ rd by omega)
      have c1 := Int.tmod_lt_of_pos td htr
      have c2 := Int.tmod_lt_of_pos rd hrr
      rw [ih (td.tmod tr).natAbs (by omega) tr (td.tdiv tr) (td.tmod tr) rr (rd.tdiv rr) (rd.tmod rr)
        (!rev) ⟨b1, c1⟩ ⟨b2, c2⟩ rfl]
      have htr' : (0 : ℚ) < tr := by exact_mod_cast htr
      have hrr' : (0 : ℚ) < rr := by exact_mod_cast hrr
      have v1 : ((td.tdiv tr : Int) : ℚ) + (td.tmod tr : Int) / tr = (tr / td : ℚ)⁻¹ := by
        have : (td : ℚ) = (td.tmod tr : Int) + (td.tdiv tr : Int) * tr := by exact_mod_cast e1.symm
        rw [inv_div, this]; field_simp; ring
      have v2 : ((rd.tdiv rr : Int) : ℚ) + (rd.tmod rr : Int) / rr = (rr / rd : ℚ)⁻¹ := by
        have : (rd : ℚ) = (rd.tmod rr : Int) + (rd.tdiv rr : Int) * rr := by exact_mod_cast e2.symm
        rw [inv_div, this]; field_simp; ring
      rw [v1, v2]
      have p1 : (0 : ℚ) < tr / td := div_pos htr' htd
      have p2 : (0 : ℚ) < rr / rd := div_pos hrr' hrd
      cases rev
      · simp only [Bool.not_false, if_true, Bool.false_eq_true, if_false]
        congr 1
        rw [inv_lt_inv₀ p2 p1]; simp
      · simp only [Bool.not_true, if_true, Bool.false_eq_true, if_false]
        congr 1
        rw [inv_lt_inv₀ p1 p2]; simp

end Frac

theorem euclidLoop_spec (a b : Int) (r1 r2 s1 s2 t1 t2 : Int)
    (h1 : a * s1 + b * t1 = r1) (h2 : a * s2 + b * t2 = r2) :
    let e := euclidLoop r1 r2 s1 s2 t1 t2
    a * e.2.1 + b * e.2.2 = e.1 ∧ e.1.natAbs = Int.gcd r1 r2 := by
  induction hk : r2.natAbs using Nat.strong_induction_on generalizing r1 r2 s1 s2 t1 t2 with
  | _ k ih =>
  rw [euclidLoop]
  by_cases h : r2 = 0
  · rw [dif_pos h]; subst h; simp [h1]
  · rw [dif_neg h]
    have e : r1 - r1.tdiv r2 * r2 = r1.tmod r2 := by
      have := Int.tmod_add_tdiv_mul r1 r2; omega
    have hlt : (r1 - r1.tdiv r2 * r2).natAbs < k := by
      rw [e, Int.natAbs_tmod, ← hk]; exact Nat.mod_lt _ (Int.natAbs_pos.mpr h)
    have := ih _ hlt r2 (r1 - r1.tdiv r2 * r2) s2 (s1 - r1.tdiv r2 * s2) t2 (t1 - r1.tdiv r2 * t2) h2
      (by rw [← h1, ← h2]; ring) rfl
    refine ⟨this.1, ?_⟩
    rw [this.2]
    rw [Int.gcd_comm r1 r2]
    rw [show r1 - r1.tdiv r2 * r2 = r1 + r2 * (-(r1.tdiv r2)) by ring]
    exact Int.gcd_add_mul_left_right ..

/-- with non-negative arguments the last remainder is non-negative. -/
theorem euclidLoop_nonneg (r1 r2 s1 s2 t1 t2 : Int) (h1 : 0 ≤ r1) (h2 : 0 ≤ r2) :
    0 ≤ (euclidLoop r1 r2 s1 s2 t1 t2).1 := by
  induction hk : r2.natAbs using Nat.strong_induction_on generalizing r1 r2 s1 s2 t1 t2 with
  | _ k ih =>
  rw [euclidLoop]
  by_cases h : r2 = 0
  · rw [dif_pos h]; exact h1
  · rw [dif_neg h]
    have e : r1 - r1.tdiv r2 * r2 = r1.tmod r2 := by
      have := Int.tmod_add_tdiv_mul r1 r2; omega
    have hlt : (r1 - r1.tdiv r2 * r2).natAbs < k := by
      rw [e, Int.natAbs_tmod, ← hk]; exact Nat.mod_lt _ (Int.natAbs_pos.mpr h)
    exact ih _ hlt r2 _ _ _ _ _ h2 (by rw [e]; exact Int.tmod_nonneg _ h1) rfl

end Kiter
