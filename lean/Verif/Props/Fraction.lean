/-
Properties C01 - C05 and the rounding part of C17.
Specification: the rational number `n / d` denoted by a fraction, in Lean's exact `ℚ`.
-/
import Verif.Lemmas.Fraction
import Mathlib.RingTheory.Coprime.Lemmas

set_option autoImplicit false

namespace Kiter
namespace Frac

/-- Specification: the rational number a fraction stands for. -/
def val (f : Frac) : ℚ := (f.n : ℚ) / (f.d : ℚ)

/-- Specification: lowest terms, positive denominator. -/
def LowestTerms (f : Frac) : Prop := 0 < f.d ∧ Int.gcd f.n f.d = 1

theorem val_eq_iff {a b : Frac} (ha : LowestTerms a) (hb : LowestTerms b) : val a = val b ↔ a = b := by
  constructor
  · intro h
    have h1 : (a.d : ℚ) ≠ 0 := by exact_mod_cast ha.1.ne'
    have h2 : (b.d : ℚ) ≠ 0 := by exact_mod_cast hb.1.ne'
    unfold val at h
    rw [div_eq_div_iff h1 h2] at h
    have h' : a.n * b.d = b.n * a.d := by exact_mod_cast h
    have d1 : a.d ∣ b.d := by
      have : a.d ∣ a.n * b.d := ⟨b.n, by rw [h']; ring⟩
      exact (Int.isCoprime_iff_gcd_eq_one.mpr (by rw [Int.gcd_comm]; exact ha.2)).dvd_of_dvd_mul_left this
    have d2 : b.d ∣ a.d := by
      have : b.d ∣ b.n * a.d := ⟨a.n, by rw [← h']; ring⟩
      exact (Int.isCoprime_iff_gcd_eq_one.mpr (by rw [Int.gcd_comm]; exact hb.2)).dvd_of_dvd_mul_left this
    have e : a.d = b.d := Int.dvd_antisymm ha.1.le hb.1.le d1 d2
    have : a.n = b.n := by
      rw [e] at h'
      exact mul_right_cancel₀ hb.1.ne' h'
    cases a; cases b; simp_all
  · rintro rfl; rfl

theorem make_pos {n d : Int} (hd : 0 < d) :
    ∃ f, make n d = some f ∧ LowestTerms f ∧ val f = (n : ℚ) / d := by
  have hg : 0 < Int.gcd n d := Int.gcd_pos_of_ne_zero_right _ hd.ne'
  have hg' : (0 : Int) < (Int.gcd n d : Int) := by exact_mod_cast hg
  have dn : (Int.gcd n d : Int) ∣ n := Int.gcd_dvd_left ..
  have dd : (Int.gcd n d : Int) ∣ d := Int.gcd_dvd_right ..
  refine ⟨⟨n.tdiv (Int.gcd n d), d.tdiv (Int.gcd n d)⟩, ?_, ⟨?_, ?_⟩, ?_⟩
  · unfold make; rw [if_neg hg.ne']
  · simp only
    obtain ⟨k, hk⟩ := dd
    have : d.tdiv (Int.gcd n d) = k := Int.tdiv_eq_of_eq_mul_right hg'.ne' hk
    rw [this]
    by_contra hc
    have : (Int.gcd n d : Int) * k ≤ 0 := mul_nonpos_of_nonneg_of_nonpos hg'.le (not_lt.mp hc)
    omega
  · simp only
    rw [Int.tdiv_eq_ediv_of_dvd dn, Int.tdiv_eq_ediv_of_dvd dd]
    exact Int.gcd_ediv_gcd_ediv_gcd hg
  · unfold val
    simp only
    obtain ⟨k, hk⟩ := dd
    obtain ⟨m, hm⟩ := dn
    have e1 : d.tdiv (Int.gcd n d) = k := Int.tdiv_eq_of_eq_mul_right hg'.ne' hk
    have e2 : n.tdiv (Int.gcd n d) = m := Int.tdiv_eq_of_eq_mul_right hg'.ne' hm
    rw [e1, e2]
    have q1 : (d : ℚ) = (Int.gcd n d : Int) * k := by exact_mod_cast hk
    have q2 : (n : ℚ) = (Int.gcd n d : Int) * m := by exact_mod_cast hm
    have : ((Int.gcd n d : Int) : ℚ) ≠ 0 := by exact_mod_cast hg.ne'
    rw [q1, q2, mul_div_mul_left _ _ this]

/-- **C01** Construction with a positive denominator gives the same value in lowest terms; the only pair
that does not construct a fraction is `(0,0)`. -/
theorem C01_make :
    (∀ n d : Int, 0 < d → ∃ f, make n d = some f ∧ LowestTerms f ∧ val f = (n : ℚ) / d)
    ∧ (∀ n d : Int, make n d = none ↔ n = 0 ∧ d = 0) := by
  refine ⟨fun n d hd => make_pos hd, fun n d => ?_⟩
  unfold make
  constructor
  · intro h
    split at h
    · rename_i h0; exact Int.gcd_eq_zero_iff.mp h0
    · simp at h
  · rintro ⟨rfl, rfl⟩; simp

example : make 6 4 = some ⟨3, 2⟩ ∧ make (-6) 4 = some ⟨-3, 2⟩ ∧ make 0 7 = some ⟨0, 1⟩ := by decide

/-- **C02** For fractions built with positive denominators `==` decides equality of the rationals;
`!=` is its negation. -/
theorem C02_eq {n d m e : Int} (hd : 0 < d) (he : 0 < e) {f g : Frac}
    (hf : make n d = some f) (hg : make m e = some g) :
    (eqv f g = true ↔ (n : ℚ) / d = (m : ℚ) / e) ∧ (ne f g = true ↔ (n : ℚ) / d ≠ (m : ℚ) / e) := by
  obtain ⟨f', hf', lf, vf⟩ := make_pos (n := n) hd
  obtain ⟨g', hg', lg, vg⟩ := make_pos (n := m) he
  rw [hf] at hf'; rw [hg] at hg'
  cases hf'; cases hg'
  rw [← vf, ← vg, ne_eq, val_eq_iff lf lg]
  unfold eqv ne
  cases f; cases g; simp [imp_iff_not_or]

example : make 2 4 = some ⟨1, 2⟩ ∧ make 3 6 = some ⟨1, 2⟩ ∧ eqv ⟨1, 2⟩ ⟨1, 2⟩ = true := by decide

/-- **C02, negative denominators**: equality of values is not decided; `1/(-2)` and `(-1)/2` differ. -/
theorem C02_neg_denominator_counterexample :
    ∃ f g, make 1 (-2) = some f ∧ make (-1) 2 = some g ∧ val f = val g ∧ eqv f g = false :=
  ⟨⟨1, -2⟩, ⟨-1, 2⟩, by decide, by decide, by norm_num [val], by decide⟩

theorem lt_spec {a b : Frac} (ha : 0 < a.d) (hb : 0 < b.d) :
    lt a b = some (decide (val a < val b)) := by
  unfold lt
  rw [if_pos ⟨ha, hb⟩]
  obtain ⟨e1, p1, q1⟩ := normNeg_div a.n a.d ha
  obtain ⟨e2, p2, q2⟩ := normNeg_div b.n b.d hb
  simp only at e1 e2 p1 p2 q1 q2 ⊢
  rw [ltLoop_spec _ _ _ _ _ _ _ ⟨p1, q1⟩ ⟨p2, q2⟩]
  have ha' : (a.d : ℚ) ≠ 0 := by exact_mod_cast ha.ne'
  have hb' : (b.d : ℚ) ≠ 0 := by exact_mod_cast hb.ne'
  have v1 : val a = ((normNeg (a.n.tdiv a.d) (a.n.tmod a.d) a.d).1 : ℚ)
      + (normNeg (a.n.tdiv a.d) (a.n.tmod a.d) a.d).2 / a.d := by
    unfold val
    have : (a.n : ℚ) = (normNeg (a.n.tdiv a.d) (a.n.tmod a.d) a.d).1 * a.d
      + (normNeg (a.n.tdiv a.d) (a.n.tmod a.d) a.d).2 := by exact_mod_cast e1.symm
    conv_lhs => rw [this]
    field_simp
  have v2 : val b = ((normNeg (b.n.tdiv b.d) (b.n.tmod b.d) b.d).1 : ℚ)
      + (normNeg (b.n.tdiv b.d) (b.n.tmod b.d) b.d).2 / b.d := by
    unfold val
    have : (b.n : ℚ) = (normNeg (b.n.tdiv b.d) (b.n.tmod b.d) b.d).1 * b.d
      + (normNeg (b.n.tdiv b.d) (b.n.tmod b.d) b.d).2 := by exact_mod_cast e2.symm
    conv_lhs => rw [this]
    field_simp
  rw [v1, v2]
  simp

/-- **C03** Ordering of fractions with positive denominators is the order of the rationals (every comparison
returns a value, so the loops stop); a non-positive denominator on either side of `<` is a failure. -/
theorem C03_order (a b : Frac) (ha : LowestTerms a) (hb : LowestTerms b) :
    lt a b = some (decide (val a < val b)) ∧ gt a b = some (decide (val b < val a)) ∧
    le a b = some (decide (val a ≤ val b)) := by
  have h1 := lt_spec ha.1 hb.1
  have h2 : gt a b = some (decide (val b < val a)) := by
    unfold gt
    by_cases he : eqv a b = true
    · rw [if_pos he]
      have : a = b := by unfold eqv at he; cases a; cases b; simpa using he
      subst this; simp
    · rw [if_neg he, h1]
      have hne : val a ≠ val b := by
        intro h
        rw [val_eq_iff ha hb] at h
        subst h; exact he (by simp [eqv])
      rcases lt_or_gt_of_ne hne with h | h
      · simp [h, h.le]
      · simp [h, h.le]
  refine ⟨h1, h2, ?_⟩
  unfold le
  rw [h2]
  by_cases h : val b < val a
  · simp [h]
  · simp [h, not_lt.mp h]

theorem C03_assert (a b : Frac) : lt a b = none ↔ a.d ≤ 0 ∨ b.d ≤ 0 := by
  unfold lt
  split
  · rename_i h; simp; omega
  · rename_i h; simp; omega

theorem ltI_spec {a : Frac} (ha : 0 < a.d) (i : Int) : ltI a i = some (decide (val a < i)) := by
  unfold ltI
  rw [if_pos ha]
  obtain ⟨e1, p1, q1⟩ := normNeg_div a.n a.d ha
  congr 1
  generalize normNeg (a.n.tdiv a.d) (a.n.tmod a.d) a.d = p at *
  have ha' : (0 : ℚ) < a.d := by exact_mod_cast ha
  have : val a < i ↔ a.n < i * a.d := by
    unfold val; rw [div_lt_iff₀ ha']; exact_mod_cast Iff.rfl
  rw [decide_eq_decide, this]
  constructor
  · intro h; nlinarith
  · intro h; by_contra hc
    have : i * a.d ≤ p.1 * a.d := by nlinarith
    omega

/-- **C02** On fractions with positive denominators `==` is an equivalence, and it agrees with `<=` in both directions. -/
theorem C02_equivalence (a b c : Frac) (ha : LowestTerms a) (hb : LowestTerms b) :
    eqv a a = true ∧ (eqv a b = true → eqv b a = true) ∧ (eqv a b = true → eqv b c = true → eqv a c = true) ∧
    (ne a b = true ↔ eqv a b = false) ∧
    (eqv a b = true ↔ le a b = some true ∧ le b a = some true) := by
  have hE : ∀ x y : Frac, eqv x y = true ↔ x = y := by
    intro x y
    unfold eqv
    cases x; cases y; simp
  refine ⟨(hE _ _).2 rfl, fun h => (hE _ _).2 ((hE _ _).1 h).symm, fun h h' => (hE _ _).2 (((hE _ _).1 h).trans ((hE _ _).1 h')), ?_, ?_⟩
  · unfold ne eqv; simp; tauto
  rw [(C03_order a b ha hb).2.2, (C03_order b a hb ha).2.2, hE, ← val_eq_iff ha hb]
  simp only [Option.some.injEq, decide_eq_true_eq]
  exact le_antisymm_iff

example : ∃ a b, make 2 4 = some a ∧ make 3 6 = some b ∧ le a b = some true ∧ le b a = some true ∧ eqv a b = true ∧
    ∃ c, make 2 3 = some c ∧ le a c = some true ∧ le c a = some false ∧ eqv a c = false :=
  ⟨⟨1, 2⟩, ⟨1, 2⟩, by decide +kernel, by decide +kernel, by decide +kernel, by decide +kernel, by decide +kernel,
    ⟨2, 3⟩, by decide +kernel, by decide +kernel, by decide +kernel, by decide +kernel⟩

/-- **C03, comparison with an integer**. -/
theorem C03_int (a : Frac) (ha : LowestTerms a) (i : Int) :
    ltI a i = some (decide (val a < i)) ∧ gtI a i = some (decide ((i : ℚ) < val a)) := by
  have h1 := ltI_spec ha.1 i
  refine ⟨h1, ?_⟩
  have li : LowestTerms ⟨i, 1⟩ := ⟨by norm_num, by simp⟩
  have vi : val ⟨i, 1⟩ = (i : ℚ) := by simp [val]
  unfold gtI
  by_cases he : eqI a i = true
  · rw [if_pos he]
    have : a = ⟨i, 1⟩ := by unfold eqI at he; cases a; simp at he; simp [he]
    subst this; simp [vi]
  · rw [if_neg he, h1]
    have hne : val a ≠ (i : ℚ) := by
      rw [← vi]; intro h; rw [val_eq_iff ha li] at h; subst h; exact he (by simp [eqI])
    rcases lt_or_gt_of_ne hne with h | h
    · simp [h, h.le]
    · simp [h, h.le]

example : LowestTerms ⟨-7, 3⟩ ∧ LowestTerms ⟨5, 2⟩ ∧ LowestTerms ⟨22, 7⟩ := by
  unfold LowestTerms; decide
example : lt ⟨355, 113⟩ ⟨22, 7⟩ = some true := by
  rw [lt_spec (by decide) (by decide)]; norm_num [val]

theorem mul_eq_make (a b : Frac) : mul a b = make (a.n * b.n) (a.d * b.d) := rfl

theorem fixSign_val (n d : Int) : val (fixSign n d) = (n : ℚ) / d := by
  unfold fixSign val
  split
  · simp [neg_div_neg_eq]
  · rfl

theorem fixSign_lowest {n d : Int} (hd : d ≠ 0) (h : Int.gcd n d = 1) : LowestTerms (fixSign n d) := by
  unfold fixSign LowestTerms
  split
  · simp only [Int.gcd_neg, Int.neg_gcd]; exact ⟨by omega, h⟩
  · exact ⟨by simp only; omega, h⟩

/-- **C04** Multiplication is exact and normalised. -/
theorem C04_mul (a b : Frac) (ha : LowestTerms a) (hb : LowestTerms b) :
    ∃ f, mul a b = some f ∧ LowestTerms f ∧ val f = val a * val b := by
  obtain ⟨f, h1, h2, h3⟩ := make_pos (n := a.n * b.n) (mul_pos ha.1 hb.1)
  refine ⟨f, by rw [mul_eq_make, h1], h2, ?_⟩
  rw [h3]; unfold val; push_cast; rw [div_mul_div_comm]

theorem C04_mulI (a : Frac) (ha : LowestTerms a) (i : Int) :
    ∃ f, mulI a i = some f ∧ LowestTerms f ∧ val f = val a * i := by
  obtain ⟨g, h1, h2, h3⟩ := make_pos (n := i) (d := 1) (by norm_num)
  obtain ⟨f, f1, f2, f3⟩ := C04_mul a g ha h2
  refine ⟨f, by unfold mulI; rw [h1]; exact f1, f2, by rw [f3, h3]; simp⟩

theorem tdiv_gcd_mul_left (x y : Int) : x = (Int.gcd x y : Int) * x.tdiv (Int.gcd x y) := by
  exact (Int.mul_tdiv_cancel' (Int.gcd_dvd_left ..)).symm
theorem tdiv_gcd_mul_right (x y : Int) : y = (Int.gcd x y : Int) * y.tdiv (Int.gcd x y) := by
  exact (Int.mul_tdiv_cancel' (Int.gcd_dvd_right ..)).symm
theorem tdiv_gcd_coprime (x y : Int) (h : 0 < Int.gcd x y) :
    IsCoprime (x.tdiv (Int.gcd x y)) (y.tdiv (Int.gcd x y)) := by
  rw [Int.isCoprime_iff_gcd_eq_one, Int.tdiv_eq_ediv_of_dvd (Int.gcd_dvd_left ..),
    Int.tdiv_eq_ediv_of_dvd (Int.gcd_dvd_right ..)]
  exact Int.gcd_ediv_gcd_ediv_gcd h

/-- **C04** Division by a non-zero fraction is exact and normalised; division by zero fails. -/
theorem C04_div (a b : Frac) (ha : LowestTerms a) (hb : LowestTerms b) :
    (val b ≠ 0 → ∃ f, div a b = some f ∧ LowestTerms f ∧ val f = val a / val b)
    ∧ (val b = 0 → div a b = none) := by
  have hbd : (b.d : ℚ) ≠ 0 := by exact_mod_cast hb.1.ne'
  have hbz : val b = 0 ↔ b.n = 0 := by
    unfold val; rw [div_eq_zero_iff]; simp only [hbd, or_false]; exact_mod_cast Iff.rfl
  constructor
  · intro h
    have hbn : b.n ≠ 0 := fun h' => h (hbz.mpr h')
    unfold div
    rw [if_neg hbn]
    by_cases hz : a.n = 0
    · rw [if_pos hz]
      exact ⟨a, rfl, ha, by simp [val, hz]⟩
    · rw [if_neg hz]
      have g1 : 0 < Int.gcd a.n b.n := Int.gcd_pos_of_ne_zero_left _ hz
      have g2 : 0 < Int.gcd b.d a.d := Int.gcd_pos_of_ne_zero_left _ hb.1.ne'
      have g2' : ¬ ((Int.gcd b.d a.d : Int) = 0) := by exact_mod_cast g2.ne'
      simp only [g2', if_false]
      have e1 := tdiv_gcd_mul_left a.n b.n
      have e2 := tdiv_gcd_mul_right a.n b.n
      have e3 := tdiv_gcd_mul_left b.d a.d
      have e4 := tdiv_gcd_mul_right b.d a.d
      have c1 := tdiv_gcd_coprime a.n b.n g1
      have c2 := tdiv_gcd_coprime b.d a.d g2
      have ca := Int.isCoprime_iff_gcd_eq_one.mpr ha.2
      have cb := Int.isCoprime_iff_gcd_eq_one.mpr hb.2
      set u1 : Int := ((Int.gcd a.n b.n : ℕ) : Int) with hu1
      set u2 : Int := ((Int.gcd b.d a.d : ℕ) : Int) with hu2
      set x := a.n.tdiv u1
      set y := b.n.tdiv u1
      set z := b.d.tdiv u2
      set w := a.d.tdiv u2
      rw [e1, e4] at ca
      rw [e2, e3] at cb
      have cxw : IsCoprime x w := ca.of_mul_left_right.of_mul_right_right
      have czy : IsCoprime z y := cb.symm.of_mul_left_right.of_mul_right_right
      refine ⟨_, rfl, fixSign_lowest ?_ ?_, ?_⟩
      · intro h0
        rcases mul_eq_zero.mp h0 with h0 | h0
        · rw [h0, mul_zero] at e4; exact ha.1.ne' e4
        · rw [h0, mul_zero] at e2; exact hbn e2
      · rw [← Int.isCoprime_iff_gcd_eq_one]
        exact IsCoprime.mul_left (IsCoprime.mul_right cxw c1) (IsCoprime.mul_right c2 czy)
      · rw [fixSign_val]
        unfold val
        have hx : (a.n : ℚ) = u1 * x := by exact_mod_cast e1
        have hy : (b.n : ℚ) = u1 * y := by exact_mod_cast e2
        have hz' : (b.d : ℚ) = u2 * z := by exact_mod_cast e3
        have hw : (a.d : ℚ) = u2 * w := by exact_mod_cast e4
        have n1 : (u1 : ℚ) ≠ 0 := by rw [hu1]; exact_mod_cast g1.ne'
        have n2 : (u2 : ℚ) ≠ 0 := by rw [hu2]; exact_mod_cast g2.ne'
        rw [hx, hy, hz', hw]
        push_cast
        have hz0 : (z : ℚ) ≠ 0 := by
          intro h0; rw [hz', h0, mul_zero] at hbd; exact hbd rfl
        have hy0 : (y : ℚ) ≠ 0 := by
          intro h0
          have : (b.n : ℚ) = 0 := by rw [hy, h0, mul_zero]
          exact hbn (by exact_mod_cast this)
        have hw0 : (w : ℚ) ≠ 0 := by
          intro h0
          have : (a.d : ℚ) = 0 := by rw [hw, h0, mul_zero]
          exact ha.1.ne' (by exact_mod_cast this)
        field_simp
  · intro h
    unfold div; rw [if_pos (hbz.mp h)]

/-- **C04** Division by a non-zero integer is exact and normalised; division by 0 fails. -/
theorem C04_divI (a : Frac) (ha : LowestTerms a) (i : Int) :
    (i ≠ 0 → ∃ f, divI a i = some f ∧ LowestTerms f ∧ val f = val a / i) ∧ (i = 0 → divI a i = none) := by
  constructor
  · intro hi
    unfold divI
    rw [if_neg hi]
    by_cases hz : a.n = 0
    · rw [if_pos hz]
      exact ⟨a, rfl, ha, by simp [val, hz]⟩
    · rw [if_neg hz]
      have g1 : 0 < Int.gcd a.n i := Int.gcd_pos_of_ne_zero_left _ hz
      have e1 := tdiv_gcd_mul_left a.n i
      have e2 := tdiv_gcd_mul_right a.n i
      have c1 := tdiv_gcd_coprime a.n i g1
      have ca := Int.isCoprime_iff_gcd_eq_one.mpr ha.2
      simp only
      set u1 : Int := ((Int.gcd a.n i : ℕ) : Int) with hu1
      set x := a.n.tdiv u1
      set y := i.tdiv u1
      rw [e1] at ca
      have cx : IsCoprime x a.d := ca.of_mul_left_right
      refine ⟨_, rfl, fixSign_lowest ?_ ?_, ?_⟩
      · intro h0
        rcases mul_eq_zero.mp h0 with h0 | h0
        · exact ha.1.ne' h0
        · rw [h0, mul_zero] at e2; exact hi e2
      · rw [← Int.isCoprime_iff_gcd_eq_one]
        exact IsCoprime.mul_right cx c1
      · rw [fixSign_val]
        unfold val
        have hx : (a.n : ℚ) = u1 * x := by exact_mod_cast e1
        have hy : (i : ℚ) = u1 * y := by exact_mod_cast e2
        have n1 : (u1 : ℚ) ≠ 0 := by rw [hu1]; exact_mod_cast g1.ne'
        have hy0 : (y : ℚ) ≠ 0 := by
          intro h0
          have : (i : ℚ) = 0 := by rw [hy, h0, mul_zero]
          exact hi (by exact_mod_cast this)
        have hd : (a.d : ℚ) ≠ 0 := by exact_mod_cast ha.1.ne'
        rw [hx, hy]
        push_cast
        field_simp
  · rintro rfl; rfl

example : div ⟨3, 4⟩ ⟨-9, 2⟩ = some ⟨-1, 6⟩ ∧ mul ⟨3, 4⟩ ⟨2, 9⟩ = some ⟨1, 6⟩ ∧ divI ⟨3, 4⟩ (-6) = some ⟨-1, 8⟩ := by
  decide

end Frac

/-- **C05** (proved part) For non-negative `a`, `b`, not both 0, `extended_euclide` returns a solution of
`a*x + b*y = c` whenever one exists and fails otherwise; `a = b = 0` is a failure (division by zero).
Missing: negative arguments, see `C05_negative_counterexample`. -/
theorem C05_extended_euclide_partial (a b c : Int) (ha : 0 ≤ a) (hb : 0 ≤ b) (hab : a ≠ 0 ∨ b ≠ 0) :
    ((∃ x y : Int, a * x + b * y = c) → ∃ p, extendedEuclide a b c = some p ∧ a * p.1 + b * p.2 = c)
    ∧ ((¬ ∃ x y : Int, a * x + b * y = c) → extendedEuclide a b c = none) := by
  have g : 0 < Int.gcd a b := by
    rcases hab with h | h
    · exact Int.gcd_pos_of_ne_zero_left _ h
    · exact Int.gcd_pos_of_ne_zero_right _ h
  have g' : ((Int.gcd a b : ℕ) : Int) ≠ 0 := by exact_mod_cast g.ne'
  have key : (∃ x y : Int, a * x + b * y = c) ↔ ((Int.gcd a b : ℕ) : Int) ∣ c := by
    constructor
    · rintro ⟨x, y, rfl⟩
      exact dvd_add (Dvd.dvd.mul_right (Int.gcd_dvd_left ..) _) (Dvd.dvd.mul_right (Int.gcd_dvd_right ..) _)
    · rintro ⟨k, rfl⟩
      refine ⟨Int.gcdA a b * k, Int.gcdB a b * k, ?_⟩
      rw [Int.gcd_eq_gcd_ab a b]; ring
  have tm : c.tmod (Int.gcd a b) = 0 ↔ ((Int.gcd a b : ℕ) : Int) ∣ c := Int.dvd_iff_tmod_eq_zero.symm
  rw [key]
  constructor
  · intro hdvd
    unfold extendedEuclide
    simp only [g', if_false, tm.mpr hdvd, ne_eq, not_true_eq_false]
    refine ⟨_, rfl, ?_⟩
    have e1 := Frac.tdiv_gcd_mul_left a b
    have e2 := Frac.tdiv_gcd_mul_right a b
    have c1 := Frac.tdiv_gcd_coprime a b g
    have hu : (0 : Int) < ((Int.gcd a b : ℕ) : Int) := by exact_mod_cast g
    have ec : c = ((Int.gcd a b : ℕ) : Int) * c.tdiv (Int.gcd a b) := (Int.mul_tdiv_cancel' hdvd).symm
    set u : Int := ((Int.gcd a b : ℕ) : Int)
    have s := euclidLoop_spec (a.tdiv u) (b.tdiv u) (a.tdiv u) (b.tdiv u) 1 0 0 1 (by ring) (by ring)
    have nn := euclidLoop_nonneg (a.tdiv u) (b.tdiv u) 1 0 0 1
      (Int.tdiv_nonneg ha hu.le) (Int.tdiv_nonneg hb hu.le)
    simp only at s
    rw [Int.isCoprime_iff_gcd_eq_one.mp c1] at s
    have one : (euclidLoop (a.tdiv u) (b.tdiv u) 1 0 0 1).1 = 1 := by omega
    rw [one] at s
    generalize euclidLoop (a.tdiv u) (b.tdiv u) 1 0 0 1 = e at *
    calc a * (c.tdiv u * e.2.1) + b * (c.tdiv u * e.2.2)
        = (u * a.tdiv u) * (c.tdiv u * e.2.1) + (u * b.tdiv u) * (c.tdiv u * e.2.2) := by rw [← e1, ← e2]
      _ = u * c.tdiv u * (a.tdiv u * e.2.1 + b.tdiv u * e.2.2) := by ring
      _ = c := by rw [s.1, mul_one, ← ec]
  · intro h
    unfold extendedEuclide
    simp only [g', if_false, ne_eq, tm.not.mpr h, not_false_eq_true, if_true]

example : ∃ p, extendedEuclide 12 18 30 = some p ∧ 12 * p.1 + 18 * p.2 = 30 := by
  exact ((C05_extended_euclide_partial 12 18 30 (by decide) (by decide) (by decide)).1 ⟨-5, 5, by decide⟩)

/-- **C05, negative arguments**: the code returns a pair that is not a solution (`-3*x + 2*y = 1`). -/
theorem C05_negative_counterexample :
    ∃ p, extendedEuclide (-3) 2 1 = some p ∧ (-3) * p.1 + 2 * p.2 ≠ 1 :=
  ⟨_, rfl, by decide +kernel⟩

/-- `modulo(a,b)` with `b > 0` is the remainder in `[0,b)`. -/
theorem C05_modulo (a b : Int) (hb : 0 < b) :
    ∃ r, cModulo a b = some r ∧ 0 ≤ r ∧ r < b ∧ b ∣ a - r := by
  have h := Frac.tmod_bounds a b hb
  have e := Int.tmod_add_tdiv_mul a b
  unfold cModulo
  rw [if_neg hb.ne']
  refine ⟨_, rfl, ?_, ?_, ?_⟩
  · split <;> omega
  · split <;> omega
  · split
    · exact ⟨a.tdiv b, by linarith⟩
    · exact ⟨a.tdiv b - 1, by rw [mul_sub]; linarith⟩

example : cModulo (-7) 3 = some 2 := by decide

end Kiter
