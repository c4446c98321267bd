/-
Property C110: the repetition vector on 64-bit integers.
-/
import Verif.Lemmas.RepetitionMachine
import Mathlib.Tactic.FinCases

set_option autoImplicit false

namespace Kiter
open Rep Frac

variable {nV nE : Nat} {g : Rep.Graph nV nE}

theorem RepM.lcm_dvd (fr : Fracs nV) {x : Int} (h : ∀ v, (fr v).d ∣ x) : ∀ (l : List (Fin nV)) (init : Int), init ∣ x →
    l.foldl (fun l v => (Int.lcm l (fr v).d : Int)) init ∣ x := by
  intro l
  induction l with
  | nil => intro init hi; exact hi
  | cons c cs ih => intro init hi; exact ih _ (Int.coe_lcm_dvd hi (h c))

/-- **C110** If the graph has a repetition vector, all entries are at most `Q`, the rates of a channel end add up to at
most `R` (an `int`), and `Q * Q` and `Q * R * P` fit in a `long`, where `P` is the least common multiple of the numbers
of phases, then no operation overflows and the machine returns that vector. -/
theorem C110_no_overflow (h : Rep.OK g) {q : Fin nV → Int} (hq : Rep.compute g = some (some q)) {R Q : Int}
    (hR : 0 < R) (hRm : R ≤ 2 ^ 31 - 1) (hrate : ∀ e, (g.prod e).sum ≤ R ∧ (g.cons e).sum ≤ R)
    (hQ : ∀ v, q v ≤ Q) (hQQ : Q * Q ≤ 2 ^ 63 - 1) (hQR : Q * R * ratePeriod g ≤ 2 ^ 63 - 1) :
    RepM.compute g = some (some q) := by
  have hL : RepM.longMax = 2 ^ 63 - 1 := rfl
  have hI : RepM.intMax = 2 ^ 31 - 1 := rfl
  rw [← hL] at hQQ hQR
  rw [← hI] at hRm
  obtain ⟨i1, i2⟩ := rates_nonneg h (ratePeriod g)
  have hrp := (rp_facts h).1
  have hrpi : (0 : Int) < ratePeriod g := by exact_mod_cast hrp
  obtain ⟨b, fr, h1, h2, -⟩ := roots_spec (g := g) (rp := ratePeriod g) i1 i2 (List.finRange nV) (fun _ => zero)
    (fun v => ⟨zero_lowest, by unfold zero; norm_num⟩) (fun v hv => absurd rfl hv)
  have hcalc : b = true ∧ calcRepetitionVector g fr (ratePeriod g) = some (some q) := by
    unfold compute at hq
    simp only at hq
    rw [if_neg hrp.ne', h1] at hq
    cases b with
    | false => simp at hq
    | true => exact ⟨rfl, hq⟩
  obtain ⟨rfl, hcalc⟩ := hcalc
  obtain ⟨hn, -, hcl, hnz⟩ := h2 rfl
  have hz : ∀ v, fr v ≠ zero := fun v => hnz v (List.mem_finRange v)
  obtain ⟨N, hN, r, sub, kap, k1, k2, k3, -, k5, -, -, k8, k9⟩ := calc_spec (g := g) h.vertices hrp h.phases hn hz
  rw [hcalc] at hN
  obtain rfl : q = N := by simpa using hN
  -- the coprime vector is not larger than the result
  have hrq : ∀ v, r v ≤ q v := by
    intro v
    have hs : sub ≤ ratePeriod g := Int.le_of_dvd hrpi k5
    have e := k8 v
    by_contra hc
    push Not at hc
    have hq0 : 0 ≤ q v := by
      by_contra hneg
      push Not at hneg
      have a1 : q v * sub < 0 := mul_neg_of_neg_of_pos hneg k2
      have a2 : 0 < r v * ratePeriod g := mul_pos (k3 v) hrpi
      omega
    have a1 : q v * sub ≤ q v * ratePeriod g := mul_le_mul_of_nonneg_left hs hq0
    have a2 : q v * ratePeriod g < r v * ratePeriod g := mul_lt_mul_of_pos_right hc hrpi
    omega
  have v0 : Fin nV := ⟨0, h.vertices⟩
  have hQ0 : 0 < Q := ((k3 v0).trans_le (hrq v0)).trans_le (hQ v0)
  have hQ1 : 1 ≤ Q := hQ0
  have hRrp : R * ratePeriod g ≤ RepM.longMax := by
    have : R * ratePeriod g * 1 ≤ R * ratePeriod g * Q := mul_le_mul_of_nonneg_left hQ1 (by positivity)
    calc R * ratePeriod g ≤ R * ratePeriod g * Q := by omega
      _ = Q * R * ratePeriod g := by ring
      _ ≤ _ := hQR
  have hrpM : (ratePeriod g : Int) ≤ RepM.longMax := by
    have : 1 * (ratePeriod g : Int) ≤ R * ratePeriod g := mul_le_mul_of_nonneg_right hR hrpi.le
    omega
  have hQrp : Q * ratePeriod g ≤ RepM.longMax := by
    have : Q * ratePeriod g * 1 ≤ Q * ratePeriod g * R := mul_le_mul_of_nonneg_left hR (by positivity)
    calc Q * ratePeriod g ≤ Q * ratePeriod g * R := by omega
      _ = Q * R * ratePeriod g := by ring
      _ ≤ _ := hQR
  have rin := fun e => RepM.rate_eq (g.prod e) (ratePeriod g) (h.prodNonneg e) (hrate e).1 hRm hRrp
  have rout := fun e => RepM.rate_eq (g.cons e) (ratePeriod g) (h.consNonneg e) (hrate e).2 hRm hRrp
  have hB : RepM.Bounded g (ratePeriod g) r Q (R * ratePeriod g) := by
    refine ⟨k3, fun v => (hrq v).trans (hQ v), ?_, fun e => (rin e).1, fun e => (rout e).1, fun e => (rin e).2,
      fun e => (rout e).2, by rw [← mul_assoc]; exact hQR⟩
    intro e
    have he := (hcl _ (hz (g.src e)) e (.inl rfl)).2.2.2.2
    have : (inRate g (ratePeriod g) e : ℚ) * r (g.src e) = outRate g (ratePeriod g) e * r (g.tgt e) := by
      rw [k9, k9]; linear_combination kap * he
    exact_mod_cast this
  obtain ⟨m1, m2⟩ := RepM.roots_eq hB (nV + 1) (List.finRange nV) (fun _ => zero) (RepM.inv_zero r)
  have hinv := m2 _ h1
  simp only at hinv
  unfold RepM.compute
  rw [RepM.ratePeriod_eq hrp hrpM, Option.bind_some, if_neg (by omega), m1, h1]
  simp only
  -- the scaling
  obtain ⟨t, ht, -⟩ := hinv.2 v0 (hz v0)
  have hkap : kap = r t := by
    rw [k9 t, ht]; unfold val; norm_num
  have hval : ∀ v, val (fr v) = (r v : ℚ) / r t := by
    intro v
    have : (r t : ℚ) ≠ 0 := by exact_mod_cast (k3 t).ne'
    rw [k9 v, hkap]; field_simp
  have hd : ∀ v, (fr v).d ∣ r t := by
    intro v
    have hc : IsCoprime (fr v).n (fr v).d := Int.isCoprime_iff_gcd_eq_one.mpr (hn v).1.2
    have e := hval v
    unfold val at e
    have h1 : ((fr v).d : ℚ) ≠ 0 := by exact_mod_cast (hn v).1.1.ne'
    have h2 : (r t : ℚ) ≠ 0 := by exact_mod_cast (k3 t).ne'
    rw [div_eq_div_iff h1 h2] at e
    have e' : (fr v).n * r t = r v * (fr v).d := by exact_mod_cast e
    exact hc.symm.dvd_of_dvd_mul_left ⟨r v, by rw [e']; ring⟩
  have hnum : ∀ v, 0 < (fr v).n := fun v => (pos_of_ne_zero (hn v).1 (hn v).2 (hz v)).1
  obtain ⟨l, hl⟩ : ∃ l, l = denLcm fr := ⟨_, rfl⟩
  have hlpos : 0 < l := by
    obtain ⟨-, -, l3, l4⟩ := foldl_lcm (fun v => (fr v).d) (List.finRange nV) 1
    have a1 := l3 (by norm_num) fun v _ => (hn v).1.1.ne'
    have a2 := l4 (by norm_num)
    rw [hl]; unfold denLcm; omega
  have hlt : l ≤ r t := Int.le_of_dvd (k3 t) (by rw [hl]; exact RepM.lcm_dvd fr hd _ 1 (one_dvd _))
  have hlQ : l ≤ Q := hlt.trans ((hrq t).trans (hQ t))
  have hQM : Q ≤ RepM.longMax := by
    have : Q * 1 ≤ Q * Q := mul_le_mul_of_nonneg_left hQ1 hQ0.le
    omega
  have hML : RepM.denLcm fr = some l := by
    rw [hl]
    have hpos : 0 < denLcm fr := hl ▸ hlpos
    have hle : denLcm fr ≤ RepM.longMax := by rw [← hl]; omega
    exact RepM.denLcm_fold fr (List.finRange nV) 1 hpos hle
  have p1 : ∀ v, RepM.long ((fr v).n * l) = some ((fr v).n * l) := by
    intro v
    have a := (RepM.lowest_le (hn v).1 (k3 v) (k3 t) (hval v)).1
    refine RepM.long_eq (mul_pos (hnum v) hlpos).le ?_
    exact (mul_le_mul (a.trans ((hrq v).trans (hQ v))) hlQ hlpos.le hQ0.le).trans hQQ
  have r0 : ∀ v, 0 ≤ ((fr v).n * l).tdiv (fr v).d ∧ ((fr v).n * l).tdiv (fr v).d ≤ Q := by
    intro v
    have e := hval v
    unfold val at e
    have h1 : ((fr v).d : ℚ) ≠ 0 := by exact_mod_cast (hn v).1.1.ne'
    have h2 : (r t : ℚ) ≠ 0 := by exact_mod_cast (k3 t).ne'
    rw [div_eq_div_iff h1 h2] at e
    have e' : (fr v).n * r t = r v * (fr v).d := by exact_mod_cast e
    have hp := (mul_pos (hnum v) hlpos).le
    rw [Int.tdiv_eq_ediv_of_nonneg hp]
    refine ⟨Int.ediv_nonneg hp (hn v).1.1.le, ?_⟩
    have : ((fr v).n * l) / (fr v).d ≤ r v := by
      apply Int.le_of_lt_add_one
      apply Int.ediv_lt_of_lt_mul (hn v).1.1
      have a1 : (fr v).n * l ≤ (fr v).n * r t := mul_le_mul_of_nonneg_left hlt (hnum v).le
      have a2 : 0 < (fr v).d := (hn v).1.1
      have a3 : (r v + 1) * (fr v).d = r v * (fr v).d + (fr v).d := by ring
      omega
    exact this.trans ((hrq v).trans (hQ v))
  have hc := hcalc
  unfold calcRepetitionVector at hc
  unfold RepM.calcRepetitionVector
  rw [hML, Option.bind_some]
  simp only [← hl] at hc
  rw [if_neg hlpos.ne'] at hc ⊢
  have nd : ¬ ∃ v, (fr v).d = 0 := by rintro ⟨v, hv⟩; have := (hn v).1.1; omega
  rw [if_neg nd] at hc ⊢
  rw [if_neg (by rintro ⟨v, hv⟩; rw [p1 v] at hv; simp at hv)]
  cases hh : (List.finRange nV).head? with
  | none => rw [hh] at hc; simp at hc
  | some w0 =>
    rw [hh] at hc
    simp only at hc ⊢
    obtain ⟨gc, hgc⟩ : ∃ x, x = (List.finRange nV).foldl (fun x v => (Int.gcd x (((fr v).n * l).tdiv (fr v).d) : Int))
      (((fr w0).n * l).tdiv (fr w0).d) := ⟨_, rfl⟩
    simp only [← hgc] at hc ⊢
    by_cases hg0 : gc ≤ 0
    · rw [if_pos hg0] at hc; simp at hc
    rw [if_neg hg0] at hc ⊢
    rw [if_neg]
    · exact hc
    rintro ⟨v, hv⟩
    have a0 := r0 v
    have hgp : 0 < gc := by omega
    have b0 : 0 ≤ (((fr v).n * l).tdiv (fr v).d).tdiv gc := Int.tdiv_nonneg a0.1 hgp.le
    have b1 : (((fr v).n * l).tdiv (fr v).d).tdiv gc ≤ Q := by
      rw [Int.tdiv_eq_ediv_of_nonneg a0.1]
      exact (Int.ediv_le_self _ a0.1).trans a0.2
    rw [RepM.long_eq (mul_nonneg b0 hrpi.le) ((mul_le_mul_of_nonneg_right b1 hrpi.le).trans hQrp)] at hv
    simp at hv

/-- **C110** A graph without repetition vector is reported as such when the `nV`-th power of `R * P` fits in a `long`. -/
theorem C110_inconsistent (h : Rep.OK g)
    (hno : ¬ ((∀ e, 0 < (g.prod e).sum ∧ 0 < (g.cons e).sum) ∧ ∃ q : Fin nV → Int, (∀ v, 0 < q v) ∧ Balanced g q)) {R : Int}
    (hR : 0 < R) (hRm : R ≤ 2 ^ 31 - 1) (hrate : ∀ e, (g.prod e).sum ≤ R ∧ (g.cons e).sum ≤ R)
    (hp : (R * ratePeriod g) ^ nV ≤ 2 ^ 63 - 1) : RepM.compute g = some none := by
  have hL : RepM.longMax = 2 ^ 63 - 1 := rfl
  have hI : RepM.intMax = 2 ^ 31 - 1 := rfl
  rw [← hL] at hp
  rw [← hI] at hRm
  have hrp := (rp_facts h).1
  have hrpi : (0 : Int) < ratePeriod g := by exact_mod_cast hrp
  have hP : 1 ≤ R * ratePeriod g := mul_pos hR hrpi
  have hPL : R * ratePeriod g ≤ RepM.longMax := (le_self_pow₀ hP h.vertices.ne').trans hp
  have hrpM : (ratePeriod g : Int) ≤ RepM.longMax := by
    have : 1 * (ratePeriod g : Int) ≤ R * ratePeriod g := mul_le_mul_of_nonneg_right hR hrpi.le
    omega
  have rin := fun e => RepM.rate_eq (g.prod e) (ratePeriod g) (h.prodNonneg e) (hrate e).1 hRm hPL
  have rout := fun e => RepM.rate_eq (g.cons e) (ratePeriod g) (h.consNonneg e) (hrate e).2 hRm hPL
  have hB : RepM.RatesOK g (ratePeriod g) (R * ratePeriod g) :=
    ⟨fun e => (rin e).1, fun e => (rout e).1, fun e => (rin e).2, fun e => (rout e).2, hP, hp⟩
  have m1 := RepM.roots_small hB (nV + 1) (List.finRange nV) (fun _ => zero) (RepM.small_zero _)
  have hcomp : compute g = some none := by
    obtain ⟨⟨r, hr⟩, hiff⟩ := C14_consistent_iff h
    cases r with
    | none => exact hr
    | some N => exact absurd (hiff.mp ⟨N, hr⟩) hno
  unfold RepM.compute
  rw [RepM.ratePeriod_eq hrp hrpM, Option.bind_some, if_neg (by omega), m1]
  unfold compute at hcomp
  simp only at hcomp
  rw [if_neg hrp.ne'] at hcomp
  cases hres : roots g (ratePeriod g) (nV + 1) (List.finRange nV) (fun _ => zero) with
  | none => rw [hres] at hcomp; simp at hcomp
  | some r =>
    obtain ⟨b, fr⟩ := r
    cases b with
    | false => rfl
    | true =>
      exfalso
      obtain ⟨i1, i2⟩ := rates_nonneg h (ratePeriod g)
      obtain ⟨b, fr', h1, h2, -⟩ := roots_spec (g := g) (rp := ratePeriod g) i1 i2 (List.finRange nV) (fun _ => zero)
        (fun v => ⟨zero_lowest, by unfold zero; norm_num⟩) (fun v hv => absurd rfl hv)
      rw [hres] at h1 hcomp
      obtain ⟨rfl, rfl⟩ : true = b ∧ fr = fr' := by simpa using h1
      obtain ⟨hn, -, -, hnz⟩ := h2 rfl
      obtain ⟨N, hN, -⟩ := calc_spec (g := g) h.vertices hrp h.phases hn fun v => hnz v (List.mem_finRange v)
      simp only [hN] at hcomp
      simp at hcomp

/-- **C110** Whatever the sizes, if no operation overflows and the rates of every channel end add up to an `int`, the
machine's answer is that of the program on unbounded integers. -/
theorem C110_agrees (h : Rep.OK g) (hrate : ∀ e, (g.prod e).sum ≤ 2 ^ 31 - 1 ∧ (g.cons e).sum ≤ 2 ^ 31 - 1)
    {r : Option (Fin nV → Int)} (hr : RepM.compute g = some r) : Rep.compute g = some r := by
  have hI : RepM.intMax = 2 ^ 31 - 1 := rfl
  rw [← hI] at hrate
  unfold RepM.compute at hr
  obtain ⟨rp, hrp, hr⟩ := Option.bind_eq_some_iff.mp hr
  obtain rfl : rp = (ratePeriod g : Int) := RepM.ratePeriod_some (g := g) (List.finRange nE) 1 rp hrp
  have hpos := (rp_facts h).1
  rw [if_neg (by omega)] at hr
  have rate : ∀ (l : List Int) (x : Int), (∀ r ∈ l, 0 ≤ r) → l.sum ≤ RepM.intMax →
      ((RepM.total 0 l).bind fun t => RepM.long (t * (ratePeriod g : Int).tdiv l.length)) = some x →
      x = l.sum * ((ratePeriod g / l.length : ℕ) : Int) := by
    intro l x h0 h1 hx
    rw [RepM.total_eq l 0 le_rfl h0 (by omega), Option.bind_some, zero_add, ← Int.ofNat_tdiv] at hx
    exact RepM.long_some hx
  have hi : ∀ e x, RepM.inRate g (ratePeriod g) e = some x → x = inRate g (ratePeriod g) e :=
    fun e x hx => rate _ x (h.prodNonneg e) (hrate e).1 hx
  have ho : ∀ e x, RepM.outRate g (ratePeriod g) e = some x → x = outRate g (ratePeriod g) e :=
    fun e x hx => rate _ x (h.consNonneg e) (hrate e).2 hx
  unfold compute
  simp only
  rw [if_neg hpos.ne']
  cases hro : RepM.roots g (ratePeriod g) (nV + 1) (List.finRange nV) (fun _ => zero) with
  | none => rw [hro] at hr; simp at hr
  | some x =>
    rw [hro] at hr
    rw [RepM.roots_some hi ho _ _ _ _ hro]
    obtain ⟨b, fr⟩ := x
    cases b with
    | false => exact hr
    | true =>
      simp only at hr ⊢
      unfold RepM.calcRepetitionVector at hr
      obtain ⟨l, hl, hr⟩ := Option.bind_eq_some_iff.mp hr
      have hl' : denLcm fr = l := RepM.denLcm_some fr _ _ _ hl
      unfold calcRepetitionVector
      simp only [hl']
      by_cases c1 : l = 0
      · rw [if_pos c1] at hr ⊢; exact hr
      rw [if_neg c1] at hr ⊢
      by_cases c2 : ∃ v, (fr v).d = 0
      · rw [if_pos c2] at hr; simp at hr
      rw [if_neg c2] at hr ⊢
      by_cases c3 : ∃ v, RepM.long ((fr v).n * l) = none
      · rw [if_pos c3] at hr; simp at hr
      rw [if_neg c3] at hr
      cases hh : (List.finRange nV).head? with
      | none => rw [hh] at hr; simp at hr
      | some w0 =>
        rw [hh] at hr
        simp only at hr ⊢
        split at hr
        · simp at hr
        rename_i c4
        rw [if_neg c4]
        split at hr
        · simp at hr
        exact hr

/-- **C110** The size of the result alone is not enough: all the entries of this vector and all the rates are below
2^62, but the program multiplies the numerator of the last task by the common denominator, which overflows. -/
theorem C110_overflow_counterexample :
    let g : Rep.Graph 3 2 := ⟨![0, 1], ![1, 2], ![[2 ^ 30], [2 ^ 30]], ![[2 ^ 30 - 1], [2 ^ 30 - 1]], ![1, 1, 1]⟩
    Rep.OK g ∧ (∃ q, Rep.compute g = some (some q) ∧ q = ![(2 ^ 30 - 1) * (2 ^ 30 - 1), 2 ^ 30 * (2 ^ 30 - 1), 2 ^ 30 * 2 ^ 30]) ∧
      RepM.compute g = none := by
  refine ⟨by constructor <;> decide +kernel, ⟨_, rfl, by decide +kernel⟩, by decide +kernel⟩

/-- **C110** A rate beyond the range of `int` is silently cut to its low 32 bits: the machine returns a vector that
does not balance the channel. -/
theorem C110_rate_counterexample :
    let g : Rep.Graph 2 1 := ⟨![0], ![1], ![[2 ^ 32 + 1]], ![[1]], ![1, 1]⟩
    Rep.OK g ∧ (∃ q, RepM.compute g = some (some q) ∧ q = ![1, 1] ∧ ¬ Rep.Balanced g q) ∧
      ∃ q, Rep.compute g = some (some q) ∧ q = ![1, 2 ^ 32 + 1] := by
  refine ⟨by constructor <;> decide +kernel, ⟨_, rfl, by decide +kernel, ?_⟩, ⟨_, rfl, by decide +kernel⟩⟩
  unfold Rep.Balanced
  decide +kernel

/-- The hypotheses are met by the example of three tasks, one with two phases. -/
example : RepM.compute exGraph = some (some ![4, 3, 4]) := by
  refine C110_no_overflow (g := exGraph) (R := 5) (Q := 4) (by constructor <;> decide +kernel) ?_ (by norm_num) (by norm_num)
    (by decide +kernel) (by decide +kernel) (by norm_num) (by decide +kernel)
  obtain ⟨N, hN, e⟩ : ∃ N, Rep.compute exGraph = some (some N) ∧ N = ![4, 3, 4] := ⟨_, rfl, by decide +kernel⟩
  exact e ▸ hN

/-- Entries and rates of a thousand, sixty phases. -/
example : (1000 : Int) * 1000 ≤ 2 ^ 63 - 1 ∧ (1000 : Int) * 1000 * 60 ≤ 2 ^ 63 - 1 := by norm_num

/-- A graph without repetition vector meeting the hypotheses. -/
example : RepM.compute (⟨![0, 1], ![1, 0], ![[1], [1]], ![[1], [2]], ![1, 1]⟩ : Rep.Graph 2 2) = some none := by
  refine C110_inconsistent (R := 2) (by constructor <;> decide +kernel) ?_ (by norm_num) (by norm_num)
    (by decide +kernel) (by decide +kernel)
  rintro ⟨-, q, hq, hb⟩
  have h0 := hb 0
  have h1 := hb 1
  simp at h0 h1
  have := hq 0
  have := hq 1
  omega

end Kiter
