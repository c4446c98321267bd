/-
Property C34: exploration step and minimal channel size.

Specification: a channel of capacity `B` is a small transition system. Its state is the number of tokens, of productions
and of consumptions so far; a production needs room, a consumption needs tokens.
-/
import Verif.Model.ChannelSize
import Mathlib.Tactic.Ring
import Mathlib.Tactic.Linarith
import Mathlib.Tactic.LinearCombination
import Mathlib.Logic.Relation
import Mathlib.Data.Fintype.Card
import Mathlib.Data.Finset.Max
import Mathlib.Data.Int.Interval
import Mathlib.Algebra.Order.Ring.Int
import Mathlib.Data.Int.ModEq
import Mathlib.Data.List.GetD
import Mathlib.Data.Fin.VecNotation
import Mathlib.RingTheory.Coprime.Lemmas

set_option autoImplicit false

namespace Kiter

/-- State of a channel. -/
structure ChState where
  tokens : Int
  prod : ℕ
  cons : ℕ

/-- Rate of the `i`-th firing for cyclic rates `v`. -/
def cyclicRate (v : List Int) (i : ℕ) : Int := v.getD (i % v.length) 0

/-- Transitions of a channel of capacity `B`: a production that fits, or a consumption of available tokens. -/
def ChStep (B : Int) (inV outV : List Int) (s s' : ChState) : Prop :=
  (s.tokens + cyclicRate inV s.prod ≤ B ∧ s' = ⟨s.tokens + cyclicRate inV s.prod, s.prod + 1, s.cons⟩) ∨
  (cyclicRate outV s.cons ≤ s.tokens ∧ s' = ⟨s.tokens - cyclicRate outV s.cons, s.prod, s.cons + 1⟩)

/-- An infinite execution of the channel from `t` tokens. -/
def InfiniteRun (B : Int) (inV outV : List Int) (t : Int) : Prop :=
  ∃ s : ℕ → ChState, s 0 = ⟨t, 0, 0⟩ ∧ ∀ i, ChStep B inV outV (s i) (s (i + 1))

theorem foldl_gcd_spec (l : List Int) (g : Int) :
    let r := l.foldl (fun g r => (Int.gcd g r : Int)) g
    (r ∣ g ∧ ∀ x ∈ l, r ∣ x) ∧ ∀ d : Int, d ∣ g → (∀ x ∈ l, d ∣ x) → d ∣ r := by
  induction l generalizing g with
  | nil => simp
  | cons x l ih =>
    obtain ⟨⟨h1, h2⟩, h3⟩ := ih (Int.gcd g x : Int)
    refine ⟨⟨h1.trans (Int.gcd_dvd_left ..), fun y hy => ?_⟩, fun d hd hl => ?_⟩
    · rcases List.mem_cons.mp hy with rfl | hy
      · exact h1.trans (Int.gcd_dvd_right ..)
      · exact h2 y hy
    · exact h3 d (Int.dvd_coe_gcd hd (hl x (by simp))) (fun y hy => hl y (by simp [hy]))

theorem foldl_gcd_nonneg (l : List Int) (g : Int) (h : 0 ≤ g ∨ l ≠ []) :
    0 ≤ l.foldl (fun g r => (Int.gcd g r : Int)) g := by
  induction l generalizing g with
  | nil => rcases h with h | h <;> simp_all
  | cons x l ih => exact ih _ (Or.inl (Int.natCast_nonneg _))

/-- **C34 (step).** The step of a channel is the greatest common divisor of all its rates: it is not negative, divides
every production and consumption rate, and every common divisor divides it. It is undefined only without production
phases. -/
theorem C34_step_is_gcd (inV outV : List Int) (hin : inV ≠ []) :
    ∃ g, findMinimumStepSz inV outV = some g ∧ 0 ≤ g ∧ (∀ r ∈ inV ++ outV, g ∣ r) ∧
      ∀ d : Int, (∀ r ∈ inV ++ outV, d ∣ r) → d ∣ g := by
  cases inV with
  | nil => exact absurd rfl hin
  | cons p l =>
    refine ⟨_, rfl, ?_, fun r hr => ?_, fun d hd => ?_⟩
    · exact foldl_gcd_nonneg _ _ (Or.inl (foldl_gcd_nonneg _ _ (Or.inr (by simp))))
    · obtain ⟨⟨a1, a2⟩, -⟩ := foldl_gcd_spec (p :: l) p
      obtain ⟨⟨b1, b2⟩, -⟩ := foldl_gcd_spec outV ((p :: l).foldl (fun g r => (Int.gcd g r : Int)) p)
      rcases List.mem_append.mp hr with hr | hr
      · exact b1.trans (a2 r hr)
      · exact b2 r hr
    · obtain ⟨-, a3⟩ := foldl_gcd_spec (p :: l) p
      obtain ⟨-, b3⟩ := foldl_gcd_spec outV ((p :: l).foldl (fun g r => (Int.gcd g r : Int)) p)
      exact b3 d (a3 d (hd p (by simp)) (fun x hx => hd x (List.mem_append.mpr (Or.inl hx))))
        (fun x hx => hd x (List.mem_append.mpr (Or.inr hx)))

theorem cyclicRate_mem (v : List Int) (hv : v ≠ []) (i : ℕ) : cyclicRate v i ∈ v := by
  unfold cyclicRate
  have h : i % v.length < v.length := Nat.mod_lt _ (List.length_pos_of_ne_nil hv)
  rw [List.getD_eq_getElem _ _ h]
  exact List.getElem_mem h

/-- **C34 (use of the step).** In every reachable state the channel contains the initial tokens plus a multiple of the
step, so two capacities with the same number of whole steps above the initial tokens allow the same transitions: trying
capacities in between is useless. -/
theorem C34_only_steps_matter (inV outV : List Int) (hin : inV ≠ []) (hout : outV ≠ []) (t g : Int)
    (hg : findMinimumStepSz inV outV = some g) (hpos : 0 < g) (B B' : Int) (hB : (B - t) / g = (B' - t) / g) (s : ChState)
    (hs : Relation.ReflTransGen (ChStep B inV outV) ⟨t, 0, 0⟩ s) :
    g ∣ s.tokens - t ∧ ∀ s', ChStep B inV outV s s' ↔ ChStep B' inV outV s s' := by
  obtain ⟨g', hg', -, hdvd, -⟩ := C34_step_is_gcd inV outV hin
  rw [hg] at hg'; cases hg'
  have inv : g ∣ s.tokens - t := by
    induction hs with
    | refl => simp
    | @tail s _ _ hstep ih =>
      rcases hstep with ⟨h, rfl⟩ | ⟨h, rfl⟩
      · have := hdvd _ (List.mem_append.mpr (Or.inl (cyclicRate_mem inV hin s.prod)))
        have e : s.tokens + cyclicRate inV s.prod - t = (s.tokens - t) + cyclicRate inV s.prod := by ring
        show g ∣ s.tokens + cyclicRate inV s.prod - t
        rw [e]; exact dvd_add ih this
      · have := hdvd _ (List.mem_append.mpr (Or.inr (cyclicRate_mem outV hout s.cons)))
        have e : s.tokens - cyclicRate outV s.cons - t = (s.tokens - t) - cyclicRate outV s.cons := by ring
        show g ∣ s.tokens - cyclicRate outV s.cons - t
        rw [e]; exact dvd_sub ih this
  refine ⟨inv, ?_⟩
  have room : ∀ y : Int, g ∣ y - t → ∀ B B' : Int, (B - t) / g = (B' - t) / g → y ≤ B → y ≤ B' := by
    intro y hy B B' hB h
    obtain ⟨k, hk⟩ := hy
    have h1 : k ≤ (B - t) / g := by
      rw [Int.le_ediv_iff_mul_le hpos]; linarith
    rw [hB, Int.le_ediv_iff_mul_le hpos] at h1
    linarith
  have hnext : g ∣ s.tokens + cyclicRate inV s.prod - t := by
    have := hdvd _ (List.mem_append.mpr (Or.inl (cyclicRate_mem inV hin s.prod)))
    have e : s.tokens + cyclicRate inV s.prod - t = (s.tokens - t) + cyclicRate inV s.prod := by ring
    rw [e]; exact dvd_add inv this
  intro s'
  constructor
  · rintro (⟨h, h'⟩ | h)
    · exact Or.inl ⟨room _ hnext B B' hB h, h'⟩
    · exact Or.inr h
  · rintro (⟨h, h'⟩ | h)
    · exact Or.inl ⟨room _ hnext B' B hB.symm h, h'⟩
    · exact Or.inr h

theorem cyclicRate_single (p : Int) (i : ℕ) : cyclicRate [p] i = p := by
  simp [cyclicRate, Nat.mod_one]

/-- **C34 (minimal size, single rate).** For a channel with one production rate `p` and one consumption rate `c` and `t`
initial tokens, the computed size `B` (below the `INT_MAX` starting value) is exactly minimal: with capacity `B` or more
no reachable state is stuck, with any capacity below `B` there is no infinite execution or the initial tokens do not
fit. -/
theorem C34_single_rate_minimal (p c t : Int) (hp : 0 < p) (hc : 0 < c) (ht : 0 ≤ t) (B : Int)
    (hB : findMinimumChannelSz [p] [c] t = some B) (hmax : B < 2147483647) :
    (∀ B' : Int, B ≤ B' → ∀ s, Relation.ReflTransGen (ChStep B' [p] [c]) ⟨t, 0, 0⟩ s → ∃ s', ChStep B' [p] [c] s s') ∧
    (∀ B' : Int, B' < B → t ≤ B' → ¬ InfiniteRun B' [p] [c] t) := by
  set g : Int := (Int.gcd p c : Int) with hgdef
  have hgn : Int.gcd p c ≠ 0 := by
    intro h; rw [Int.gcd_eq_zero_iff] at h; omega
  have hgpos : 0 < g := by rw [hgdef]; exact_mod_cast Nat.pos_of_ne_zero hgn
  have hgp : g ∣ p := Int.gcd_dvd_left ..
  have hgc : g ∣ c := Int.gcd_dvd_right ..
  have hBe : B = if p + c - g + t % g > t then p + c - g + t % g else t := by
    have htm : t.tmod g = t % g := Int.tmod_eq_emod_of_nonneg ht
    have : findMinimumChannelSz [p] [c] t = some (if channelBound p c t < 2147483647 then channelBound p c t else 2147483647) := by
      simp [findMinimumChannelSz, minChannelLoop]
    rw [this] at hB
    simp only [Option.some.injEq] at hB
    have hcb : channelBound p c t = if p + c - g + t % g > t then p + c - g + t % g else t := by
      unfold channelBound
      rw [if_pos hgn]
      simp only [← hgdef, htm]
    rw [← hcb]
    split at hB <;> omega
  have hr0 : 0 ≤ t % g := Int.emod_nonneg _ hgpos.ne'
  have hr1 : t % g < g := Int.emod_lt_of_pos _ hgpos
  have hdiv : t % g + g * (t / g) = t := Int.emod_add_mul_ediv t g
  obtain ⟨kp, hkp⟩ := hgp
  obtain ⟨kc, hkc⟩ := hgc
  constructor
  · intro B' hBB' s hs
    -- contents are congruent to t
    have inv : g ∣ s.tokens - t := by
      induction hs with
      | refl => simp
      | @tail s _ _ hstep ih =>
        rcases hstep with ⟨h, rfl⟩ | ⟨h, rfl⟩
        · rw [cyclicRate_single]
          have e : s.tokens + p - t = (s.tokens - t) + p := by ring
          show g ∣ s.tokens + p - t
          rw [e]; exact dvd_add ih ⟨kp, hkp⟩
        · rw [cyclicRate_single]
          have e : s.tokens - c - t = (s.tokens - t) - c := by ring
          show g ∣ s.tokens - c - t
          rw [e]; exact dvd_sub ih ⟨kc, hkc⟩
    by_contra hstuck
    have h1 : ¬ s.tokens + p ≤ B' := fun h => hstuck ⟨_, Or.inl ⟨by rw [cyclicRate_single]; exact h, rfl⟩⟩
    have h2 : ¬ c ≤ s.tokens := fun h => hstuck ⟨_, Or.inr ⟨by rw [cyclicRate_single]; exact h, rfl⟩⟩
    obtain ⟨k, hk⟩ := inv
    have hBge : p + c - g + t % g ≤ B := by rw [hBe]; split <;> omega
    -- s.tokens < c and congruent to t, so at most c - g + t % g
    have h3 : k + t / g < kc := by
      by_contra hcon
      push Not at hcon
      have := mul_le_mul_of_nonneg_left hcon hgpos.le
      have e : g * (k + t / g) = g * k + g * (t / g) := by ring
      omega
    have h4 : k + t / g ≤ kc - 1 := by omega
    have h5 := mul_le_mul_of_nonneg_left h4 hgpos.le
    have e1 : g * (k + t / g) = g * k + g * (t / g) := by ring
    have e2 : g * (kc - 1) = g * kc - g := by ring
    omega
  · rintro B' hlt htB ⟨s, hs0, hs⟩
    have hBlt : B' < p + c - g + t % g := by
      rw [hBe] at hlt; split at hlt <;> omega
    -- every state of the run is r + g * a i with 0 ≤ a i ≤ kp + kc - 2, and a i ≡ a 0 + i * kp modulo kp + kc
    have hkp0 : 0 < kp := by
      by_contra h; push Not at h
      have := mul_nonpos_of_nonneg_of_nonpos hgpos.le h; omega
    have hkc0 : 0 < kc := by
      by_contra h; push Not at h
      have := mul_nonpos_of_nonneg_of_nonpos hgpos.le h; omega
    have hcop : Int.gcd kp kc = 1 := by
      have h := Int.gcd_mul_left g kp kc
      rw [← hkp, ← hkc] at h
      have hna : g.natAbs = Int.gcd p c := by rw [hgdef]; simp
      rw [hna] at h
      have : Int.gcd p c * 1 = Int.gcd p c * Int.gcd kp kc := by rw [mul_one]; exact h
      exact (Nat.eq_of_mul_eq_mul_left (Nat.pos_of_ne_zero hgn) this).symm
    set N := kp + kc with hN
    have main : ∀ i : ℕ, 0 ≤ (s i).tokens ∧ (s i).tokens ≤ B' ∧ ∃ a : Int, (s i).tokens = t % g + g * a ∧
        N ∣ a - (t / g + i * kp) := by
      intro i
      induction i with
      | zero => rw [hs0]; exact ⟨ht, htB, t / g, hdiv.symm, by simp⟩
      | succ i ih =>
        obtain ⟨i1, i2, a, i3, i4⟩ := ih
        have hstep := hs i
        obtain ⟨u, hu⟩ : ∃ u, s i = u := ⟨_, rfl⟩
        obtain ⟨w, hw⟩ : ∃ w, s (i + 1) = w := ⟨_, rfl⟩
        rw [hu, hw] at hstep
        rw [hu] at i1 i2 i3
        rw [hw]
        rcases hstep with ⟨h, rfl⟩ | ⟨h, rfl⟩
        · rw [cyclicRate_single] at h ⊢
          refine ⟨by show 0 ≤ u.tokens + p; omega, h, a + kp, ?_, ?_⟩
          · show u.tokens + p = _; rw [i3, hkp]; ring
          · have e : a + kp - (t / g + ((i + 1 : ℕ) : Int) * kp) = a - (t / g + i * kp) := by push_cast; ring
            rw [e]; exact i4
        · rw [cyclicRate_single] at h ⊢
          refine ⟨by show 0 ≤ u.tokens - c; omega, by show u.tokens - c ≤ B'; omega, a - kc, ?_, ?_⟩
          · show u.tokens - c = _; rw [i3, hkc]; ring
          · have e : a - kc - (t / g + ((i + 1 : ℕ) : Int) * kp) = a - (t / g + i * kp) - N := by
              rw [hN]; push_cast; ring
            rw [e]; exact dvd_sub i4 (dvd_refl _)
    choose htok hcap a ha hcong using main
    have harange : ∀ i, a i ∈ Finset.Ico (0 : Int) (N - 1) := by
      intro i
      have h1 := htok i
      have h2 := hcap i
      rw [ha i] at h1 h2
      rw [Finset.mem_Ico]
      constructor
      · by_contra hneg
        push Not at hneg
        have : g * a i ≤ g * (-1) := mul_le_mul_of_nonneg_left (by omega) hgpos.le
        omega
      · by_contra hbig
        push Not at hbig
        have : g * (N - 1) ≤ g * a i := mul_le_mul_of_nonneg_left hbig hgpos.le
        have e : g * (N - 1) = g * kp + g * kc - g := by rw [hN]; ring
        omega
    -- pigeonhole on the first N states
    have hcard : (Finset.Ico (0 : Int) (N - 1)).card < (Finset.range N.toNat).card := by
      rw [Int.card_Ico, Finset.card_range]; omega
    obtain ⟨i, hi, j, hj, hij, haij⟩ := Finset.exists_ne_map_eq_of_card_lt_of_maps_to hcard (f := a) (fun i _ => harange i)
    rw [Finset.mem_range] at hi hj
    have h1 := hcong i
    have h2 := hcong j
    rw [haij] at h1
    have h3 : N ∣ ((j : Int) - i) * kp := by
      have := dvd_sub h1 h2
      have e : a j - (t / g + (i : Int) * kp) - (a j - (t / g + (j : Int) * kp)) = ((j : Int) - i) * kp := by ring
      rwa [e] at this
    have hcopN : IsCoprime N kp := by
      rw [Int.isCoprime_iff_gcd_eq_one, hN, Int.gcd_comm]
      simpa using hcop
    have h4 : N ∣ (j : Int) - i := hcopN.dvd_of_dvd_mul_right h3
    obtain ⟨m, hm⟩ := h4
    have hNpos : 0 < N := by omega
    have hm0 : m = 0 := by
      by_contra hne
      rcases lt_or_gt_of_ne hne with h | h
      · have : N * m ≤ N * (-1) := mul_le_mul_of_nonneg_left (by omega) hNpos.le
        omega
      · have : N * 1 ≤ N * m := mul_le_mul_of_nonneg_left (by omega) hNpos.le
        omega
    rw [hm0] at hm
    omega

/-- A concrete case of the single-rate theorem: rates 4 and 6 with 3 initial tokens need capacity 9. -/
theorem C34_example : findMinimumChannelSz [4] [6] 3 = some 9 := by decide +kernel

/-- With several phases the computed size is not a lower bound. For production rates 3, 2 and consumption rates 2, 3 it is
4, but a channel of capacity 3 runs for ever, so an exploration starting at 4 misses a valid size. -/
theorem C34_multiphase_counterexample : findMinimumChannelSz [3, 2] [2, 3] 0 = some 4 ∧ InfiniteRun 3 [3, 2] [2, 3] 0 := by
  refine ⟨by decide +kernel, ?_⟩
  -- after 4k steps: 0 tokens, 2k productions and consumptions
  refine ⟨fun i => ⟨(![0, 3, 1, 3] : Fin 4 → Int) ⟨i % 4, Nat.mod_lt _ (by omega)⟩,
    2 * (i / 4) + (![0, 1, 1, 2] : Fin 4 → ℕ) ⟨i % 4, Nat.mod_lt _ (by omega)⟩,
    2 * (i / 4) + (![0, 0, 1, 1] : Fin 4 → ℕ) ⟨i % 4, Nat.mod_lt _ (by omega)⟩⟩, rfl, fun i => ?_⟩
  have hr : ∀ (v : List Int), v.length = 2 → ∀ k j, cyclicRate v (2 * k + j) = cyclicRate v j := by
    intro v hv k j
    unfold cyclicRate
    rw [hv, Nat.mul_add_mod]
  have hcase : i % 4 = 0 ∨ i % 4 = 1 ∨ i % 4 = 2 ∨ i % 4 = 3 := by omega
  rcases hcase with h | h | h | h
  · have h1 : (i + 1) % 4 = 1 := by omega
    have h2 : (i + 1) / 4 = i / 4 := by omega
    simp only [h, h1, h2]
    left; simp only [hr _ (show ([3, 2] : List Int).length = 2 from rfl)]; exact ⟨show (0 : Int) + cyclicRate [3, 2] 0 ≤ 3 by decide, rfl⟩
  · have h1 : (i + 1) % 4 = 2 := by omega
    have h2 : (i + 1) / 4 = i / 4 := by omega
    simp only [h, h1, h2]
    right; simp only [hr _ (show ([2, 3] : List Int).length = 2 from rfl)]; exact ⟨show cyclicRate [2, 3] 0 ≤ 3 by decide, rfl⟩
  · have h1 : (i + 1) % 4 = 3 := by omega
    have h2 : (i + 1) / 4 = i / 4 := by omega
    simp only [h, h1, h2]
    left; simp only [hr _ (show ([3, 2] : List Int).length = 2 from rfl)]; exact ⟨show (1 : Int) + cyclicRate [3, 2] 1 ≤ 3 by decide, rfl⟩
  · have h1 : (i + 1) % 4 = 0 := by omega
    have h2 : (i + 1) / 4 = i / 4 + 1 := by omega
    simp only [h, h1, h2]
    right; simp only [hr _ (show ([2, 3] : List Int).length = 2 from rfl)]; exact ⟨show cyclicRate [2, 3] 1 ≤ 3 by decide, rfl⟩

example : findMinimumStepSz [4, 6] [10] = some 2 := by decide +kernel

end Kiter
