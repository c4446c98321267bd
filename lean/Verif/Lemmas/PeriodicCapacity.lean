/-
Periodic schedules and channels: what a channel asks of a periodic schedule, pair of phases by pair of phases.
-/
import Verif.Lemmas.PeriodicSizing

set_option autoImplicit false

namespace Kiter
open Finset

section
variable {f v : ℕ → Int} {M N : ℕ} {p : Int} {s t d : ℕ → ℚ} {τ : ℚ}

/-- An execution whose tokens are needed completes first. -/
theorem NeverShort.requires {e : ℕ → ℚ} (h : NeverShort f v p e t) (hf0 : ∀ k, 0 ≤ f k) (he : Monotone e) (ht : Monotone t)
    {k l : ℕ} (hkl : p + cum f k < cum v (l + 1)) : e k ≤ t l := by
  by_contra hc
  rw [not_le] at hc
  obtain ⟨P, hP, hsum⟩ := h (t l) (range (l + 1)) (fun i hi => ht (by simp at hi; omega))
  have : ∑ i ∈ P, f i ≤ cum f k := by
    unfold cum
    refine sum_le_sum_of_subset_of_nonneg (fun i hi => ?_) (fun i _ _ => hf0 i)
    by_contra hn
    have : k ≤ i := by simpa using hn
    have := he this
    have := hP i hi
    linarith
  have h3 : cum v (l + 1) ≤ p + cum f k := le_trans hsum (by omega)
  omega

/-- Every multiple of the gcd below the bound gives an inequality that holds. -/
theorem NeverShort.pairs (h : NeverShort f v p (fun k => s k + d k) t) (hf0 : ∀ k, 0 ≤ f k)
    (he : Monotone fun k => s k + d k) (ht : Monotone t) (hpf : ∀ k, f (k + M) = f k) (hpv : ∀ k, v (k + N) = v k)
    (hW : 0 < cum f M) (hR : 0 < cum v N)
    (hps : ∀ k, s (k + M) = s k + τ * cum f M) (hpt : ∀ k, t (k + N) = t k + τ * cum v N) (hpd : ∀ k, d (k + M) = d k)
    {m n : ℕ} {α : Int} (hα : ((Int.gcd (cum f M) (cum v N) : ℕ) : Int) ∣ α)
    (hle : α ≤ cum v (n + 1) - cum f m - p - 1) : s m + d m + τ * α ≤ t n := by
  obtain ⟨a, b, hab⟩ := exists_nonneg_comb hW hR hα
  have hd : d (m + a * M) = d m := by
    have := per_mul (h := d) (μ := 0) (M := M) (by simpa using hpd) m a
    simpa using this
  have := h.requires hf0 he ht (k := m + a * M) (l := n + b * N) (by
    rw [cum_add_mul f M hpf, show n + b * N + 1 = n + 1 + b * N by ring, cum_add_mul v N hpv]; omega)
  rw [per_mul hps, per_mul hpt, hd] at this
  have e : (α : ℚ) = a * cum f M - b * cum v N := by rw [← hab]; push_cast; ring
  rw [e]
  linarith

/-- For the pairs of phases with positive rates, one inequality close enough to the bound is enough. -/
theorem neverShort_of_pairs (hM : 0 < M) (hN : 0 < N) (hf0 : ∀ k, 0 ≤ f k) (hv0 : ∀ k, 0 ≤ v k)
    (hpf : ∀ k, f (k + M) = f k) (hpv : ∀ k, v (k + N) = v k) (hW : 0 < cum f M) (hR : 0 < cum v N) (hτ : 0 ≤ τ) (hp : 0 ≤ p)
    (hps : ∀ k, s (k + M) = s k + τ * cum f M) (hpt : ∀ k, t (k + N) = t k + τ * cum v N) (hpd : ∀ k, d (k + M) = d k)
    (he : Monotone fun k => s k + d k) (ht : Monotone t)
    (h : ∀ m < M, ∀ n < N, 0 < min (f m) (v n) → ∃ β : Int,
      cum v (n + 1) - cum f m - p - (Int.gcd (cum f M) (cum v N) : ℕ) ≤ β * (Int.gcd (cum f M) (cum v N) : ℕ) ∧
      s m + d m + τ * (β * (Int.gcd (cum f M) (cum v N) : ℕ) : Int) ≤ t n) :
    NeverShort f v p (fun k => s k + d k) t := by
  have hg : (0 : Int) < ((Int.gcd (cum f M) (cum v N) : ℕ) : Int) := by
    exact_mod_cast Int.gcd_pos_of_ne_zero_left _ hW.ne'
  refine (neverShort_iff (step := 1) (mop := p) hf0 hv0 hpf hW (fun k => one_dvd _) (fun k => one_dvd _) (one_dvd _) one_pos hp
    le_rfl (by omega) he ht).2 ?_
  refine (pairs_iff (step := 1) (mop := p) hM hN hpf hpv (fun k => one_dvd _) (fun k => one_dvd _) (one_dvd _) one_pos hW hR hτ
    hps hpt hpd).1 ?_
  intro m hm n hn α hα
  unfold boundsDefault at hα
  split at hα
  · rename_i hle
    cases hα
    obtain ⟨d1, d2, -⟩ := floorMult_spec (-p - cum f m + cum v (n + 1) - 1) _ hg
    obtain ⟨e1, e2, -⟩ := ceilMult_spec (max 0 (f m - v n) - p - cum f (m + 1) + cum v (n + 1)) _ hg
    have hpos : 0 < min (f m) (v n) := by
      have c1 := cum_succ f m
      have m1 := le_max_left 0 (f m - v n)
      have m2 := le_max_right 0 (f m - v n)
      refine lt_min (by omega) (by omega)
    obtain ⟨β, h1, h2⟩ := h m hm n hn hpos
    have hle2 : floorMult (-p - cum f m + cum v (n + 1) - 1) ((Int.gcd (cum f M) (cum v N) : ℕ) : Int) ≤
        β * (Int.gcd (cum f M) (cum v N) : ℕ) := dvd_lt_add hg d1 (Dvd.intro_left _ rfl) (by omega)
    have hle3 := mul_le_mul_of_nonneg_left (Int.cast_le (R := ℚ).2 hle2) hτ
    linarith
  · simp at hα

end

/-- The channel in the other direction, with `F` tokens. -/
def revCh (c : KChannel) (F : Int) : KChannel := ⟨c.id, c.outPhases, c.inPhases, [], [], F, c.fineGCD⟩

theorem revCh_ok {c : KChannel} {src dst : KTask} (h : ChannelOK c src dst) {F : Int} (hF : 0 ≤ F) : ChannelOK (revCh c F) dst src :=
  ⟨rfl, rfl, h.dstPhases, h.srcPhases, h.outNonneg, h.inNonneg, h.outPos, h.inPos, h.gcdPos, h.gcdOut, h.gcdIn, hF, h.balance.symm⟩

/-- Facts about a channel between two tasks that repeat their phases at the graph period. -/
structure ChanPer (c : KChannel) (src dst : KTask) (Ω : ℚ) (s t : ℕ → ℚ) : Prop where
  src0 : 0 < c.inPhases.length
  dst0 : 0 < c.outPhases.length
  f0 : ∀ k, 0 ≤ rate c.inPhases k
  v0 : ∀ k, 0 ≤ rate c.outPhases k
  fp : ∀ k, rate c.inPhases (k + c.inPhases.length) = rate c.inPhases k
  vp : ∀ k, rate c.outPhases (k + c.outPhases.length) = rate c.outPhases k
  fs : cum (rate c.inPhases) c.inPhases.length = c.inPhases.sum
  vs : cum (rate c.outPhases) c.outPhases.length = c.outPhases.sum
  ps : ∀ k, s (k + c.inPhases.length) = s k + Ω * src.durations.length / src.ni / c.inPhases.sum * cum (rate c.inPhases) c.inPhases.length
  pt : ∀ k, t (k + c.outPhases.length) = t k + Ω * src.durations.length / src.ni / c.inPhases.sum * cum (rate c.outPhases) c.outPhases.length
  pd : ∀ k, src.dur (k + c.inPhases.length) = src.dur k

theorem chanPer {c : KChannel} {src dst : KTask} {Ω : ℚ} {s t : ℕ → ℚ} (hc : ChannelOK c src dst) (hni : 0 < src.ni) (hnj : 0 < dst.ni)
    (hs : ∀ k, s (k + src.durations.length) = s k + Ω * src.durations.length / src.ni)
    (ht : ∀ k, t (k + dst.durations.length) = t k + Ω * dst.durations.length / dst.ni) : ChanPer c src dst Ω s t := by
  have hP : 0 < c.inPhases.length := by
    rcases Nat.eq_zero_or_pos c.inPhases.length with h | h
    · have := hc.inPos; rw [List.length_eq_zero_iff.mp h] at this; simp at this
    · exact h
  have hQ : 0 < c.outPhases.length := by
    rcases Nat.eq_zero_or_pos c.outPhases.length with h | h
    · have := hc.outPos; rw [List.length_eq_zero_iff.mp h] at this; simp at this
    · exact h
  have fs : cum (rate c.inPhases) c.inPhases.length = c.inPhases.sum := by simpa using cum_rate c.inPhases 1
  have vs : cum (rate c.outPhases) c.outPhases.length = c.outPhases.sum := by simpa using cum_rate c.outPhases 1
  have qin : (0 : ℚ) < c.inPhases.sum := by exact_mod_cast hc.inPos
  have qni : (0 : ℚ) < src.ni := by exact_mod_cast hni
  have qnj : (0 : ℚ) < dst.ni := by exact_mod_cast hnj
  have hbal : (c.inPhases.sum : ℚ) * src.ni * dst.durations.length = c.outPhases.sum * dst.ni * src.durations.length := by
    exact_mod_cast hc.balance
  refine ⟨hP, hQ, fun k => hc.inNonneg _ (rate_mem _ hP k), fun k => hc.outNonneg _ (rate_mem _ hQ k), fun k => ?_, fun k => ?_, fs, vs,
    fun k => ?_, fun k => ?_, fun k => ?_⟩
  · simpa using rate_periodic c.inPhases 1 k
  · simpa using rate_periodic c.outPhases 1 k
  · rw [← hc.srcPhases, hs, hc.srcPhases, fs, div_mul_cancel₀ _ qin.ne']
  · rw [← hc.dstPhases, ht, hc.dstPhases, vs]
    congr 1
    rw [div_mul_eq_mul_div, eq_div_iff qin.ne', div_mul_eq_mul_div, div_mul_eq_mul_div, div_eq_div_iff qnj.ne' qni.ne']
    rw [← hc.dstPhases]
    linear_combination Ω * hbal
  · rw [← hc.srcPhases]; simpa using dur_period (t := src) (K := 1) k

/-- A channel with the initial tokens `c.preload` accepts a periodic schedule exactly when the inequalities of the linear program
hold. -/
theorem normal_iff {c : KChannel} {src dst : KTask} {Ω : ℚ} {s t : ℕ → ℚ} (hc : ChannelOK c src dst) (hni : 0 < src.ni)
    (hnj : 0 < dst.ni) (hΩ : 0 ≤ Ω)
    (hs : ∀ k, s (k + src.durations.length) = s k + Ω * src.durations.length / src.ni)
    (ht : ∀ k, t (k + dst.durations.length) = t k + Ω * dst.durations.length / dst.ni)
    (he : Monotone fun k => s k + src.dur k) (hmt : Monotone t) {mop : Int} (hmop : cFloor c.preload c.fineGCD = some mop) :
    NeverShort (rate c.inPhases) (rate c.outPhases) c.preload (fun k => s k + src.dur k) t ↔
      ∀ m < src.durations.length, ∀ n < dst.durations.length,
        ceilMult (max 0 (rate c.inPhases m - rate c.outPhases n) + cum (rate c.outPhases) (n + 1) - cum (rate c.inPhases) (m + 1) - mop)
            (stepOf c) ≤ floorMult (cum (rate c.outPhases) (n + 1) - cum (rate c.inPhases) m - mop - 1) (stepOf c) →
          s m + src.dur m + (floorMult (cum (rate c.outPhases) (n + 1) - cum (rate c.inPhases) m - mop - 1) (stepOf c) : ℚ) *
            (Ω * src.durations.length / src.ni / c.inPhases.sum) ≤ t n := by
  obtain ⟨hP, hQ, f0, v0, fp, vp, fs, vs, ps, pt, pd⟩ := chanPer hc hni hnj hs ht
  obtain ⟨mop', hm', h1, h2, h3⟩ := cFloor_spec c.preload c.fineGCD hc.gcdPos hc.preload
  rw [hmop] at hm'; cases hm'
  have hW : 0 < cum (rate c.inPhases) c.inPhases.length := by rw [fs]; exact hc.inPos
  have hR : 0 < cum (rate c.outPhases) c.outPhases.length := by rw [vs]; exact hc.outPos
  have gf : ∀ k, c.fineGCD ∣ rate c.inPhases k := fun k => hc.gcdIn _ (rate_mem _ hP k)
  have gv : ∀ k, c.fineGCD ∣ rate c.outPhases k := fun k => hc.gcdOut _ (rate_mem _ hQ k)
  have hmop0 : 0 ≤ mop := dvd_lt_add hc.gcdPos (dvd_zero _) h1 (by have := hc.preload; omega)
  have hτ : 0 ≤ Ω * src.durations.length / src.ni / c.inPhases.sum := by
    have : (0 : ℚ) < c.inPhases.sum := by exact_mod_cast hc.inPos
    have : (0 : ℚ) < src.ni := by exact_mod_cast hni
    positivity
  rw [neverShort_iff (step := c.fineGCD) (mop := mop) f0 v0 fp hW gf gv h1 hc.gcdPos hmop0 h2 h3 he hmt,
    ← pairs_iff (step := c.fineGCD) (mop := mop) hP hQ fp vp gf gv h1 hc.gcdPos hW hR hτ ps pt pd, hc.srcPhases, hc.dstPhases]
  refine forall₂_congr fun m _ => forall₂_congr fun n _ => ?_
  have hg := stepOf_pos hc
  have hgs : c.fineGCD ∣ stepOf c := Int.dvd_coe_gcd (by rw [← fs]; exact cum_dvd gf _) (by rw [← vs]; exact cum_dvd gv _)
  have hst : floorMult (cum (rate c.outPhases) (n + 1) - cum (rate c.inPhases) m - mop - 1) (stepOf c) =
      floorMult (-mop - cum (rate c.inPhases) m + cum (rate c.outPhases) (n + 1) - c.fineGCD) (stepOf c) := by
    rw [floorMult_step hg hc.gcdPos (dvd_sub (dvd_sub (cum_dvd gv _) (cum_dvd gf _)) h1) hgs]
    congr 1; ring
  have hcl : max 0 (rate c.inPhases m - rate c.outPhases n) + cum (rate c.outPhases) (n + 1) - cum (rate c.inPhases) (m + 1) - mop =
      max 0 (rate c.inPhases m - rate c.outPhases n) - mop - cum (rate c.inPhases) (m + 1) + cum (rate c.outPhases) (n + 1) := by ring
  unfold PairOK boundsDefault
  rw [fs, vs, hst, hcl]
  constructor
  · intro h hle
    have := h _ (if_pos hle)
    rw [mul_comm]; exact this
  · intro h α hα
    split at hα
    · rename_i hle
      cases hα
      rw [mul_comm]; exact h hle
    · simp at hα

/-- Room for `F` tokens is enough as soon as, for each pair of phases with positive rates, one inequality holds. -/
theorem room_of_pairs {c : KChannel} {src dst : KTask} {Ω : ℚ} {s t : ℕ → ℚ} (hc : ChannelOK c src dst) (hni : 0 < src.ni)
    (hnj : 0 < dst.ni) (hΩ : 0 ≤ Ω)
    (hs : ∀ k, s (k + src.durations.length) = s k + Ω * src.durations.length / src.ni)
    (ht : ∀ k, t (k + dst.durations.length) = t k + Ω * dst.durations.length / dst.ni)
    (hms : Monotone s) (he : Monotone fun k => t k + dst.dur k) {F : Int} (hF : 0 ≤ F)
    (h : ∀ m < src.durations.length, ∀ n < dst.durations.length, 0 < min (rate c.inPhases m) (rate c.outPhases n) → ∃ β : Int,
      cum (rate c.inPhases) (m + 1) - cum (rate c.outPhases) n - F - stepOf c ≤ β * stepOf c ∧
      t n + dst.dur n + Ω * dst.durations.length / dst.ni / c.outPhases.sum * (β * stepOf c : Int) ≤ s m) :
    NeverShort (rate c.outPhases) (rate c.inPhases) F (fun k => t k + dst.dur k) s := by
  obtain ⟨hP, hQ, f0, v0, fp, vp, fs, vs, ps, pt, pd⟩ := chanPer (revCh_ok hc hF) hnj hni ht hs
  have hτ : 0 ≤ Ω * dst.durations.length / dst.ni / c.outPhases.sum := by
    have : (0 : ℚ) < c.outPhases.sum := by exact_mod_cast hc.outPos
    have : (0 : ℚ) < dst.ni := by exact_mod_cast hnj
    positivity
  dsimp only [revCh] at *
  refine neverShort_of_pairs hP hQ f0 v0 fp vp (by rw [fs]; exact hc.outPos) (by rw [vs]; exact hc.inPos) hτ hF ps pt pd he hms ?_
  rw [fs, vs, Int.gcd_comm]
  intro m hm n hn hpos
  rw [min_comm] at hpos
  exact h n (by rw [hc.srcPhases]; exact hn) m (by rw [hc.dstPhases]; exact hm) hpos

/-- Conversely, room for `F` tokens gives an inequality for every pair of phases. -/
theorem pairs_of_room {c : KChannel} {src dst : KTask} {Ω : ℚ} {s t : ℕ → ℚ} (hc : ChannelOK c src dst) (hni : 0 < src.ni)
    (hnj : 0 < dst.ni)
    (hs : ∀ k, s (k + src.durations.length) = s k + Ω * src.durations.length / src.ni)
    (ht : ∀ k, t (k + dst.durations.length) = t k + Ω * dst.durations.length / dst.ni)
    (hms : Monotone s) (he : Monotone fun k => t k + dst.dur k) {F : Int} (hF : 0 ≤ F)
    (h : NeverShort (rate c.outPhases) (rate c.inPhases) F (fun k => t k + dst.dur k) s) (m n : ℕ) {α : Int} (hα : stepOf c ∣ α)
    (hle : α ≤ cum (rate c.inPhases) (m + 1) - cum (rate c.outPhases) n - F - 1) :
    t n + dst.dur n + Ω * dst.durations.length / dst.ni / c.outPhases.sum * α ≤ s m := by
  obtain ⟨hP, hQ, f0, v0, fp, vp, fs, vs, ps, pt, pd⟩ := chanPer (revCh_ok hc hF) hnj hni ht hs
  dsimp only [revCh] at *
  refine h.pairs f0 he hms fp vp (by rw [fs]; exact hc.outPos) (by rw [vs]; exact hc.inPos) ps pt pd ?_ hle
  rw [fs, vs, Int.gcd_comm]; exact hα

/-! ### The schedule given by the starts of the phases -/

/-- The periodic schedule with period `Ω` and starts `X` of the first execution of each phase. -/
def periodicSched (B : BaseGraph) (X : Int → ℕ → ℚ) (Ω : ℚ) (i : Int) (k : ℕ) : ℚ :=
  match B.find i with
  | some t => X i (k % t.durations.length) + (k / t.durations.length : ℕ) * (Ω * t.durations.length / t.ni)
  | none => 0

theorem periodicSched_eq {B : BaseGraph} (hB : BaseOK B) {t : KTask} (ht : t ∈ B.tasks) (X : Int → ℕ → ℚ) (Ω : ℚ) (k : ℕ) :
    periodicSched B X Ω t.id k = X t.id (k % t.durations.length) + (k / t.durations.length : ℕ) * (Ω * t.durations.length / t.ni) := by
  unfold periodicSched; rw [find_eq hB ht]

theorem periodicSched_first {B : BaseGraph} (hB : BaseOK B) {t : KTask} (ht : t ∈ B.tasks) (X : Int → ℕ → ℚ) (Ω : ℚ) {a : ℕ}
    (ha : a < t.durations.length) : periodicSched B X Ω t.id a = X t.id a := by
  rw [periodicSched_eq hB ht, Nat.mod_eq_of_lt ha, Nat.div_eq_of_lt ha]; simp

theorem periodicSched_periodic {B : BaseGraph} (hB : BaseOK B) (X : Int → ℕ → ℚ) (Ω : ℚ) :
    PeriodicSchedule B (periodicSched B X Ω) Ω := by
  intro t ht k
  rw [periodicSched_eq hB ht, periodicSched_eq hB ht, Nat.add_mod_right, Nat.add_div_right _ (hB.tasks t ht).phases]
  push_cast; ring

theorem periodicSched_noOverlap {B : BaseGraph} (hB : BaseOK B) {t : KTask} (ht : t ∈ B.tasks) {X : Int → ℕ → ℚ} {Ω : ℚ}
    (h1 : ∀ a, a + 1 < t.durations.length → X t.id a + t.dur a ≤ X t.id (a + 1))
    (h2 : X t.id (t.durations.length - 1) + t.dur (t.durations.length - 1) ≤ X t.id 0 + Ω * t.durations.length / t.ni) (k : ℕ) :
    periodicSched B X Ω t.id k + t.dur k ≤ periodicSched B X Ω t.id (k + 1) := by
  have hP := (hB.tasks t ht).phases
  rw [periodicSched_eq hB ht, periodicSched_eq hB ht]
  set P := t.durations.length with hPd
  have hd : t.dur k = t.dur (k % P) := by unfold KTask.dur; rw [← hPd, Nat.mod_mod]
  have hlt := Nat.mod_lt k hP
  rw [hd]
  by_cases h : k % P + 1 < P
  · have e1 : (k + 1) % P = k % P + 1 := by rw [Nat.add_mod, Nat.mod_eq_of_lt (show 1 < P by omega), Nat.mod_eq_of_lt h]
    have e2 : (k + 1) / P = k / P := by
      rw [Nat.add_div hP, if_neg (by rw [Nat.mod_eq_of_lt (show 1 < P by omega)]; omega), Nat.div_eq_of_lt (show 1 < P by omega)]; rfl
    rw [e1, e2]
    have := h1 _ h
    linarith
  · have h' : k % P = P - 1 := by omega
    have e0 : k + 1 = P * (k / P + 1) := by
      have := Nat.div_add_mod k P
      rw [Nat.mul_add]; omega
    have e1 : (k + 1) % P = 0 := by rw [e0]; exact Nat.mul_mod_right _ _
    have e2 : (k + 1) / P = k / P + 1 := by rw [e0]; exact Nat.mul_div_cancel_left _ hP
    rw [e1, e2, h']
    push_cast
    linarith

end Kiter
