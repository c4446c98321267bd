/-
The event constraints of tasks with initial phases: closed forms, and the precedence pairs they enforce.
-/
import Verif.Props.KPeriodic
import Verif.Spec.KPeriodicInit

set_option autoImplicit false

namespace Kiter
open Finset

/-! ### Sequences that are periodic after a prefix -/

section
variable {f v : ℕ → Int} {I J M N : ℕ} {mop step : Int} {s t d : ℕ → ℚ} {τ : ℚ}

/-- Position of `k` in the prefix and the first period after it, and the number of further periods. -/
def foldAt (I M k : ℕ) : ℕ := if k < I then k else I + (k - I) % M
def lapsAt (I M k : ℕ) : ℕ := if k < I then 0 else (k - I) / M

theorem foldAt_lt (hM : 0 < M) (k : ℕ) : foldAt I M k < I + M := by
  unfold foldAt
  split
  · omega
  · have := Nat.mod_lt (k - I) hM; omega

theorem fold_laps (k : ℕ) : foldAt I M k + lapsAt I M k * M = k := by
  unfold foldAt lapsAt
  split
  · simp
  · have := Nat.mod_add_div' (k - I) M; omega

theorem le_fold (k : ℕ) (h : lapsAt I M k ≠ 0) : I ≤ foldAt I M k := by
  unfold foldAt lapsAt at *
  split at h
  · simp at h
  · rename_i hk; rw [if_neg hk]; omega

theorem tail_mul {h : ℕ → ℚ} {μ : ℚ} (hp : ∀ k, I ≤ k → h (k + M) = h k + μ) {k : ℕ} (hk : I ≤ k) (a : ℕ) :
    h (k + a * M) = h k + a * μ := by
  induction a with
  | zero => simp
  | succ c ih => rw [show k + (c + 1) * M = (k + c * M) + M by ring, hp _ (by omega), ih]; push_cast; ring

theorem cum_tail (hp : ∀ k, I ≤ k → f (k + M) = f k) {k : ℕ} (hk : I ≤ k) :
    cum f (k + M) = cum f k + (cum f (I + M) - cum f I) := by
  induction k, hk using Nat.le_induction with
  | base => omega
  | succ n hn ih => rw [show n + 1 + M = (n + M) + 1 by omega, cum_succ, cum_succ, ih, hp n hn]; ring

theorem cum_tail_mul (hp : ∀ k, I ≤ k → f (k + M) = f k) {k : ℕ} (hk : I ≤ k) (a : ℕ) :
    cum f (k + a * M) = cum f k + a * (cum f (I + M) - cum f I) := by
  induction a with
  | zero => simp
  | succ c ih => rw [show k + (c + 1) * M = (k + c * M) + M by ring, cum_tail hp (by omega), ih]; push_cast; ring

theorem f_tail_mul (hp : ∀ k, I ≤ k → f (k + M) = f k) {k : ℕ} (hk : I ≤ k) (a : ℕ) : f (k + a * M) = f k := by
  induction a with
  | zero => simp
  | succ c ih => rw [show k + (c + 1) * M = (k + c * M) + M by ring, hp _ (by omega), ih]

theorem cum_fold (hp : ∀ k, I ≤ k → f (k + M) = f k) (k : ℕ) :
    cum f k = cum f (foldAt I M k) + lapsAt I M k * (cum f (I + M) - cum f I) ∧
    cum f (k + 1) = cum f (foldAt I M k + 1) + lapsAt I M k * (cum f (I + M) - cum f I) ∧ f k = f (foldAt I M k) := by
  by_cases h : lapsAt I M k = 0
  · have e := fold_laps (I := I) (M := M) k
    rw [h] at e ⊢
    simp only [zero_mul, add_zero, Nat.cast_zero] at e ⊢
    rw [e]; exact ⟨rfl, rfl, rfl⟩
  · have h1 := le_fold k h
    have e := fold_laps (I := I) (M := M) k
    generalize foldAt I M k = m at *
    generalize lapsAt I M k = a at *
    subst e
    refine ⟨cum_tail_mul hp h1 a, ?_, f_tail_mul hp h1 a⟩
    rw [show m + a * M + 1 = (m + 1) + a * M by ring]
    exact cum_tail_mul hp (by omega) a

theorem time_fold {h : ℕ → ℚ} {μ : ℚ} (hp : ∀ k, I ≤ k → h (k + M) = h k + μ) (k : ℕ) :
    h k = h (foldAt I M k) + lapsAt I M k * μ := by
  by_cases h0 : lapsAt I M k = 0
  · have e := fold_laps (I := I) (M := M) k
    rw [h0] at e ⊢
    simp only [zero_mul, add_zero, Nat.cast_zero] at e ⊢
    rw [e]
  · have h1 := le_fold k h0
    have e := fold_laps (I := I) (M := M) k
    conv_lhs => rw [← e]
    exact tail_mul hp h1 _

/-- The generated inequalities are sufficient with prefixes too: every enabling execution completes before the enabled one
starts. -/
theorem pairs_sufficient (hM : 0 < M) (hN : 0 < N)
    (hpf : ∀ k, I ≤ k → f (k + M) = f k) (hpv : ∀ k, J ≤ k → v (k + N) = v k)
    (hf : ∀ k, step ∣ f k) (hv : ∀ k, step ∣ v k) (hmop : step ∣ mop) (hs : 0 < step)
    {W R : Int} (hWe : W = cum f (I + M) - cum f I) (hRe : R = cum v (J + N) - cum v J) (hW : 0 < W) (hτ : 0 ≤ τ)
    (hps : ∀ k, I ≤ k → s (k + M) = s k + τ * W) (hpt : ∀ k, J ≤ k → t (k + N) = t k + τ * R)
    (hpd : ∀ k, I ≤ k → d (k + M) = d k)
    (H : ∀ m < I + M, ∀ n < J + N, PairOK f v mop step (Int.gcd W R) τ s t d m n) (k l : ℕ)
    (hE : Enables f v mop k l) : s k + d k ≤ t l := by
  have hg : (0 : Int) < ((Int.gcd W R : ℕ) : Int) := by
    exact_mod_cast Int.gcd_pos_of_ne_zero_left _ hW.ne'
  obtain ⟨f1, f2, f3⟩ := cum_fold hpf k
  obtain ⟨-, v2, v3⟩ := cum_fold hpv l
  rw [← hWe] at f1 f2
  rw [← hRe] at v2
  have hs' := time_fold hps k
  have ht' := time_fold hpt l
  have hd' := time_fold (h := d) (μ := 0) (by simpa using hpd) k
  rw [mul_zero, add_zero] at hd'
  rw [enables_iff hf hv hmop hs, f1, f2, f3, v2, v3] at hE
  have hd : ((Int.gcd W R : ℕ) : Int) ∣ (lapsAt I M k : Int) * W - (lapsAt J N l : Int) * R :=
    dvd_sub (Dvd.dvd.mul_left (Int.gcd_dvd_left ..) _) (Dvd.dvd.mul_left (Int.gcd_dvd_right ..) _)
  have c1 := ceilMult_le hg hd (l := max 0 (f (foldAt I M k) - v (foldAt J N l)) - mop - cum f (foldAt I M k + 1) +
    cum v (foldAt J N l + 1)) (by have := hE.1; linarith)
  have c2 := le_floorMult hg hd (l := -mop - cum f (foldAt I M k) + cum v (foldAt J N l + 1) - step)
    (by have := hE.2; linarith)
  have := H _ (foldAt_lt hM k) _ (foldAt_lt hN l) _ (by unfold boundsDefault; rw [if_pos (le_trans c1 c2)])
  rw [hs', ht', hd']
  have c2' : ((lapsAt I M k : ℚ) * W - (lapsAt J N l : ℚ) * R : ℚ) ≤
      (floorMult (-mop - cum f (foldAt I M k) + cum v (foldAt J N l + 1) - step) (Int.gcd W R) : Int) := by
    exact_mod_cast c2
  have := mul_le_mul_of_nonneg_left c2' hτ
  linarith

end

/-! ### The loops with initial phases -/

/-- The `x`-th pair of the loops. -/
def pairAt (I P x : ℕ) : Int × Int :=
  if x < I then (1, (x : Int) + 1 - I) else ((((x - I) / P : ℕ) : Int) + 1, (((x - I) % P : ℕ) : Int) + 1)

theorem loopPairs_init (I P K : ℕ) (hP : 0 < P) (hK : 0 < K) :
    loopPairs I P K = (List.range (I + K * P)).map (pairAt I P) := by
  obtain ⟨K, rfl⟩ : ∃ K', K = K' + 1 := ⟨K - 1, by omega⟩
  have h0 := loopPairs_eq P (K + 1) hP
  have h1 : loopPairs I P (K + 1) = (List.range I).map (fun (x : ℕ) => ((1 : Int), (x : Int) + 1 - I)) ++ loopPairs 0 P (K + 1) := by
    unfold loopPairs
    rw [List.range_succ_eq_map, List.flatMap_cons, List.flatMap_cons, ← List.append_assoc]
    congr 1
    · simp only [if_true, Nat.zero_add]
      rw [List.range_add, List.map_append, List.map_map]
      congr 1
      exact List.map_congr_left fun x _ => by simp; omega
    · rw [List.flatMap_map, List.flatMap_map]
      rfl
  rw [h1, h0, List.range_add, List.map_append, List.map_map]
  congr 1
  · refine List.map_congr_left fun x hx => ?_
    have hx' : x < I := by simpa using hx
    simp [pairAt, hx']
  · refine List.map_congr_left fun x hx => ?_
    simp [pairAt]

theorem loopPairs_init_get (I P K : ℕ) (hP : 0 < P) (hK : 0 < K) (n : ℕ) (hn : n < (loopPairs I P K).length) :
    (loopPairs I P K)[n] = pairAt I P n := by
  simp only [loopPairs_init I P K hP hK] at hn ⊢
  simp

theorem loopPairs_init_length (I P K : ℕ) (hP : 0 < P) (hK : 0 < K) : (loopPairs I P K).length = I + K * P := by
  rw [loopPairs_init I P K hP hK]; simp

theorem phaseRate_init (init per : List Int) (h : 0 < per.length) (x : ℕ) :
    phaseRate init per (pairAt init.length per.length x).2 = some (rateI init per x) := by
  unfold pairAt rateI
  by_cases hx : x < init.length
  · rw [if_pos hx, if_pos hx]
    unfold phaseRate
    rw [if_pos (by omega)]
    unfold at1
    rw [if_pos (by omega), show ((x : Int) + 1 - init.length + init.length - 1).toNat = x by omega]
    rw [List.getElem?_eq_getElem hx, List.getD_eq_getElem _ _ hx]
  · rw [if_neg hx, if_neg hx]
    have := phaseRate_eq per h (x - init.length)
    unfold phaseRate at this ⊢
    have h0 : ¬ (((x - init.length) % per.length : ℕ) : Int) + 1 ≤ 0 := by omega
    simp only [h0, if_false] at this ⊢
    exact this

theorem phaseDuration_init (t : KTask) (h : 0 < t.durations.length) (x : ℕ) :
    phaseDuration t (pairAt t.initDurations.length t.durations.length x).2 = some (t.durI x) := by
  unfold pairAt KTask.durI
  by_cases hx : x < t.initDurations.length
  · rw [if_pos hx, if_pos hx]
    unfold phaseDuration
    rw [if_pos (by omega)]
    unfold at1
    rw [if_pos (by omega), show ((x : Int) + 1 - t.initDurations.length + t.initDurations.length - 1).toNat = x by omega]
    rw [List.getElem?_eq_getElem hx, List.getD_eq_getElem _ _ hx]
  · rw [if_neg hx, if_neg hx]
    exact phaseDuration_eq t h _

/-- Event of the `x`-th execution. -/
def evAtI (t : KTask) (x : ℕ) : Event := evOf t (pairAt t.initDurations.length t.durations.length x)

theorem channel_spec_init (src dst : KTask) (c : KChannel) (Ki Kj : ℕ) (hc : ChannelOKI c src dst)
    (hKi : 0 < Ki) (hKj : 0 < Kj) (hP : 0 < c.inPhases.length) (hQ : 0 < c.outPhases.length) (hni : src.ni ≠ 0) :
    ∃ mop, c.fineGCD ∣ mop ∧ mop ≤ c.preload ∧ c.preload < mop + c.fineGCD ∧
    ∃ res, channelConstraints src dst c Ki Kj = some res ∧
      ∀ e, e ∈ res ↔ ∃ m, m < c.inInit.length + Ki * c.inPhases.length ∧ ∃ n, n < c.outInit.length + Kj * c.outPhases.length ∧ ∃ α,
        boundsDefault (max 0 (rateI c.inInit c.inPhases m - rateI c.outInit c.outPhases n) - mop -
            cum (rateI c.inInit c.inPhases) (m + 1) + cum (rateI c.outInit c.outPhases) (n + 1))
          (-mop - cum (rateI c.inInit c.inPhases) m + cum (rateI c.outInit c.outPhases) (n + 1) - c.fineGCD)
          (Int.gcd (c.inPhases.sum * Ki) (c.outPhases.sum * Kj)) = some α ∧
        e = { src := evAtI src m, dst := evAtI dst n,
              w := -(((α : ℚ) * ((c.inPhases.length : ℚ) * Ki)) / (((c.inPhases.sum * Ki : Int) : ℚ) * src.ni)),
              d := src.durI m, channel := c.id } := by
  obtain ⟨mop, hm, h1, h2, h3⟩ := cFloor_spec c.preload c.fineGCD hc.gcdPos hc.preload
  refine ⟨mop, h1, h2, h3, ?_⟩
  have hwc : c.inPhases.sum * (Ki : Int) ≠ 0 := by
    have : (Ki : Int) ≠ 0 := by exact_mod_cast hKi.ne'
    exact mul_ne_zero hc.inPos.ne' this
  have hg : ((Int.gcd (c.inPhases.sum * Ki) (c.outPhases.sum * Kj) : ℕ) : Int) ≠ 0 := by
    exact_mod_cast (Int.gcd_pos_of_ne_zero_left _ hwc).ne'
  unfold channelConstraints
  rw [hm]
  simp only [Option.bind_eq_bind, Option.bind_some]
  have hcond : ¬ (((Int.gcd (c.inPhases.sum * Ki) (c.outPhases.sum * Kj) : ℕ) : Int) = 0 ∨
      c.inPhases.sum * (Ki : Int) * src.ni = 0) := by
    rintro (h | h)
    · exact hg h
    · exact mul_ne_zero hwc hni h
  rw [if_neg hcond]
  set x : KCtx :=
      { src := src, dst := dst, ch := c, mop := mop, wc := c.inPhases.sum * Ki,
        gcdz := ((Int.gcd (c.inPhases.sum * Ki) (c.outPhases.sum * Kj) : ℕ) : Int),
        kiPhases := (c.inPhases.length : ℚ) * Ki, den := ((c.inPhases.sum * Ki : Int) : ℚ) * src.ni }
  have htl := loopPairs_init_get c.outInit.length c.outPhases.length Kj hQ hKj
  have hsl := loopPairs_init_get c.inInit.length c.inPhases.length Ki hP hKi
  obtain ⟨res, hres, hmem⟩ := outerLoop_spec x (loopPairs c.outInit.length c.outPhases.length Kj)
    (loopPairs c.inInit.length c.inPhases.length Ki) (rateI c.inInit c.inPhases) (rateI c.outInit c.outPhases) src.durI 0
    (fun n hn => by rw [htl n hn]; exact phaseRate_init _ _ hQ n)
    (fun n hn => by rw [hsl n hn]; exact phaseRate_init _ _ hP n)
    (fun n hn => by
      rw [hsl n hn]
      have := phaseDuration_init src (by rw [hc.srcPhases]; exact hP) n
      rw [hc.srcPhases, hc.srcInit] at this; exact this)
  refine ⟨res, hres, fun e => ?_⟩
  rw [hmem]
  have ls := loopPairs_init_length c.inInit.length c.inPhases.length Ki hP hKi
  have lt := loopPairs_init_length c.outInit.length c.outPhases.length Kj hQ hKj
  have hes : ∀ m, evAtI src m = evOf src (pairAt c.inInit.length c.inPhases.length m) := by
    intro m; unfold evAtI; rw [hc.srcPhases, hc.srcInit]
  have het : ∀ m, evAtI dst m = evOf dst (pairAt c.outInit.length c.outPhases.length m) := by
    intro m; unfold evAtI; rw [hc.dstPhases, hc.dstInit]
  constructor
  · rintro ⟨m, hm, n, hn, α, hb, rfl⟩
    refine ⟨m, by omega, n, by omega, α, ?_, ?_⟩
    · simpa only [zero_add] using hb
    · rw [hsl, htl, hes, het]; rfl
  · rintro ⟨m, hm, n, hn, α, hb, rfl⟩
    refine ⟨m, by omega, n, by omega, α, ?_, ?_⟩
    · simpa only [zero_add] using hb
    · rw [hsl, htl, hes, het]; rfl

end Kiter
