/-
C15, C16 and C18 for tasks with initial phases.
-/
import Verif.Lemmas.KPeriodicInit

set_option autoImplicit false

namespace Kiter
open Finset

section
variable {S : Event → ℚ} {Ω : ℚ} {t : KTask} {K : ℕ}

theorem execStartI_tail (hP : 0 < t.durations.length) (hK : 0 < K) {k : ℕ} (hk : t.initDurations.length ≤ k) :
    execStartI S Ω t K (k + K * t.durations.length) =
      execStartI S Ω t K k + Ω * (t.durations.length * K) / t.ni := by
  unfold execStartI
  rw [if_neg (by omega), if_neg (by omega),
    show k + K * t.durations.length - t.initDurations.length = k - t.initDurations.length + K * t.durations.length by omega]
  exact execStart_period hP hK _

theorem execStartI_first {x : ℕ} (hx : x < t.initDurations.length + K * t.durations.length) :
    execStartI S Ω t K x = S (evAtI t x) := by
  unfold execStartI evAtI pairAt evOf
  by_cases h : x < t.initDurations.length
  · rw [if_pos h, if_pos h]
  · rw [if_neg h, if_neg h, execStart_first (by omega)]
    rfl

theorem durI_tail {k : ℕ} (hk : t.initDurations.length ≤ k) : t.durI (k + K * t.durations.length) = t.durI k := by
  unfold KTask.durI
  rw [if_neg (by omega), if_neg (by omega),
    show k + K * t.durations.length - t.initDurations.length = k - t.initDurations.length + K * t.durations.length by omega]
  exact dur_period _

theorem durI_nonneg (ht : TaskOKI t K) (k : ℕ) : 0 ≤ t.durI k := by
  unfold KTask.durI
  split
  · rename_i h
    rw [List.getD_eq_getElem _ _ h]
    exact ht.initNonneg _ (List.getElem_mem _)
  · exact dur_nonneg ht.phases ht.durNonneg _

theorem tail_induction {I M : ℕ} (hM : 0 < M) {p : ℕ → Prop} (h0 : ∀ x < I + M, p x) (h1 : ∀ k, I ≤ k → p k → p (k + M))
    (k : ℕ) : p k := by
  induction k using Nat.strong_induction_on with
  | _ k ih =>
    by_cases h : k < I + M
    · exact h0 k h
    · have := h1 (k - M) (by omega) (ih _ (by omega))
      rwa [Nat.sub_add_cancel (by omega)] at this

/-- The duration which the self-loop constraints give to the `k`-th execution: that of the first periodic phase for the very
first execution (kperiodic.cpp:641). -/
def chainDur (t : KTask) (k : ℕ) : ℚ := if k = 0 then t.dur 0 else t.durI k

theorem selfLoop_spec_init (ht : TaskOKI t K) :
    ∃ res, selfLoopConstraints t K = some res ∧
      ∀ c, c ∈ res ↔
        (∃ x, x + 1 < t.initDurations.length + K * t.durations.length ∧
          c = { src := evAtI t x, dst := evAtI t (x + 1), w := 0, d := chainDur t x, channel := 0 })
        ∨ c = { src := evAtI t (t.initDurations.length + K * t.durations.length - 1), dst := evAtI t t.initDurations.length,
                w := ((t.durations.length : ℚ) * K) / t.ni, d := t.dur (K * t.durations.length - 1),
                channel := 0 } := by
  set P := t.durations.length with hPdef
  set I := t.initDurations.length with hIdef
  have hP : 0 < P := ht.phases
  have hK := ht.k
  have hKP : 0 < K * P := Nat.mul_pos hK hP
  have hr : ¬ t.reentrancy ≤ 0 := by have := ht.reentrancy; omega
  have hl := loopPairs_init I P K hP hK
  obtain ⟨M, hM⟩ : ∃ M, I + K * P = M + 1 := ⟨I + K * P - 1, by omega⟩
  have hcons : loopPairs I P K = pairAt I P 0 :: (List.range M).map (fun x => pairAt I P (x + 1)) := by
    rw [hl, hM, List.range_succ_eq_map, List.map_cons, List.map_map]; rfl
  have hev : ∀ x, evOf t (pairAt I P x) = evAtI t x := fun x => rfl
  have hget : ∀ n (hn : n < (pairAt I P 0 :: (List.range M).map (fun x => pairAt I P (x + 1))).length),
      (pairAt I P 0 :: (List.range M).map (fun x => pairAt I P (x + 1)))[n] = pairAt I P n := by
    intro n hn
    cases n with
    | zero => rfl
    | succ n => simp
  have hd1 : phaseDuration t 1 = some (t.dur 0) := by
    have := phaseDuration_eq t hP 0
    simpa using this
  have e1 : (K * P - 1) % P = P - 1 := by
    obtain ⟨K', rfl⟩ : ∃ K', K = K' + 1 := ⟨K - 1, by omega⟩
    rw [show (K' + 1) * P - 1 = P - 1 + K' * P by rw [Nat.add_mul]; omega,
      Nat.add_mul_mod_self_right, Nat.mod_eq_of_lt (by omega)]
  have e2 : (K * P - 1) / P = K - 1 := by
    obtain ⟨K', rfl⟩ : ∃ K', K = K' + 1 := ⟨K - 1, by omega⟩
    rw [show (K' + 1) * P - 1 = P - 1 + K' * P by rw [Nat.add_mul]; omega,
      Nat.add_mul_div_right _ _ hP, Nat.div_eq_of_lt (by omega)]; omega
  have hdP : phaseDuration t (P : Int) = some (t.dur (K * P - 1)) := by
    have := phaseDuration_eq t hP (K * P - 1)
    rw [← hPdef, e1] at this
    rw [← this]; congr 1; omega
  obtain ⟨res, hres, hmem⟩ := chainLoop_spec t (if t.reentrancy ≤ 0 then 0 else 1)
    ((List.range M).map (fun x => pairAt I P (x + 1))) (pairAt I P 0) (chainDur t) (fun n hn => by
      simp only [List.getElem_map, List.getElem_range]
      unfold chainDur
      rw [if_neg (by omega)]
      exact phaseDuration_init t hP (n + 1))
  have e00 : chainDur t 0 = t.dur 0 := if_pos rfl
  rw [e00] at hres
  have hmem' : ∀ c, c ∈ res ↔ ∃ x, x + 1 < I + K * P ∧
      c = { src := evAtI t x, dst := evAtI t (x + 1), w := 0, d := chainDur t x, channel := 0 } := by
    intro c
    rw [hmem]
    constructor
    · rintro ⟨n, hn, rfl⟩
      refine ⟨n, by simp at hn; omega, ?_⟩
      rw [hget, hget, hev, hev, if_neg hr, one_mul]
    · rintro ⟨n, hn, rfl⟩
      have hn' : n + 1 < (pairAt I P 0 :: (List.range M).map (fun x => pairAt I P (x + 1))).length := by simp; omega
      refine ⟨n, hn', ?_⟩
      rw [hget, hget, hev, hev, if_neg hr, one_mul]
  unfold selfLoopConstraints
  rw [hd1]
  simp only [Option.bind_eq_bind, Option.bind_some, ← hPdef, ← hIdef, hcons]
  have e0 : (⟨t.id, (pairAt I P 0).2, (pairAt I P 0).1⟩ : Event) = evOf t (pairAt I P 0) := rfl
  rw [e0, hres]
  simp only [Option.bind_some]
  rw [if_pos (show t.reentrancy > 0 from ht.reentrancy), if_neg ht.ni.ne', hdP]
  refine ⟨_, rfl, fun c => ?_⟩
  rw [List.mem_append, hmem']
  have ea : evAtI t (I + K * P - 1) = ⟨t.id, P, K⟩ := by
    unfold evAtI pairAt evOf
    rw [← hPdef, ← hIdef, if_neg (by omega), show I + K * P - 1 - I = K * P - 1 by omega, e1, e2]
    congr 1 <;> omega
  have eb : evAtI t I = ⟨t.id, 1, 1⟩ := by
    unfold evAtI pairAt evOf
    rw [← hPdef, ← hIdef, if_neg (by omega)]; simp
  rw [ea, eb]
  simp [hr]

/-- **C18 with initial phases** The self-loop constraints say that every execution but the first completes before the next
one starts, and that the first one leaves room for the *first periodic phase*. -/
theorem C18_init_iff (ht : TaskOKI t K) :
    ∃ cs, selfLoopConstraints t K = some cs ∧ ((∀ c ∈ cs, Satisfies S Ω c) ↔
      execStartI S Ω t K 0 + t.dur 0 ≤ execStartI S Ω t K 1 ∧
      ∀ k, 1 ≤ k → execEndI S Ω t K k ≤ execStartI S Ω t K (k + 1)) := by
  obtain ⟨cs, hcs, hmem⟩ := selfLoop_spec_init ht
  refine ⟨cs, hcs, ?_⟩
  have hKP : 0 < K * t.durations.length := Nat.mul_pos ht.k ht.phases
  have hlast : chainDur t (t.initDurations.length + K * t.durations.length - 1) = t.dur (K * t.durations.length - 1) := by
    unfold chainDur
    split
    · rw [show K * t.durations.length - 1 = 0 by omega]
    · unfold KTask.durI
      rw [if_neg (by omega)]
      congr 1; omega
  have e1 : (∀ c ∈ cs, Satisfies S Ω c) ↔ ∀ k, execStartI S Ω t K k + chainDur t k ≤ execStartI S Ω t K (k + 1) := by
    constructor
    · intro H
      refine tail_induction (I := t.initDurations.length) hKP (fun x hx => ?_) fun k hk h => ?_
      · rw [execStartI_first hx]
        by_cases hx1 : x + 1 < t.initDurations.length + K * t.durations.length
        · rw [execStartI_first hx1]
          have := H _ ((hmem _).mpr (Or.inl ⟨x, hx1, rfl⟩))
          unfold Satisfies at this
          simp only at this
          linarith
        · have e : x = t.initDurations.length + K * t.durations.length - 1 := by omega
          have := H _ ((hmem _).mpr (Or.inr rfl))
          unfold Satisfies at this
          simp only at this
          rw [show x + 1 = t.initDurations.length + K * t.durations.length by omega, execStartI_tail ht.phases ht.k le_rfl,
            execStartI_first (by omega), e, hlast, mul_div_assoc]
          linarith
      · rw [show k + K * t.durations.length + 1 = (k + 1) + K * t.durations.length by ring, execStartI_tail ht.phases ht.k hk,
          execStartI_tail ht.phases ht.k (by omega)]
        have : chainDur t (k + K * t.durations.length) = chainDur t k := by
          unfold chainDur
          rw [if_neg (by omega), durI_tail hk]
          split
          · rename_i h0
            subst h0
            unfold KTask.durI
            rw [if_neg (by omega), Nat.zero_sub]
          · rfl
        rw [this]
        linarith
    · intro H c hc
      rcases (hmem c).mp hc with ⟨x, hx, rfl⟩ | rfl
      · have := H x
        rw [execStartI_first hx, execStartI_first (by omega)] at this
        unfold Satisfies
        simp only
        linarith
      · have := H (t.initDurations.length + K * t.durations.length - 1)
        rw [show t.initDurations.length + K * t.durations.length - 1 + 1 = t.initDurations.length + K * t.durations.length by omega,
          execStartI_tail ht.phases ht.k le_rfl, execStartI_first (by omega), execStartI_first (by omega), hlast,
          mul_div_assoc] at this
        unfold Satisfies
        simp only
        linarith
  rw [e1]
  unfold execEndI
  constructor
  · intro H
    refine ⟨by simpa [chainDur] using H 0, fun k hk => ?_⟩
    have := H k
    rwa [chainDur, if_neg (by omega)] at this
  · rintro ⟨h0, h1⟩ k
    rcases Nat.eq_zero_or_pos k with rfl | hk
    · simpa [chainDur] using h0
    · rw [chainDur, if_neg (by omega)]
      exact h1 k hk

theorem noOverlapI_start_mono (ht : TaskOKI t K) (h : NoOverlapI S Ω t K) : Monotone (execStartI S Ω t K) := by
  refine monotone_nat_of_le_succ fun k => ?_
  have := h k
  have := durI_nonneg ht k
  unfold execEndI at *
  linarith

theorem noOverlapI_end_mono (ht : TaskOKI t K) (h : NoOverlapI S Ω t K) : Monotone (execEndI S Ω t K) := by
  refine monotone_nat_of_le_succ fun k => ?_
  have := h k
  have := durI_nonneg ht (k + 1)
  unfold execEndI at *
  linarith

end

theorem rateI_tail (init per : List Int) (K : ℕ) {k : ℕ} (hk : init.length ≤ k) :
    rateI init per (k + K * per.length) = rateI init per k := by
  unfold rateI
  rw [if_neg (by omega), if_neg (by omega), show k + K * per.length - init.length = k - init.length + K * per.length by omega,
    rate_periodic]

theorem rateI_mem (init per : List Int) (h : 0 < per.length) (k : ℕ) : rateI init per k ∈ init ∨ rateI init per k ∈ per := by
  unfold rateI
  split
  · rename_i hk; rw [List.getD_eq_getElem _ _ hk]; exact .inl (List.getElem_mem _)
  · exact .inr (rate_mem _ h _)

theorem cum_rateI (init per : List Int) (K : ℕ) :
    cum (rateI init per) (init.length + K * per.length) - cum (rateI init per) init.length = per.sum * K := by
  have : ∀ m, cum (rateI init per) (init.length + m) - cum (rateI init per) init.length = cum (rate per) m := by
    intro m
    induction m with
    | zero => simp
    | succ m ih =>
      rw [← Nat.add_assoc, cum_succ, cum_succ, ← ih]
      unfold rateI
      rw [if_neg (by omega), Nat.add_sub_cancel_left]
      ring
  rw [this, cum_rate]

/-- **C15 with initial phases, one channel** The constraints are sufficient, provided that the executions run in order and
that the granularity of the channel divides its initial rates too. -/
theorem C15_init_channel_partial (S : Event → ℚ) (Ω : ℚ) (hΩ : 0 ≤ Ω) (c : KChannel) (src dst : KTask) (Ki Kj : ℕ)
    (hc : ChannelOKI c src dst) (hgi : ∀ r ∈ c.inInit, c.fineGCD ∣ r) (hgo : ∀ r ∈ c.outInit, c.fineGCD ∣ r)
    (hKi : 0 < Ki) (hKj : 0 < Kj) (hni : 0 < src.ni) (hnj : 0 < dst.ni)
    (hend : Monotone (execEndI S Ω src Ki)) (hstart : Monotone (execStartI S Ω dst Kj)) :
    ∃ cs, channelConstraints src dst c Ki Kj = some cs ∧
      ((∀ e ∈ cs, Satisfies S Ω e) → ChannelSafeI S Ω c (src, Ki) (dst, Kj)) := by
  have hP : 0 < c.inPhases.length := by
    rcases Nat.eq_zero_or_pos c.inPhases.length with h | h
    · have := hc.inPos; rw [List.length_eq_zero_iff.mp h] at this; simp at this
    · exact h
  have hQ : 0 < c.outPhases.length := by
    rcases Nat.eq_zero_or_pos c.outPhases.length with h | h
    · have := hc.outPos; rw [List.length_eq_zero_iff.mp h] at this; simp at this
    · exact h
  obtain ⟨mop, hm1, hm2, hm3, cs, hcs, hmem⟩ := channel_spec_init src dst c Ki Kj hc hKi hKj hP hQ hni.ne'
  refine ⟨cs, hcs, fun H => ?_⟩
  set f := rateI c.inInit c.inPhases with hf
  set v := rateI c.outInit c.outPhases with hv
  have hWe : c.inPhases.sum * Ki = cum f (c.inInit.length + Ki * c.inPhases.length) - cum f c.inInit.length :=
    (cum_rateI _ _ _).symm
  have hRe : c.outPhases.sum * Kj = cum v (c.outInit.length + Kj * c.outPhases.length) - cum v c.outInit.length :=
    (cum_rateI _ _ _).symm
  have hKi' : (0 : Int) < Ki := by exact_mod_cast hKi
  have hW : 0 < c.inPhases.sum * (Ki : Int) := mul_pos hc.inPos hKi'
  have hmop0 : 0 ≤ mop := by
    have h0 : (c.fineGCD : Int) ∣ 0 := dvd_zero _
    have := hc.preload
    exact dvd_lt_add hc.gcdPos h0 hm1 (by omega)
  set τ : ℚ := Ω * c.inPhases.length / (c.inPhases.sum * src.ni) with hτdef
  have qin : (0 : ℚ) < c.inPhases.sum := by exact_mod_cast hc.inPos
  have qout : (0 : ℚ) < c.outPhases.sum := by exact_mod_cast hc.outPos
  have qni : (0 : ℚ) < src.ni := by exact_mod_cast hni
  have qnj : (0 : ℚ) < dst.ni := by exact_mod_cast hnj
  have qKi : (0 : ℚ) < Ki := by exact_mod_cast hKi
  have qKj : (0 : ℚ) < Kj := by exact_mod_cast hKj
  have hτ : 0 ≤ τ := by rw [hτdef]; positivity
  have hbal : (c.inPhases.sum : ℚ) * src.ni * c.outPhases.length = c.outPhases.sum * dst.ni * c.inPhases.length := by
    have := hc.balance
    rw [hc.srcPhases, hc.dstPhases] at this
    exact_mod_cast this
  have hps : ∀ k, c.inInit.length ≤ k → execStartI S Ω src Ki (k + Ki * c.inPhases.length)
      = execStartI S Ω src Ki k + τ * (c.inPhases.sum * Ki : Int) := by
    intro k hk
    have := execStartI_tail (S := S) (Ω := Ω) (t := src) (K := Ki) (k := k) (by rw [hc.srcPhases]; exact hP) hKi
      (by rw [hc.srcInit]; exact hk)
    rw [hc.srcPhases] at this
    rw [this, hτdef, Int.cast_mul, Int.cast_natCast]
    field_simp
  have hpt : ∀ k, c.outInit.length ≤ k → execStartI S Ω dst Kj (k + Kj * c.outPhases.length)
      = execStartI S Ω dst Kj k + τ * (c.outPhases.sum * Kj : Int) := by
    intro k hk
    have := execStartI_tail (S := S) (Ω := Ω) (t := dst) (K := Kj) (k := k) (by rw [hc.dstPhases]; exact hQ) hKj
      (by rw [hc.dstInit]; exact hk)
    rw [hc.dstPhases] at this
    rw [this, hτdef, Int.cast_mul, Int.cast_natCast]
    congr 1
    rw [div_mul_eq_mul_div, div_eq_div_iff qnj.ne' (by positivity)]
    linear_combination Ω * Kj * hbal
  have hpd : ∀ k, c.inInit.length ≤ k → src.durI (k + Ki * c.inPhases.length) = src.durI k := by
    intro k hk; rw [← hc.srcPhases]; exact durI_tail (by rw [hc.srcInit]; exact hk)
  have hfd : ∀ k, c.fineGCD ∣ f k := fun k => (rateI_mem _ _ hP k).elim (hgi _) (hc.gcdIn _)
  have hvd : ∀ k, c.fineGCD ∣ v k := fun k => (rateI_mem _ _ hQ k).elim (hgo _) (hc.gcdOut _)
  have hf0 : ∀ k, 0 ≤ f k := fun k => (rateI_mem _ _ hP k).elim (hc.inInitNonneg _) (hc.inNonneg _)
  have hv0 : ∀ k, 0 ≤ v k := fun k => (rateI_mem _ _ hQ k).elim (hc.outInitNonneg _) (hc.outNonneg _)
  have hpf : ∀ k, c.inInit.length ≤ k → f (k + Ki * c.inPhases.length) = f k := fun k hk => rateI_tail _ _ _ hk
  unfold ChannelSafeI
  refine (neverShort_iff' (mop := mop) (step := c.fineGCD) hf0 hv0 ?_ hfd hvd hm1 hc.gcdPos hmop0 hm2 hm3 hend hstart).2
    fun k l hE => ?_
  · intro B
    refine ⟨c.inInit.length + B.toNat * (Ki * c.inPhases.length), ?_⟩
    rw [cum_tail_mul hpf le_rfl, ← hWe]
    have h1 : (B.toNat : Int) ≤ B.toNat * (c.inPhases.sum * Ki) := le_mul_of_one_le_right (by positivity) hW
    have h2 := Int.self_le_toNat B
    have h3 := cum_nonneg hf0 c.inInit.length
    linarith
  · refine pairs_sufficient (f := f) (v := v) (s := execStartI S Ω src Ki) (t := execStartI S Ω dst Kj) (d := src.durI)
      (mop := mop) (step := c.fineGCD) (τ := τ) (Nat.mul_pos hKi hP) (Nat.mul_pos hKj hQ) hpf
      (fun k hk => rateI_tail _ _ _ hk) hfd hvd hm1 hc.gcdPos hWe hRe hW hτ hps hpt hpd ?_ k l hE
    intro m hm n hn α hα
    have := H _ ((hmem _).mpr ⟨m, hm, n, hn, α, hα, rfl⟩)
    have ew : -(Ω * -((α : ℚ) * ((c.inPhases.length : ℚ) * Ki) / (((c.inPhases.sum * Ki : Int) : ℚ) * src.ni)))
        = τ * α := by
      rw [hτdef, Int.cast_mul, Int.cast_natCast]; field_simp
    unfold Satisfies at this
    simp only at this
    rw [← execStartI_first (S := S) (t := src) (x := m) (Ω := Ω) (K := Ki) (by rw [hc.srcInit, hc.srcPhases]; exact hm),
      ← execStartI_first (S := S) (t := dst) (x := n) (Ω := Ω) (K := Kj) (by rw [hc.dstInit, hc.dstPhases]; exact hn), sub_eq_add_neg, ew] at this
    exact this

/-- **C15 with initial phases, whole graph** For every graph in which the first initial phase of a task is not longer than
its first periodic phase and the granularity of every channel divides its initial rates, starting times which satisfy all
generated constraints define a valid schedule. Both conditions are needed: see the counterexamples below. -/
theorem C15_init_graph_partial {g : KGraph} (hg : GraphOKI g) (hfirst : ∀ tk ∈ g.tasks, tk.1.durI 0 ≤ tk.1.dur 0)
    (hgcd : ∀ c ∈ g.channels, (∀ r ∈ c.1.inInit, c.1.fineGCD ∣ r) ∧ ∀ r ∈ c.1.outInit, c.1.fineGCD ∣ r)
    (S : Event → ℚ) {Ω : ℚ} (hΩ : 0 ≤ Ω) :
    ∃ cs, eventGraph g = some cs ∧ ((∀ c ∈ cs, Satisfies S Ω c) → ValidScheduleI g S Ω) := by
  obtain ⟨a, ha, ea⟩ := collect_spec (fun tk => selfLoopConstraints tk.1 tk.2) (Satisfies S Ω)
    (fun tk => execStartI S Ω tk.1 tk.2 0 + tk.1.dur 0 ≤ execStartI S Ω tk.1 tk.2 1 ∧
      ∀ k, 1 ≤ k → execEndI S Ω tk.1 tk.2 k ≤ execStartI S Ω tk.1 tk.2 (k + 1)) g.tasks
    (fun tk htk => C18_init_iff (hg.tasks tk htk))
  have hpos : ∀ c ∈ g.channels, 0 < c.1.inPhases.length ∧ 0 < c.1.outPhases.length := fun c hc => by
    obtain ⟨h1, h2, h3⟩ := hg.channels c hc
    exact ⟨by rw [← h3.srcPhases]; exact (hg.tasks _ h1).phases, by rw [← h3.dstPhases]; exact (hg.tasks _ h2).phases⟩
  obtain ⟨b, hb, -⟩ := collect_spec (fun c => channelConstraints c.2.1.1 c.2.2.1 c.1 c.2.1.2 c.2.2.2)
    (fun _ => True) (fun _ => True) g.channels
    (fun c hc => by
      obtain ⟨h1, h2, h3⟩ := hg.channels c hc
      obtain ⟨hP, hQ⟩ := hpos c hc
      obtain ⟨_, _, _, _, cs, hcs, -⟩ := channel_spec_init c.2.1.1 c.2.2.1 c.1 c.2.1.2 c.2.2.2 h3
        (hg.tasks _ h1).k (hg.tasks _ h2).k hP hQ (hg.tasks _ h1).ni.ne'
      exact ⟨cs, hcs, by simp⟩)
  refine ⟨a ++ b, by unfold eventGraph; simp only [ha, hb, Option.bind_eq_bind, Option.bind_some]; rfl, fun H => ?_⟩
  have hNO : ∀ tk ∈ g.tasks, NoOverlapI S Ω tk.1 tk.2 := by
    intro tk htk k
    obtain ⟨h0, h1⟩ := ea.1 (fun c hc => H c (List.mem_append_left _ hc)) tk htk
    rcases Nat.eq_zero_or_pos k with rfl | hk
    · have := hfirst tk htk
      unfold execEndI
      linarith
    · exact h1 k hk
  refine ⟨hNO, fun c hc => ?_⟩
  obtain ⟨h1, h2, h3⟩ := hg.channels c hc
  have t1 := hg.tasks _ h1
  have t2 := hg.tasks _ h2
  obtain ⟨cs, hcs, hsafe⟩ := C15_init_channel_partial S Ω hΩ c.1 c.2.1.1 c.2.2.1 c.2.1.2 c.2.2.2 h3 (hgcd c hc).1 (hgcd c hc).2
    t1.k t2.k t1.ni t2.ni (noOverlapI_end_mono t1 (hNO _ h1)) (noOverlapI_start_mono t2 (hNO _ h2))
  refine hsafe fun e he => H e (List.mem_append_right _ ?_)
  have : ∀ (l : List (KChannel × (KTask × ℕ) × (KTask × ℕ))) (b : List EvConstraint),
      collect (fun c => channelConstraints c.2.1.1 c.2.2.1 c.1 c.2.1.2 c.2.2.2) l = some b → c ∈ l → e ∈ b := by
    intro l
    induction l with
    | nil => intro b _ h; simp at h
    | cons x l ih =>
      intro b hb hx
      unfold collect at hb
      simp only [Option.bind_eq_bind] at hb
      obtain ⟨y, hy, hb⟩ := Option.bind_eq_some_iff.1 hb
      obtain ⟨z, hz, hb⟩ := Option.bind_eq_some_iff.1 hb
      cases hb
      rcases List.mem_cons.1 hx with rfl | hx
      · rw [hcs] at hy; cases hy; exact List.mem_append_left _ he
      · exact List.mem_append_right _ (ih z hz hx)
  exact this _ b hb hc

/-! ### Examples and counterexamples -/

namespace InitPhases

/-- Producer with an initial phase of duration `d0`, followed by phases of duration 1. -/
def producer (d0 : ℚ) (durations : List ℚ) (ni : Int) : KTask := ⟨1, durations, [d0], 1, ni⟩
def consumer (ni : Int) : KTask := ⟨2, [1], [], 1, ni⟩

/-- One channel from the producer to the consumer, `K = 1`. -/
def graph (p q : KTask) (c : KChannel) : KGraph := ⟨[(p, 1), (q, 1)], [(c, (p, 1), (q, 1))]⟩

/-- Initial rate 2, then 2 and 2, consumption 4: the granularity is 2. -/
def even : KChannel := ⟨7, [2, 2], [4], [2], [], 0, 2⟩

/-- Start times: producer at 0, 1 and 2, consumer at `x`. -/
def starts (x : ℚ) (e : Event) : ℚ := if e.task = 2 then x else if e.phase ≤ 0 then 0 else e.phase

theorem graph_ok {d0 : ℚ} {ds : List ℚ} {n m : Int} {c : KChannel} (h0 : 0 ≤ d0) (hd : ∀ d ∈ ds, 0 ≤ d) (hp : 0 < ds.length)
    (hn : 0 < n) (hm : 0 < m) (hc : ChannelOKI c (producer d0 ds n) (consumer m)) :
    GraphOKI (graph (producer d0 ds n) (consumer m) c) := by
  constructor
  · intro tk htk
    simp only [graph, List.mem_cons, List.not_mem_nil, or_false] at htk
    rcases htk with rfl | rfl
    · exact ⟨hp, hd, by simpa [producer] using h0, Int.zero_lt_one, hn, Nat.zero_lt_one⟩
    · exact ⟨Nat.zero_lt_one, by simp [consumer], by simp [consumer], Int.zero_lt_one, hm, Nat.zero_lt_one⟩
  · intro x hx
    simp only [graph, List.mem_cons, List.not_mem_nil, or_false] at hx
    subst hx
    exact ⟨by simp [graph], by simp [graph], hc⟩

theorem even_ok (d0 : ℚ) : ChannelOKI even (producer d0 [1, 1] 2) (consumer 1) := by
  constructor <;> simp [even, producer, consumer]

/-- A case of `C15_init_graph_partial`: the first initial phase lasts 1, the hypotheses hold, and starting times with the
consumer at 3 satisfy all constraints for period 10. -/
example : GraphOKI (graph (producer 1 [1, 1] 2) (consumer 1) even) ∧
    (∀ tk ∈ (graph (producer 1 [1, 1] 2) (consumer 1) even).tasks, tk.1.durI 0 ≤ tk.1.dur 0) ∧
    (∀ c ∈ (graph (producer 1 [1, 1] 2) (consumer 1) even).channels,
      (∀ r ∈ c.1.inInit, c.1.fineGCD ∣ r) ∧ ∀ r ∈ c.1.outInit, c.1.fineGCD ∣ r) ∧
    ∃ cs, eventGraph (graph (producer 1 [1, 1] 2) (consumer 1) even) = some cs ∧ 5 ≤ cs.length ∧
      ∀ c ∈ cs, Satisfies (starts 3) 10 c := by
  refine ⟨graph_ok (by norm_num) (by simp) (by decide) (by decide) (by decide) (even_ok 1), by decide +kernel,
    by simp [graph, even], ?_⟩
  unfold Satisfies
  exact ⟨(eventGraph (graph (producer 1 [1, 1] 2) (consumer 1) even)).getD [], by decide +kernel, by decide +kernel,
    by decide +kernel⟩

/-- **C15** fails with an initial phase that is longer than the first periodic phase: here the initial phase lasts 10, all
constraints hold with period 100, but the consumer takes 4 tokens at time 2 while the initial phase is still running and only
the first periodic phase has produced 2 tokens. -/
theorem _root_.Kiter.C15_init_duration_counterexample : ∃ (g : KGraph) (S : Event → ℚ) (cs : List EvConstraint), GraphOKI g ∧
    (∀ c ∈ g.channels, (∀ r ∈ c.1.inInit, c.1.fineGCD ∣ r) ∧ ∀ r ∈ c.1.outInit, c.1.fineGCD ∣ r) ∧
    eventGraph g = some cs ∧ (∀ c ∈ cs, Satisfies S 100 c) ∧
    (∃ tk ∈ g.tasks, ¬ NoOverlapI S 100 tk.1 tk.2) ∧ ∃ c ∈ g.channels, ¬ ChannelSafeI S 100 c.1 c.2.1 c.2.2 := by
  refine ⟨graph (producer 10 [1, 1] 2) (consumer 1) even, starts 2,
    (eventGraph (graph (producer 10 [1, 1] 2) (consumer 1) even)).getD [],
    graph_ok (by norm_num) (by simp) (by decide) (by decide) (by decide) (even_ok 10), by simp [graph, even],
    by decide +kernel, ?_,
    ⟨_, List.mem_cons_self, fun h => ?_⟩, _, List.mem_cons_self, fun h => ?_⟩
  · unfold Satisfies; decide +kernel
  · have := h 0
    revert this
    decide +kernel
  · obtain ⟨P, h1, h2⟩ := h 2 {0} (by decide +kernel)
    have hP : P ⊆ {1} := by
      intro k hk
      have h3 := h1 k hk
      by_contra hne
      simp only [Finset.mem_singleton] at hne
      revert h3
      rw [imp_false, not_le]
      rcases Nat.lt_or_ge k 3 with hk3 | hk3
      · have : k = 0 ∨ k = 2 := by omega
        rcases this with rfl | rfl <;> decide +kernel
      · obtain ⟨j, rfl⟩ : ∃ j, k = j + 3 := ⟨k - 3, by omega⟩
        have hq : 1 ≤ (j + 2) / 2 := by omega
        have hq' : (1 : ℚ) ≤ (((j + 2) / 2 : ℕ) : ℚ) := by exact_mod_cast hq
        unfold execEndI execStartI KTask.durI execStart KTask.dur
        simp only [producer, List.length_cons, List.length_nil, zero_add, show ¬ (j + 3 < 1) by omega, if_false,
          show j + 3 - 1 = j + 2 by omega, one_mul, starts]
        have h5 : ¬ ((1 : Int) = 2) := by decide
        have h6 : ¬ ((((j + 2) % (1 + 1) : ℕ) : Int) + 1 ≤ 0) := by omega
        have h7 : (0 : ℚ) ≤ [(1 : ℚ), 1].getD ((j + 2) % (1 + 1)) 0 := by
          have : (j + 2) % (1 + 1) < 2 := Nat.mod_lt _ (by decide)
          have h' : (j + 2) % (1 + 1) = 0 ∨ (j + 2) % (1 + 1) = 1 := by omega
          rcases h' with h' | h' <;> rw [h'] <;> decide +kernel
        simp only [h5, h6, if_false]
        have h8 : (0 : ℚ) ≤ ((((j + 2) % (1 + 1) : ℕ) : Int) + 1 : Int) := by positivity
        have h9 : (1 : ℚ) ≤ (((j + 2) / (1 + 1) : ℕ) : ℚ) := hq'
        push_cast at h8 h9 ⊢
        linarith
    have h4 : ∑ k ∈ P, rateI even.inInit even.inPhases k ≤ ∑ k ∈ ({1} : Finset ℕ), rateI even.inInit even.inPhases k :=
      Finset.sum_le_sum_of_subset_of_nonneg hP fun i _ _ => by
        rcases rateI_mem even.inInit even.inPhases (by decide) i with h | h
        · exact (even_ok 10).inInitNonneg _ h
        · exact (even_ok 10).inNonneg _ h
    have h5 : ∑ k ∈ ({1} : Finset ℕ), rateI even.inInit even.inPhases k = 2 := by decide +kernel
    have h6 : ∑ k ∈ ({0} : Finset ℕ), rateI even.outInit even.outPhases k = 4 := by decide +kernel
    have h7 : even.preload = 0 := rfl
    change ∑ k ∈ ({0} : Finset ℕ), rateI even.outInit even.outPhases k ≤ even.preload + _ at h2
    rw [h6, h7] at h2
    have := h4.trans h5.le
    change 4 ≤ 0 + ∑ k ∈ P, rateI even.inInit even.inPhases k at h2
    omega

/-- Initial rate 1, then 2, consumption 2, one initial token: the granularity, computed from the periodic rates, is 2. -/
def odd : KChannel := ⟨7, [2], [2], [1], [], 1, 2⟩

theorem odd_ok (d0 : ℚ) : ChannelOKI odd (producer d0 [1] 1) (consumer 1) := by
  constructor <;> simp [odd, producer, consumer]

/-- **C15** fails with an initial rate that is not a multiple of the granularity of the channel (which is computed without the
initial rates, models/Dataflow.h:918-934): no constraint at all is generated between the two tasks, and the consumer starts
at time 0 with one token instead of two. -/
theorem _root_.Kiter.C15_init_granularity_counterexample : ∃ (g : KGraph) (S : Event → ℚ) (cs : List EvConstraint), GraphOKI g ∧
    (∀ tk ∈ g.tasks, tk.1.durI 0 ≤ tk.1.dur 0) ∧
    eventGraph g = some cs ∧ (∀ c ∈ cs, c.src.task = c.dst.task) ∧ (∀ c ∈ cs, Satisfies S 100 c) ∧
    ∃ c ∈ g.channels, ¬ ChannelSafeI S 100 c.1 c.2.1 c.2.2 := by
  refine ⟨graph (producer 1 [1] 1) (consumer 1) odd, starts 0,
    (eventGraph (graph (producer 1 [1] 1) (consumer 1) odd)).getD [],
    graph_ok (by norm_num) (by simp) (by decide) (by decide) (by decide) (odd_ok 1), by decide +kernel, by decide +kernel,
    by decide +kernel, ?_, _, List.mem_cons_self, fun h => ?_⟩
  · unfold Satisfies; decide +kernel
  · obtain ⟨P, h1, h2⟩ := h 0 {0} (by decide +kernel)
    have hP : P = ∅ := by
      refine Finset.eq_empty_of_forall_notMem fun k hk => ?_
      have h3 := h1 k hk
      revert h3
      rw [imp_false, not_le]
      rcases Nat.eq_zero_or_pos k with rfl | hk0
      · decide +kernel
      · obtain ⟨j, rfl⟩ : ∃ j, k = j + 1 := ⟨k - 1, by omega⟩
        unfold execEndI execStartI KTask.durI execStart KTask.dur
        simp only [producer, List.length_cons, List.length_nil, zero_add, show ¬ (j + 1 < 1) by omega, if_false,
          Nat.add_sub_cancel, Nat.mod_one, Nat.div_one, Nat.mul_one, starts]
        have h9 : (0 : ℚ) ≤ (j : ℚ) := by positivity
        norm_num
        linarith
    rw [hP] at h2
    revert h2
    decide +kernel

/-- Initial rate 2, then 3, consumption 2. -/
def mixed : KChannel := ⟨7, [3], [2], [2], [], 0, 1⟩

theorem mixed_ok (d0 : ℚ) : ChannelOKI mixed (producer d0 [1] 2) (consumer 3) := by
  constructor <;> simp [mixed, producer, consumer]

/-- **C16** fails with initial phases: the producer starts its initial phase at 0 and the periodic one at 1, 16, 31..., the
consumer starts at 1, 11, 21...; this schedule is valid, but the generator asks the consumer to wait until 6, as if the
initial phase were repeated. -/
theorem _root_.Kiter.C16_init_counterexample : ∃ (g : KGraph) (S : Event → ℚ) (cs : List EvConstraint), GraphOKI g ∧
    (∀ tk ∈ g.tasks, tk.1.durI 0 = tk.1.dur 0) ∧
    (∀ c ∈ g.channels, (∀ r ∈ c.1.inInit, c.1.fineGCD ∣ r) ∧ ∀ r ∈ c.1.outInit, c.1.fineGCD ∣ r) ∧
    eventGraph g = some cs ∧ ValidScheduleI g S 30 ∧ ∃ c ∈ cs, ¬ Satisfies S 30 c := by
  have hps : ∀ k, execStartI (starts 1) 30 (producer 1 [1] 2) 1 (k + 1) = 1 + 15 * k := by
    intro k
    unfold execStartI execStart
    simp [producer, starts, Nat.mod_one]
    ring
  have hp0 : execStartI (starts 1) 30 (producer 1 [1] 2) 1 0 = 0 := by decide +kernel
  have hpd : ∀ k, (producer 1 [1] 2).durI k = 1 := by
    intro k
    unfold KTask.durI KTask.dur
    rcases Nat.eq_zero_or_pos k with rfl | hk
    · decide +kernel
    · simp [producer, Nat.mod_one, show ¬ k = 0 by omega]
  have hcs : ∀ k, execStartI (starts 1) 30 (consumer 3) 1 k = 1 + 10 * k := by
    intro k
    unfold execStartI execStart
    simp [consumer, starts]
    ring
  have hcd : ∀ k, (consumer 3).durI k = 1 := by
    intro k
    unfold KTask.durI KTask.dur
    simp [consumer, Nat.mod_one]
  have hpe : ∀ k, execEndI (starts 1) 30 (producer 1 [1] 2) 1 (k + 1) = 2 + 15 * k := by
    intro k; unfold execEndI; rw [hps, hpd]; ring
  refine ⟨graph (producer 1 [1] 2) (consumer 3) mixed, starts 1,
    (eventGraph (graph (producer 1 [1] 2) (consumer 3) mixed)).getD [],
    graph_ok (by norm_num) (by simp) (by decide) (by decide) (by decide) (mixed_ok 1), by decide +kernel,
    by simp [graph, mixed], by decide +kernel, ⟨fun tk htk => ?_, fun c hc => ?_⟩, ?_⟩
  · simp only [graph, List.mem_cons, List.not_mem_nil, or_false] at htk
    rcases htk with rfl | rfl
    · intro k
      show execEndI (starts 1) 30 (producer 1 [1] 2) 1 k ≤ execStartI (starts 1) 30 (producer 1 [1] 2) 1 (k + 1)
      rcases Nat.eq_zero_or_pos k with rfl | hk
      · decide +kernel
      · obtain ⟨j, rfl⟩ : ∃ j, k = j + 1 := ⟨k - 1, by omega⟩
        rw [hpe, hps]; push_cast; linarith
    · intro k
      show execEndI (starts 1) 30 (consumer 3) 1 k ≤ execStartI (starts 1) 30 (consumer 3) 1 (k + 1)
      unfold execEndI
      rw [hcs, hcs, hcd]; push_cast; linarith
  · simp only [graph, List.mem_cons, List.not_mem_nil, or_false] at hc
    subst hc
    intro x C hC
    change ∀ l ∈ C, execStartI (starts 1) 30 (consumer 3) 1 l ≤ x at hC
    show ∃ P : Finset ℕ, (∀ k ∈ P, execEndI (starts 1) 30 (producer 1 [1] 2) 1 k ≤ x) ∧
      ∑ l ∈ C, rateI mixed.outInit mixed.outPhases l ≤ mixed.preload + ∑ k ∈ P, rateI mixed.inInit mixed.inPhases k
    rcases C.eq_empty_or_nonempty with rfl | hne
    · exact ⟨∅, by simp, by simp [mixed]⟩
    · set L := C.max' hne
      have hL := hC L (C.max'_mem hne)
      rw [hcs] at hL
      have hv : ∀ l, rateI mixed.outInit mixed.outPhases l = 2 := by
        intro l; unfold rateI rate; simp [mixed, Nat.mod_one]
      have hf : ∀ n, cum (rateI mixed.inInit mixed.inPhases) (n + 1) = 2 + 3 * n := by
        intro n
        induction n with
        | zero => decide +kernel
        | succ n ih =>
          rw [cum_succ, ih]
          unfold rateI rate
          simp [mixed, Nat.mod_one]; ring
      refine ⟨Finset.range ((2 * L + 2) / 3 + 1), fun k hk => ?_, ?_⟩
      · have hk' : k ≤ (2 * L + 2) / 3 := by simp at hk; omega
        rcases Nat.eq_zero_or_pos k with rfl | hk0
        · have h1 : execEndI (starts 1) 30 (producer 1 [1] 2) 1 0 = 1 := by decide +kernel
          have h2 : (0 : ℚ) ≤ (L : ℚ) := by positivity
          rw [h1]; linarith
        · obtain ⟨j, rfl⟩ : ∃ j, k = j + 1 := ⟨k - 1, by omega⟩
          rw [hpe]
          have h2 : 3 * (j + 1) ≤ 2 * L + 2 := by omega
          have h3 : (3 : ℚ) * (j + 1) ≤ 2 * L + 2 := by exact_mod_cast h2
          linarith
      · have h1 := sum_le_cum (v := rateI mixed.outInit mixed.outPhases) (L := L) (fun k => by rw [hv]; decide)
          (fun l hl => C.le_max' l hl)
        refine h1.trans ?_
        have h2 : cum (rateI mixed.outInit mixed.outPhases) (L + 1) = 2 * (L + 1) := by
          unfold cum; simp [hv]; ring
        have h3 : ∑ k ∈ Finset.range ((2 * L + 2) / 3 + 1), rateI mixed.inInit mixed.inPhases k =
            2 + 3 * ((2 * L + 2) / 3 : ℕ) := hf _
        rw [h3]
        show cum (rateI mixed.outInit mixed.outPhases) (L + 1) ≤ 0 + _
        rw [h2]
        omega
  · unfold Satisfies; decide +kernel

end InitPhases

end Kiter
