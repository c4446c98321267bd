/-
Properties C15, C16, C17 and C18: the event constraints generated for a periodicity vector K describe exactly
the valid K-periodic schedules.
-/
import Verif.Lemmas.KPeriodicGen
import Mathlib.Tactic.LinearCombination

set_option autoImplicit false

namespace Kiter
open Finset

section
variable {S : Event → ℚ} {Ω : ℚ} {t : KTask} {K : ℕ}

theorem execStart_period (hP : 0 < t.durations.length) (hK : 0 < K) (k : ℕ) :
    execStart S Ω t K (k + K * t.durations.length) =
      execStart S Ω t K k + Ω * (t.durations.length * K) / t.ni := by
  unfold execStart
  have hKP : 0 < K * t.durations.length := Nat.mul_pos hK hP
  have e1 : (k + K * t.durations.length) % t.durations.length = k % t.durations.length := Nat.add_mul_mod_self_right ..
  have e2 : (k + K * t.durations.length) / t.durations.length % K = k / t.durations.length % K := by
    rw [Nat.add_mul_div_right _ _ hP, Nat.add_mod_right]
  have e3 : (k + K * t.durations.length) / (K * t.durations.length) = k / (K * t.durations.length) + 1 :=
    Nat.add_div_right _ hKP
  rw [e1, e2, e3]; push_cast; ring

theorem execStart_first {x : ℕ} (hx : x < K * t.durations.length) :
    execStart S Ω t K x = S (evAt t x) := by
  unfold execStart evAt
  have hd : x / t.durations.length < K := Nat.div_lt_of_lt_mul (by rwa [Nat.mul_comm] at hx)
  rw [Nat.mod_eq_of_lt hd, Nat.div_eq_of_lt hx]; simp

theorem dur_period (k : ℕ) : t.dur (k + K * t.durations.length) = t.dur k := by
  unfold KTask.dur; rw [Nat.add_mul_mod_self_right]

theorem dur_nonneg (hP : 0 < t.durations.length) (h : ∀ d ∈ t.durations, 0 ≤ d) (k : ℕ) : 0 ≤ t.dur k := by
  unfold KTask.dur
  have hx : k % t.durations.length < t.durations.length := Nat.mod_lt _ hP
  rw [List.getD_eq_getElem _ _ hx]
  exact h _ (List.getElem_mem _)

theorem nat_periodic_induction {M : ℕ} (hM : 0 < M) {p : ℕ → Prop} (h0 : ∀ x < M, p x) (h1 : ∀ k, p k → p (k + M))
    (k : ℕ) : p k := by
  have : ∀ a x, x < M → p (x + a * M) := by
    intro a
    induction a with
    | zero => intro x hx; simpa using h0 x hx
    | succ a ih => intro x hx; rw [show x + (a + 1) * M = x + a * M + M by ring]; exact h1 _ (ih x hx)
  have e := this (k / M) (k % M) (Nat.mod_lt _ hM)
  rwa [Nat.mod_add_div'] at e

/-- **C18** For a non-reentrant task the self-loop constraints hold exactly when no two executions of the
infinite schedule overlap (and they are ordered). Generation never fails. -/
theorem C18_selfloop_iff (ht : TaskOK t K) :
    ∃ cs, selfLoopConstraints t K = some cs ∧ ((∀ c ∈ cs, Satisfies S Ω c) ↔ NoOverlap S Ω t K) := by
  obtain ⟨cs, hcs, hmem⟩ := selfLoop_spec t K ht.phases ht.k ht.noInit ht.ni.ne'
  refine ⟨cs, hcs, ?_⟩
  have hKP : 0 < K * t.durations.length := Nat.mul_pos ht.k ht.phases
  have hr : ¬ t.reentrancy ≤ 0 := by have := ht.reentrancy; omega
  have hper : ∀ k, execStart S Ω t K (k + K * t.durations.length) = _ := execStart_period ht.phases ht.k
  constructor
  · intro H
    refine nat_periodic_induction hKP (fun x hx => ?_) (fun k hk => ?_)
    · unfold execEnd
      rw [execStart_first hx]
      by_cases hx1 : x + 1 < K * t.durations.length
      · rw [execStart_first hx1]
        have := H _ ((hmem _).mpr (Or.inl ⟨x, hx1, rfl⟩))
        unfold Satisfies at this
        simp only [hr, if_false] at this
        linarith
      · have e : x = K * t.durations.length - 1 := by omega
        have := H _ ((hmem _).mpr (Or.inr ⟨ht.reentrancy, rfl⟩))
        unfold Satisfies at this
        simp only at this
        have e2 : x + 1 = 0 + K * t.durations.length := by omega
        rw [e2, hper 0, execStart_first hKP, e]
        rw [mul_div_assoc]
        linarith
    · unfold execEnd at hk ⊢
      rw [show k + K * t.durations.length + 1 = (k + 1) + K * t.durations.length by ring, hper, hper, dur_period]
      linarith
  · intro H c hc
    rcases (hmem c).mp hc with ⟨x, hx, rfl⟩ | ⟨_, rfl⟩
    · have := H x
      unfold execEnd at this
      rw [execStart_first hx, execStart_first (by omega)] at this
      unfold Satisfies
      simp only [hr, if_false]
      linarith
    · have := H (K * t.durations.length - 1)
      unfold execEnd at this
      rw [show K * t.durations.length - 1 + 1 = 0 + K * t.durations.length by omega, hper 0,
        execStart_first hKP, execStart_first (by omega), mul_div_assoc] at this
      unfold Satisfies
      simp only
      linarith

theorem noOverlap_start_mono (ht : TaskOK t K) (h : NoOverlap S Ω t K) : Monotone (execStart S Ω t K) := by
  refine monotone_nat_of_le_succ fun k => ?_
  have := h k
  have := dur_nonneg ht.phases ht.durNonneg k
  unfold execEnd at *
  linarith

theorem noOverlap_end_mono (ht : TaskOK t K) (h : NoOverlap S Ω t K) : Monotone (execEnd S Ω t K) := by
  refine monotone_nat_of_le_succ fun k => ?_
  have := h k
  have := dur_nonneg ht.phases ht.durNonneg (k + 1)
  unfold execEnd at *
  linarith

end

/-- **C15 and C16, one channel** For a channel between two tasks whose executions run in order, the generated
constraints hold for `S` and `Ω ≥ 0` if (necessity, C16) and only if (sufficiency, C15) the channel never runs short
of tokens in the infinite schedule. Ordered completions of the producer and ordered starts of the consumer are
what the self-loop constraints give (C18). -/
theorem C15_C16_channel_iff (S : Event → ℚ) (Ω : ℚ) (hΩ : 0 ≤ Ω) (c : KChannel) (src dst : KTask) (Ki Kj : ℕ)
    (hc : ChannelOK c src dst) (hKi : 0 < Ki) (hKj : 0 < Kj) (hni : 0 < src.ni) (hnj : 0 < dst.ni)
    (hend : Monotone (execEnd S Ω src Ki)) (hstart : Monotone (execStart S Ω dst Kj)) :
    ∃ cs, channelConstraints src dst c Ki Kj = some cs ∧
      ((∀ e ∈ cs, Satisfies S Ω e) ↔ ChannelSafe S Ω c (src, Ki) (dst, Kj)) := by
  have hP : 0 < c.inPhases.length := by
    rcases Nat.eq_zero_or_pos c.inPhases.length with h | h
    · have := hc.inPos; rw [List.length_eq_zero_iff.mp h] at this; simp at this
    · exact h
  have hQ : 0 < c.outPhases.length := by
    rcases Nat.eq_zero_or_pos c.outPhases.length with h | h
    · have := hc.outPos; rw [List.length_eq_zero_iff.mp h] at this; simp at this
    · exact h
  obtain ⟨mop, hm1, hm2, hm3, cs, hcs, hmem⟩ := channel_spec src dst c Ki Kj hc.noInInit hc.noOutInit hP hQ
    hc.srcPhases hKi hc.inPos hni.ne' hc.gcdPos hc.preload
  refine ⟨cs, hcs, ?_⟩
  set f := rate c.inPhases with hf
  set v := rate c.outPhases with hv
  have hWe : cum f (Ki * c.inPhases.length) = c.inPhases.sum * Ki := cum_rate _ _
  have hRe : cum v (Kj * c.outPhases.length) = c.outPhases.sum * Kj := cum_rate _ _
  have hKi' : (0 : Int) < Ki := by exact_mod_cast hKi
  have hKj' : (0 : Int) < Kj := by exact_mod_cast hKj
  have hW : 0 < cum f (Ki * c.inPhases.length) := by rw [hWe]; exact mul_pos hc.inPos hKi'
  have hR : 0 < cum v (Kj * c.outPhases.length) := by rw [hRe]; exact mul_pos hc.outPos hKj'
  have hmop0 : 0 ≤ mop := by
    have h0 : (c.fineGCD : Int) ∣ 0 := dvd_zero _
    have := hc.preload
    exact dvd_lt_add hc.gcdPos h0 hm1 (by omega)
  set τ : ℚ := Ω * c.inPhases.length / (c.inPhases.sum * src.ni) with hτdef
  have qin : (0 : ℚ) < c.inPhases.sum := by exact_mod_cast hc.inPos
  have qout : (0 : ℚ) < c.outPhases.sum := by exact_mod_cast hc.outPos
  have qni : (0 : ℚ) < src.ni := by exact_mod_cast hni
  have qnj : (0 : ℚ) < dst.ni := by exact_mod_cast hnj
  have qKi : (0 : ℚ) < Ki := by exact_mod_cast hKi
  have qKj : (0 : ℚ) < Kj := by exact_mod_cast hKj
  have hτ : 0 ≤ τ := by rw [hτdef]; positivity
  have hbal : (c.inPhases.sum : ℚ) * src.ni * c.outPhases.length = c.outPhases.sum * dst.ni * c.inPhases.length := by
    have := hc.balance
    rw [hc.srcPhases, hc.dstPhases] at this
    exact_mod_cast this
  have hps : ∀ k, execStart S Ω src Ki (k + Ki * c.inPhases.length)
      = execStart S Ω src Ki k + τ * cum f (Ki * c.inPhases.length) := by
    intro k
    have := execStart_period (S := S) (Ω := Ω) (t := src) (K := Ki) (by rw [hc.srcPhases]; exact hP) hKi k
    rw [hc.srcPhases] at this
    rw [this, hWe, hτdef]
    rw [Int.cast_mul, Int.cast_natCast]
    field_simp
  have hpt : ∀ k, execStart S Ω dst Kj (k + Kj * c.outPhases.length)
      = execStart S Ω dst Kj k + τ * cum v (Kj * c.outPhases.length) := by
    intro k
    have := execStart_period (S := S) (Ω := Ω) (t := dst) (K := Kj) (by rw [hc.dstPhases]; exact hQ) hKj k
    rw [hc.dstPhases] at this
    rw [this, hRe, hτdef]
    rw [Int.cast_mul, Int.cast_natCast]
    congr 1
    rw [div_mul_eq_mul_div, div_eq_div_iff qnj.ne' (by positivity)]
    linear_combination Ω * Kj * hbal
  have hpd : ∀ k, src.dur (k + Ki * c.inPhases.length) = src.dur k := by
    intro k; rw [← hc.srcPhases]; exact dur_period k
  have e1 := pairs_iff (f := f) (v := v) (s := execStart S Ω src Ki) (t := execStart S Ω dst Kj) (d := src.dur)
    (mop := mop) (step := c.fineGCD) (τ := τ)
    (Nat.mul_pos hKi hP) (Nat.mul_pos hKj hQ) (fun k => rate_periodic _ _ _) (fun k => rate_periodic _ _ _)
    (fun k => hc.gcdIn _ (rate_mem _ hP k)) (fun k => hc.gcdOut _ (rate_mem _ hQ k)) hm1 hc.gcdPos hW hR hτ hps hpt hpd
  have e2 := neverShort_iff (f := f) (v := v) (t := execStart S Ω dst Kj) (e := execEnd S Ω src Ki)
    (mop := mop) (step := c.fineGCD) (preload := c.preload)
    (fun k => hc.inNonneg _ (rate_mem _ hP k)) (fun k => hc.outNonneg _ (rate_mem _ hQ k))
    (M := Ki * c.inPhases.length) (fun k => rate_periodic _ _ _) hW
    (fun k => hc.gcdIn _ (rate_mem _ hP k)) (fun k => hc.gcdOut _ (rate_mem _ hQ k)) hm1 hc.gcdPos hmop0 hm2 hm3
    hend hstart
  unfold ChannelSafe
  rw [e2]
  refine Iff.trans ?_ e1
  -- the generated list says the same as the family `PairOK`
  have hsrcP : 0 < src.durations.length := by rw [hc.srcPhases]; exact hP
  have hdstP : 0 < dst.durations.length := by rw [hc.dstPhases]; exact hQ
  have est : ∀ m, m < Ki * c.inPhases.length → S (evAt src m) = execStart S Ω src Ki m := fun m hm =>
    (execStart_first (by rw [hc.srcPhases]; exact hm)).symm
  have edt : ∀ n, n < Kj * c.outPhases.length →
      S ⟨dst.id, ((n % c.outPhases.length : ℕ) : Int) + 1, ((n / c.outPhases.length : ℕ) : Int) + 1⟩
        = execStart S Ω dst Kj n := fun n hn => by
    rw [execStart_first (by rw [hc.dstPhases]; exact hn)]
    unfold evAt; rw [hc.dstPhases]
  have ew : ∀ α : Int, -(Ω * -((α : ℚ) * ((c.inPhases.length : ℚ) * Ki) / (((c.inPhases.sum * Ki : Int) : ℚ) * src.ni)))
      = τ * α := by
    intro α; rw [hτdef, Int.cast_mul, Int.cast_natCast]; field_simp
  constructor
  · intro H m hm n hn α hα
    rw [hWe, hRe] at hα
    have := H _ ((hmem _).mpr ⟨m, hm, n, hn, α, hα, rfl⟩)
    unfold Satisfies at this
    simp only at this
    rw [est m hm, edt n hn, sub_eq_add_neg, ew] at this
    exact this
  · intro H e he
    obtain ⟨m, hm, n, hn, α, hα, rfl⟩ := (hmem e).mp he
    have := H m hm n hn α (by rw [hWe, hRe]; exact hα)
    unfold Satisfies
    simp only
    rw [est m hm, edt n hn, sub_eq_add_neg, ew]
    exact this

theorem collect_spec {α : Type} (f : α → Option (List EvConstraint)) (p : EvConstraint → Prop) (q : α → Prop)
    (l : List α) (h : ∀ a ∈ l, ∃ cs, f a = some cs ∧ ((∀ c ∈ cs, p c) ↔ q a)) :
    ∃ cs, collect f l = some cs ∧ ((∀ c ∈ cs, p c) ↔ ∀ a ∈ l, q a) := by
  induction l with
  | nil => exact ⟨[], rfl, by simp⟩
  | cons a l ih =>
    obtain ⟨x, hx, ex⟩ := h a (by simp)
    obtain ⟨y, hy, ey⟩ := ih (fun b hb => h b (by simp [hb]))
    refine ⟨x ++ y, by simp [collect, hx, hy], ?_⟩
    rw [List.forall_mem_cons, ← ex, ← ey]
    simp only [List.mem_append]
    constructor
    · intro H; exact ⟨fun c hc => H c (Or.inl hc), fun c hc => H c (Or.inr hc)⟩
    · rintro ⟨h1, h2⟩ c (hc | hc)
      · exact h1 c hc
      · exact h2 c hc

/-- Generation never fails on a covered graph. -/
theorem eventGraph_total {g : KGraph} (hg : GraphOK g) : ∃ cs, eventGraph g = some cs := by
  obtain ⟨a, ha, -⟩ := collect_spec (fun tk => selfLoopConstraints tk.1 tk.2) (fun _ => True) (fun _ => True) g.tasks
    (fun tk htk => by
      obtain ⟨cs, h, -⟩ := C18_selfloop_iff (S := fun _ => 0) (Ω := 0) (hg.tasks tk htk)
      exact ⟨cs, h, by simp⟩)
  obtain ⟨b, hb, -⟩ := collect_spec (fun c => channelConstraints c.2.1.1 c.2.2.1 c.1 c.2.1.2 c.2.2.2)
    (fun _ => True) (fun _ => True) g.channels
    (fun c hc => by
      obtain ⟨h1, h2, h3⟩ := hg.channels c hc
      have t1 := hg.tasks _ h1
      have hP : 0 < c.1.inPhases.length := by rw [← h3.srcPhases]; exact t1.phases
      have hQ : 0 < c.1.outPhases.length := by rw [← h3.dstPhases]; exact (hg.tasks _ h2).phases
      obtain ⟨_, _, _, _, cs, hcs, -⟩ := channel_spec c.2.1.1 c.2.2.1 c.1 c.2.1.2 c.2.2.2 h3.noInInit h3.noOutInit
        hP hQ h3.srcPhases t1.k h3.inPos t1.ni.ne' h3.gcdPos h3.preload
      exact ⟨cs, hcs, by simp⟩)
  refine ⟨a ++ b, ?_⟩
  unfold eventGraph
  simp only [ha, hb, Option.bind_eq_bind, Option.bind_some]; rfl

/-- **C15 and C16, whole graph** For every covered graph and every `Ω ≥ 0`, the starting times `S` satisfy all the
generated event constraints exactly when the infinite K-periodic schedule they define is valid. -/
theorem C15_C16_graph_iff {g : KGraph} (hg : GraphOK g) (S : Event → ℚ) {Ω : ℚ} (hΩ : 0 ≤ Ω) :
    ∃ cs, eventGraph g = some cs ∧ ((∀ c ∈ cs, Satisfies S Ω c) ↔ ValidSchedule g S Ω) := by
  obtain ⟨a, ha, ea⟩ := collect_spec (fun tk => selfLoopConstraints tk.1 tk.2) (Satisfies S Ω)
    (fun tk => NoOverlap S Ω tk.1 tk.2) g.tasks (fun tk htk => C18_selfloop_iff (hg.tasks tk htk))
  obtain ⟨cs, hcs⟩ := eventGraph_total hg
  refine ⟨cs, hcs, ?_⟩
  unfold eventGraph at hcs
  simp only [ha, Option.bind_eq_bind, Option.bind_some] at hcs
  obtain ⟨b, hb, hcs⟩ := Option.bind_eq_some_iff.mp hcs
  cases hcs
  unfold ValidSchedule
  rw [← ea]
  have split : (∀ c ∈ a ++ b, Satisfies S Ω c) ↔ (∀ c ∈ a, Satisfies S Ω c) ∧ ∀ c ∈ b, Satisfies S Ω c := by
    simp only [List.mem_append]
    constructor
    · intro H; exact ⟨fun c hc => H c (Or.inl hc), fun c hc => H c (Or.inr hc)⟩
    · rintro ⟨h1, h2⟩ c (hc | hc)
      · exact h1 c hc
      · exact h2 c hc
  rw [split]
  refine and_congr_right fun hA => ?_
  have hNO := ea.mp hA
  obtain ⟨b', hb', eb⟩ := collect_spec (fun c => channelConstraints c.2.1.1 c.2.2.1 c.1 c.2.1.2 c.2.2.2) (Satisfies S Ω)
    (fun c => ChannelSafe S Ω c.1 c.2.1 c.2.2) g.channels
    (fun c hc => by
      obtain ⟨h1, h2, h3⟩ := hg.channels c hc
      have t1 := hg.tasks _ h1
      have t2 := hg.tasks _ h2
      exact C15_C16_channel_iff S Ω hΩ c.1 c.2.1.1 c.2.2.1 c.2.1.2 c.2.2.2 h3 t1.k t2.k t1.ni t2.ni
        (noOverlap_end_mono t1 (hNO _ h1)) (noOverlap_start_mono t2 (hNO _ h2)))
  rw [hb] at hb'
  cases hb'
  exact eb

end Kiter
