/-
C49: strictly periodic schedules. The constraints of the analysis hold exactly when the infinite schedule with one
execution every `Ω / N` is valid; the approximate variant is safe; the inverse of the minimum cycle ratio is the least
period of such schedules and never beats the best period of the graph.
-/
import Verif.Lemmas.StrictlyPeriodic
import Verif.Props.DeGroote

set_option autoImplicit false

namespace Kiter
open Finset

section
variable {B : BaseGraph}

theorem strict_noOverlap {t : KTask} (hP : 0 < t.durations.length) (hd : ∀ d ∈ t.durations, 0 ≤ d) (hN : 0 < t.ni)
    (S : Event → ℚ) (Ω : ℚ) :
    ∃ cs, spSelf t = some cs ∧ (∀ c ∈ cs, c.src = ⟨t.id, 1, 1⟩ ∧ c.dst = ⟨t.id, 1, 1⟩) ∧
      ((∀ c ∈ cs, Satisfies S Ω c) ↔ ∀ k, strictStart S Ω t k + t.dur k ≤ strictStart S Ω t (k + 1)) ∧
      ((∀ c ∈ cs, Satisfies S Ω c) → 0 ≤ Ω) := by
  obtain ⟨maxd, hm, hm1, hm2⟩ := max?_spec (l := t.durations) (by intro h0; simp [h0] at hP)
  have hNq : (0 : ℚ) < t.ni := by exact_mod_cast hN
  have hmem : ∀ k, t.dur k ∈ t.durations := by
    intro k
    unfold KTask.dur
    have := Nat.mod_lt k hP
    rw [List.getD_eq_getElem _ _ this]
    exact List.getElem_mem _
  have hsat : Satisfies S Ω ⟨⟨t.id, 1, 1⟩, ⟨t.id, 1, 1⟩, 1 / (t.ni : ℚ), maxd, t.id⟩ ↔ maxd ≤ Ω / t.ni := by
    unfold Satisfies
    dsimp only
    rw [mul_one_div]
    constructor <;> intro h <;> linarith
  refine ⟨[⟨⟨t.id, 1, 1⟩, ⟨t.id, 1, 1⟩, 1 / (t.ni : ℚ), maxd, t.id⟩], by
    unfold spSelf; rw [hm]; simp only [Option.bind_eq_bind, Option.bind_some]; rw [if_neg hN.ne']; rfl, by simp, ?_, ?_⟩
  · rw [List.forall_mem_singleton, hsat]
    unfold strictStart
    constructor
    · intro h k
      have := hm2 _ (hmem k)
      push_cast
      linarith
    · intro h
      obtain ⟨i, hi, e⟩ := List.mem_iff_getElem.mp hm1
      have := h i
      have e2 : t.dur i = maxd := by
        unfold KTask.dur
        rw [Nat.mod_eq_of_lt hi, List.getD_eq_getElem _ _ hi, e]
      rw [e2] at this
      push_cast at this
      linarith
  · rw [List.forall_mem_singleton, hsat]
    intro h
    have h1 := hd _ hm1
    have h2 : 0 ≤ Ω / t.ni := le_trans h1 h
    by_contra hc
    have := div_neg_of_neg_of_pos (not_le.mp hc) hNq
    linarith

/-- A channel: the inequalities over all pairs of phases say that the channel is never short. -/
theorem strict_channel (hB : BaseOK B) {e : BChannel} (he : e ∈ B.channels) (S : Event → ℚ) {Ω : ℚ} (hΩ : 0 ≤ Ω)
    (hend : Monotone fun k => strictStart S Ω e.2.1 k + e.2.1.dur k) (hstart : Monotone (strictStart S Ω e.2.2))
    {mop : Int} (hm1 : e.1.fineGCD ∣ mop) (hm2 : mop ≤ e.1.preload) (hm3 : e.1.preload < mop + e.1.fineGCD) :
    (∀ m < e.2.1.durations.length, ∀ n < e.2.2.durations.length, ∀ α,
      spBound (rate e.1.inPhases) (rate e.1.outPhases) mop e.1.fineGCD (Int.gcd e.1.inPhases.sum e.1.outPhases.sum) m n = some α →
      S ⟨e.2.1.id, 1, 1⟩ + e.2.1.dur m + Ω * spVal e.1.inPhases.sum e.1.outPhases.sum (e.2.1.ni / e.2.1.durations.length)
        e.2.1.durations.length e.2.2.durations.length m n α ≤ S ⟨e.2.2.id, 1, 1⟩) ↔
    NeverShort (rate e.1.inPhases) (rate e.1.outPhases) e.1.preload (fun k => strictStart S Ω e.2.1 k + e.2.1.dur k)
      (strictStart S Ω e.2.2) := by
  obtain ⟨c, src, dst⟩ := e
  obtain ⟨hs, hd, hc⟩ := hB.channels _ he
  dsimp only at *
  obtain ⟨qi, hqi⟩ := hB.multiple src hs
  obtain ⟨qj, hqj⟩ := hB.multiple dst hd
  have hsP := (hB.tasks src hs).phases
  have hdP := (hB.tasks dst hd).phases
  have hM : (0 : Int) < src.durations.length := by exact_mod_cast hsP
  have hN : (0 : Int) < dst.durations.length := by exact_mod_cast hdP
  have hni := (hB.tasks src hs).ni
  have hnj := (hB.tasks dst hd).ni
  have t3 : src.ni / src.durations.length = qi := by rw [hqi]; exact Int.mul_ediv_cancel_left _ hM.ne'
  have hbal : c.inPhases.sum * qi = c.outPhases.sum * qj := by
    have := hc.balance
    rw [hqi, hqj] at this
    have e : (src.durations.length : Int) * dst.durations.length * (c.inPhases.sum * qi) =
        src.durations.length * dst.durations.length * (c.outPhases.sum * qj) := by linarith
    exact mul_left_cancel₀ (mul_pos hM hN).ne' e
  have pos : ∀ {a b : Int}, 0 < a → 0 < a * b → 0 < b := fun ha h => pos_of_mul_pos_right h ha.le
  have hqi0 : 0 < qi := pos hM (by rw [← hqi]; exact hni)
  have hqj0 : 0 < qj := pos hN (by rw [← hqj]; exact hnj)
  have hP : 0 < c.inPhases.length := by rw [← hc.srcPhases]; exact hsP
  have hQ : 0 < c.outPhases.length := by rw [← hc.dstPhases]; exact hdP
  have hmop0 : 0 ≤ mop := by
    have h0 : (c.fineGCD : Int) ∣ 0 := dvd_zero _
    have := hc.preload
    exact dvd_lt_add hc.gcdPos h0 hm1 (by omega)
  have hW : cum (rate c.inPhases) src.durations.length = c.inPhases.sum := by rw [hc.srcPhases]; exact cum_rate_len _
  have hR : cum (rate c.outPhases) dst.durations.length = c.outPhases.sum := by rw [hc.dstPhases]; exact cum_rate_len _
  have qia : (0 : ℚ) < c.inPhases.sum := by exact_mod_cast hc.inPos
  have qoa : (0 : ℚ) < c.outPhases.sum := by exact_mod_cast hc.outPos
  have qqi : (0 : ℚ) < qi := by exact_mod_cast hqi0
  have qqj : (0 : ℚ) < qj := by exact_mod_cast hqj0
  have qM : (0 : ℚ) < src.durations.length := by exact_mod_cast hsP
  have qN : (0 : ℚ) < dst.durations.length := by exact_mod_cast hdP
  have eni : (src.ni : ℚ) = src.durations.length * qi := by rw [hqi]; push_cast; rfl
  have enj : (dst.ni : ℚ) = dst.durations.length * qj := by rw [hqj]; push_cast; rfl
  have ebal : (c.inPhases.sum : ℚ) * qi = c.outPhases.sum * qj := by exact_mod_cast hbal
  set τ : ℚ := Ω / (c.inPhases.sum * qi) with hτ
  have e1 := pairs_iff (f := rate c.inPhases) (v := rate c.outPhases) (s := strictStart S Ω src) (t := strictStart S Ω dst) (d := src.dur)
    (M := src.durations.length) (N := dst.durations.length) (mop := mop) (step := c.fineGCD) (τ := τ)
    hsP hdP (fun k => by rw [hc.srcPhases]; simpa using rate_periodic c.inPhases 1 k)
    (fun k => by rw [hc.dstPhases]; simpa using rate_periodic c.outPhases 1 k)
    (fun k => hc.gcdIn _ (rate_mem _ hP k)) (fun k => hc.gcdOut _ (rate_mem _ hQ k)) hm1 hc.gcdPos
    (by rw [hW]; exact hc.inPos) (by rw [hR]; exact hc.outPos) (by rw [hτ]; positivity)
    (fun k => by rw [hW, hτ]; unfold strictStart; rw [eni, Nat.cast_add]; field_simp; try ring)
    (fun k => by rw [hR, hτ, ebal]; unfold strictStart; rw [enj, Nat.cast_add]; field_simp; try ring)
    (fun k => by simpa using dur_period (t := src) (K := 1) k)
  have e2 := neverShort_iff (f := rate c.inPhases) (v := rate c.outPhases) (t := strictStart S Ω dst)
    (e := fun k => strictStart S Ω src k + src.dur k)
    (mop := mop) (step := c.fineGCD) (preload := c.preload)
    (fun k => hc.inNonneg _ (rate_mem _ hP k)) (fun k => hc.outNonneg _ (rate_mem _ hQ k))
    (M := src.durations.length) (fun k => by rw [hc.srcPhases]; simpa using rate_periodic c.inPhases 1 k) (by rw [hW]; exact hc.inPos)
    (fun k => hc.gcdIn _ (rate_mem _ hP k)) (fun k => hc.gcdOut _ (rate_mem _ hQ k)) hm1 hc.gcdPos hmop0 hm2 hm3
    hend hstart
  rw [e2, ← e1, hW, hR, t3]
  refine forall_congr' fun m => forall_congr' fun _ => forall_congr' fun n => forall_congr' fun _ => forall_congr' fun α =>
    forall_congr' fun _ => ?_
  have ev : Ω * spVal c.inPhases.sum c.outPhases.sum qi src.durations.length dst.durations.length m n α =
      τ * α - n * (Ω / dst.ni) + m * (Ω / src.ni) := by
    unfold spVal
    rw [hτ, eni, enj]
    have : (c.outPhases.sum : ℚ) = c.inPhases.sum * qi / qj := by rw [ebal]; field_simp
    rw [this]
    field_simp
  rw [ev]
  unfold strictStart
  constructor <;> intro h <;> linarith

theorem sp_spec (hB : BaseOK B) (useMax : Bool) (S : Event → ℚ) {Ω : ℚ} (hΩ : 0 ≤ Ω) :
    ∃ cs, generateSP B useMax = some cs ∧
      (∀ c ∈ cs, c.src ∈ B.tasks.map (fun t : KTask => (⟨t.id, 1, 1⟩ : Event)) ∧ c.dst ∈ B.tasks.map (fun t : KTask => (⟨t.id, 1, 1⟩ : Event))) ∧
      ((∀ c ∈ cs, Satisfies S Ω c) → ValidStarts B (strictStart S Ω)) ∧
      (useMax = false → ValidStarts B (strictStart S Ω) → ∀ c ∈ cs, Satisfies S Ω c) := by
  -- self constraints
  obtain ⟨a, ha, ea⟩ := collect_spec spSelf (Satisfies S Ω)
    (fun t => ∀ k, strictStart S Ω t k + t.dur k ≤ strictStart S Ω t (k + 1)) B.tasks (fun t ht => by
      have h := hB.tasks t ht
      obtain ⟨cs, h1, -, h3, -⟩ := strict_noOverlap h.phases h.durNonneg h.ni S Ω
      exact ⟨cs, h1, h3⟩)
  have hself : ∀ c ∈ a, c.src ∈ B.tasks.map (fun t : KTask => (⟨t.id, 1, 1⟩ : Event)) ∧ c.dst ∈ B.tasks.map (fun t : KTask => (⟨t.id, 1, 1⟩ : Event)) := by
    intro c hc
    obtain ⟨t, ht, x, hx, hcx⟩ := (collect_mem _ _ _ ha c).mp hc
    have h := hB.tasks t ht
    obtain ⟨cs, h1, h2, -⟩ := strict_noOverlap h.phases h.durNonneg h.ni S Ω
    rw [hx] at h1; cases h1
    rw [(h2 c hcx).1, (h2 c hcx).2]
    exact ⟨List.mem_map.mpr ⟨t, ht, rfl⟩, List.mem_map.mpr ⟨t, ht, rfl⟩⟩
  -- initial tokens
  have hmop : ∀ e ∈ B.channels, ∃ m, cFloor e.1.preload e.1.fineGCD = some m ∧ e.1.fineGCD ∣ m ∧ m ≤ e.1.preload ∧
      e.1.preload < m + e.1.fineGCD := fun e he => cFloor_spec _ _ (hB.channels e he).2.2.gcdPos (hB.channels e he).2.2.preload
  choose! mop hmop1 hmop2 hmop3 hmop4 using hmop
  -- one constraint
  let Q : ℚ → ℕ → BChannel → Prop := fun d m e => ∀ n < e.2.2.durations.length, ∀ α,
    spBound (rate e.1.inPhases) (rate e.1.outPhases) (mop e) e.1.fineGCD (Int.gcd e.1.inPhases.sum e.1.outPhases.sum) m n = some α →
      S ⟨e.2.1.id, 1, 1⟩ + d + Ω * spVal e.1.inPhases.sum e.1.outPhases.sum (e.2.1.ni / e.2.1.durations.length)
        e.2.1.durations.length e.2.2.durations.length m n α ≤ S ⟨e.2.2.id, 1, 1⟩
  have hone : ∀ t ∈ B.tasks, ∀ (d : ℚ) (ks : List ℕ), ks ≠ [] → (∀ k ∈ ks, k < t.durations.length) →
      ∀ e ∈ B.channels.filter (fun c => decide (c.2.1.id = t.id)), e.2.1 = t ∧ ∃ cs, spConstraint d ks e = some cs ∧
        (∀ c ∈ cs, c.src = ⟨e.2.1.id, 1, 1⟩ ∧ c.dst = ⟨e.2.2.id, 1, 1⟩) ∧
        ((∀ c ∈ cs, Satisfies S Ω c) ↔ ∀ m ∈ ks, Q d m e) := by
    intro t ht d ks hks hk e he
    obtain ⟨he, hid⟩ := List.mem_filter.mp he
    obtain ⟨hs, hd, hc⟩ := hB.channels e he
    have hst : e.2.1 = t := hB.ids _ hs _ ht (by simpa using hid)
    refine ⟨hst, ?_⟩
    exact spConstraint_spec S hΩ hc (hB.tasks _ hs).ni (hB.multiple _ hs) (hB.multiple _ hd) (hB.tasks _ hs).phases
      (hB.tasks _ hd).phases (hmop1 e he) (hmop2 e he) d hks (by rw [hst]; exact hk)
  -- one task
  have htask : ∀ t ∈ B.tasks, ∃ (cs : List EvConstraint) (key : ℕ → ℚ), spTask B useMax t = some cs ∧
      (∀ c ∈ cs, c.src ∈ B.tasks.map (fun t : KTask => (⟨t.id, 1, 1⟩ : Event)) ∧ c.dst ∈ B.tasks.map (fun t : KTask => (⟨t.id, 1, 1⟩ : Event))) ∧
      (∀ k < t.durations.length, t.dur k ≤ key k ∧ (useMax = false → key k = t.dur k)) ∧
      ((∀ c ∈ cs, Satisfies S Ω c) ↔ ∀ e ∈ B.channels, e.2.1 = t → ∀ m < t.durations.length, Q (key m) m e) := by
    intro t ht
    obtain ⟨gs, key, hgs, g1, g2, g3⟩ := spGroups_spec (hB.tasks t ht).phases useMax
    obtain ⟨cs, hcs, ecs⟩ := collect_spec
      (fun g : ℚ × List ℕ => collect (spConstraint g.1 g.2) (B.channels.filter fun c => decide (c.2.1.id = t.id))) (Satisfies S Ω)
      (fun g => ∀ e ∈ B.channels.filter (fun c => decide (c.2.1.id = t.id)), ∀ m ∈ g.2, Q g.1 m e) gs (fun g hg =>
        collect_spec (spConstraint g.1 g.2) (Satisfies S Ω) (fun e => ∀ m ∈ g.2, Q g.1 m e) _ (fun e he => by
          obtain ⟨-, cs, h1, -, h3⟩ := hone t ht g.1 g.2 (g2 g hg).1 (fun k hk => ((g2 g hg).2 k hk).1) e he
          exact ⟨cs, h1, h3⟩))
    refine ⟨cs, key, by unfold spTask; rw [hgs]; exact hcs, ?_, g1, ?_⟩
    · intro c hc
      obtain ⟨g, hg, x, hx, hcx⟩ := (collect_mem _ _ _ hcs c).mp hc
      obtain ⟨e, he, y, hy, hcy⟩ := (collect_mem _ _ _ hx c).mp hcx
      obtain ⟨-, cs', h1, h2, -⟩ := hone t ht g.1 g.2 (g2 g hg).1 (fun k hk => ((g2 g hg).2 k hk).1) e he
      rw [hy] at h1; cases h1
      obtain ⟨hs, hd, -⟩ := hB.channels e (List.mem_filter.mp he).1
      rw [(h2 c hcy).1, (h2 c hcy).2]
      exact ⟨List.mem_map.mpr ⟨_, hs, rfl⟩, List.mem_map.mpr ⟨_, hd, rfl⟩⟩
    · rw [ecs]
      constructor
      · intro H e he hst m hm
        obtain ⟨g, hg, hmg, hgk⟩ := g3 m hm
        rw [← hgk]
        exact H g hg e (List.mem_filter.mpr ⟨he, by simp [hst]⟩) m hmg
      · intro H g hg e he m hm
        obtain ⟨hm1, hm2⟩ := (g2 g hg).2 m hm
        have hst := (hone t ht g.1 g.2 (g2 g hg).1 (fun k hk => ((g2 g hg).2 k hk).1) e he).1
        rw [← hm2]
        exact H e (List.mem_filter.mp he).1 hst m hm1
  choose! ct key hct1 hct2 hct3 hct4 using htask
  obtain ⟨b, hb, eb⟩ := collect_spec (spTask B useMax) (Satisfies S Ω)
    (fun t => ∀ e ∈ B.channels, e.2.1 = t → ∀ m < t.durations.length, Q (key t m) m e) B.tasks
    (fun t ht => ⟨ct t, hct1 t ht, hct4 t ht⟩)
  refine ⟨a ++ b, by unfold generateSP; rw [ha, hb]; rfl, ?_, ?_, ?_⟩
  · intro c hc
    rcases List.mem_append.mp hc with hc | hc
    · exact hself c hc
    · obtain ⟨t, ht, x, hx, hcx⟩ := (collect_mem _ _ _ hb c).mp hc
      rw [hct1 t ht] at hx; cases hx
      exact hct2 t ht c hcx
  · intro H
    have hno := ea.mp fun c hc => H c (List.mem_append_left _ hc)
    have hch := eb.mp fun c hc => H c (List.mem_append_right _ hc)
    refine ⟨hno, fun e he => ?_⟩
    obtain ⟨hs, hd, hc⟩ := hB.channels e he
    have mono : ∀ t ∈ B.tasks, Monotone (strictStart S Ω t) ∧ Monotone (fun k => strictStart S Ω t k + t.dur k) := by
      intro t ht
      refine ⟨monotone_nat_of_le_succ fun k => ?_, monotone_nat_of_le_succ fun k => ?_⟩
      · have h1 := hno t ht k
        have h2 := dur_nonneg (hB.tasks t ht).phases (hB.tasks t ht).durNonneg k
        linarith
      · have h1 := hno t ht k
        have h2 := dur_nonneg (hB.tasks t ht).phases (hB.tasks t ht).durNonneg (k + 1)
        linarith
    rw [← strict_channel hB he S hΩ (mono _ hs).2 (mono _ hd).1 (hmop2 e he) (hmop3 e he) (hmop4 e he)]
    intro m hm n hn α hα
    have h1 := hch _ hs e he rfl m hm n hn α hα
    have h2 := (hct3 _ hs m hm).1
    linarith
  · intro hu V c hc
    rcases List.mem_append.mp hc with hc | hc
    · exact ea.mpr V.noOverlap c hc
    · refine eb.mpr ?_ c hc
      rintro t ht e he rfl m hm n hn α hα
      rw [(hct3 _ ht m hm).2 hu]
      exact (strict_channel hB he S hΩ (ends_mono hB V ht) (starts_mono hB V (hB.channels e he).2.1) (hmop2 e he) (hmop3 e he)
        (hmop4 e he)).mpr (V.channels e he) m hm n hn α hα

/-- C49: the generator succeeds on every supported graph. -/
theorem C49_total (hB : BaseOK B) (useMax : Bool) : ∃ cs, generateSP B useMax = some cs := by
  obtain ⟨cs, h, -⟩ := sp_spec hB useMax (fun _ => 0) le_rfl
  exact ⟨cs, h⟩

theorem sp_nonneg (hB : BaseOK B) {useMax : Bool} {cs : List EvConstraint} (hcs : generateSP B useMax = some cs) {S : Event → ℚ} {Ω : ℚ}
    (h : (∀ c ∈ cs, Satisfies S Ω c) ∨ ValidStarts B (strictStart S Ω)) : 0 ≤ Ω ∨ B.tasks = [] := by
  cases hT : B.tasks with
  | nil => exact Or.inr rfl
  | cons t l =>
    left
    have ht : t ∈ B.tasks := by rw [hT]; simp
    have hk := hB.tasks t ht
    obtain ⟨x, h1, -, h3, h4⟩ := strict_noOverlap hk.phases hk.durNonneg hk.ni S Ω
    rcases h with h | h
    · refine h4 fun c hc => h c ?_
      unfold generateSP at hcs
      simp only [Option.bind_eq_bind] at hcs
      obtain ⟨a, ha, hcs⟩ := Option.bind_eq_some_iff.mp hcs
      obtain ⟨b, hb, hcs⟩ := Option.bind_eq_some_iff.mp hcs
      cases hcs
      exact List.mem_append_left _ ((collect_mem _ _ _ ha c).mpr ⟨t, ht, x, h1, hc⟩)
    · exact h4 (h3.mpr (h.noOverlap t ht))

theorem sp_empty (hB : BaseOK B) (hT : B.tasks = []) (useMax : Bool) : generateSP B useMax = some [] ∧
    ∀ σ, ValidStarts B σ := by
  constructor
  · unfold generateSP; rw [hT]; rfl
  · intro σ
    refine ⟨by rw [hT]; simp, fun c hc => ?_⟩
    have := (hB.channels c hc).1
    rw [hT] at this
    simp at this

/-- C49: starts satisfy the constraints of the exact analysis for a period `Ω` if and only if the infinite strictly
periodic schedule they define is valid: executions of a task do not overlap and no channel ever lacks tokens. -/
theorem C49_valid (hB : BaseOK B) {cs : List EvConstraint} (hcs : generateSP B false = some cs) (S : Event → ℚ) (Ω : ℚ) :
    (∀ c ∈ cs, Satisfies S Ω c) ↔ ValidStarts B (strictStart S Ω) := by
  by_cases hT : B.tasks = []
  · obtain ⟨h1, h2⟩ := sp_empty hB hT false
    rw [hcs] at h1; cases h1
    exact ⟨fun _ => h2 _, fun _ => by simp⟩
  · constructor
    · intro H
      obtain ⟨cs', h, -, h1, -⟩ := sp_spec hB false S ((sp_nonneg hB hcs (Or.inl H)).resolve_right hT)
      rw [hcs] at h; cases h
      exact h1 H
    · intro H
      obtain ⟨cs', h, -, -, h2⟩ := sp_spec hB false S ((sp_nonneg hB hcs (Or.inr H)).resolve_right hT)
      rw [hcs] at h; cases h
      exact h2 rfl H

/-- C49: starts satisfying the constraints of the approximate analysis (longest duration for all phases) also give a
valid strictly periodic schedule. -/
theorem C49_approximation_safe (hB : BaseOK B) {cs : List EvConstraint} (hcs : generateSP B true = some cs) (S : Event → ℚ) (Ω : ℚ)
    (H : ∀ c ∈ cs, Satisfies S Ω c) : ValidStarts B (strictStart S Ω) := by
  by_cases hT : B.tasks = []
  · exact (sp_empty hB hT true).2 _
  · obtain ⟨cs', h, -, h1, -⟩ := sp_spec hB true S ((sp_nonneg hB hcs (Or.inl H)).resolve_right hT)
    rw [hcs] at h; cases h
    exact h1 H

/-- Periods of the valid strictly periodic schedules. -/
def StrictPeriods (B : BaseGraph) : Set ℚ := {Ω | ∃ S, ValidStarts B (strictStart S Ω)}

theorem sp_attained (hB : BaseOK B) {useMax : Bool} {cs : List EvConstraint} (hcs : generateSP B useMax = some cs) {th : ℚ}
    {p : List EvConstraint} (hp : ExactRatio cs th p) : 1 / th ∈ StrictPeriods B := by
  obtain ⟨cs', h, hev, h1, -⟩ := sp_spec hB useMax (fun _ => 0) le_rfl
  rw [hcs] at h; cases h
  have hth := exact_th_pos hp
  have hno : NoPositiveCircuit cs (1 / th) := by
    intro u q hq
    have h1 := hp.best u q hq
    have h2 : (q.map fun c => c.d - 1 / th * c.w).sum = totalD q - 1 / th * totalW q := by
      unfold totalD totalW
      clear h1 hq
      induction q with
      | nil => simp
      | cons e p ih => simp only [List.map_cons, List.sum_cons]; rw [ih]; ring
    rw [h2]
    have h3 : 1 / th * (totalD q * th) ≤ 1 / th * totalW q := mul_le_mul_of_nonneg_left h1 (by positivity)
    have h4 : 1 / th * (totalD q * th) = totalD q := by field_simp
    linarith
  obtain ⟨-, a2, -⟩ := C21_starting_times _ cs (1 / th) hev
  have hfeas := a2.mpr hno
  cases useMax with
  | false => exact ⟨_, (C49_valid hB hcs _ _).mp hfeas⟩
  | true => exact ⟨_, C49_approximation_safe hB hcs _ _ hfeas⟩

/-- C49: the inverse of the exact minimum cycle ratio, which the analysis prints as the period, is the least period of
all valid strictly periodic schedules. -/
theorem C49_optimal (hB : BaseOK B) {cs : List EvConstraint} (hcs : generateSP B false = some cs) {th : ℚ}
    {p : List EvConstraint} (hp : ExactRatio cs th p) : IsLeast (StrictPeriods B) (1 / th) := by
  refine ⟨sp_attained hB hcs hp, ?_⟩
  rintro Ω ⟨S, hS⟩
  have hfe := (C49_valid hB hcs S Ω).mpr hS
  obtain ⟨u, hu⟩ := hp.circuit
  have h1 := noPositiveCircuit_of_feasible (cs := cs) (ω := Ω) (X := S) hfe u p hu
  have h2 : (p.map fun c => c.d - Ω * c.w).sum = totalD p - Ω * totalW p := by
    unfold totalD totalW
    clear h1 hu hp
    induction p with
    | nil => simp
    | cons e p ih => simp only [List.map_cons, List.sum_cons]; rw [ih]; ring
  rw [h2, ← hp.ratio] at h1
  have hth := exact_th_pos hp
  rw [div_le_iff₀ hth]
  have h3 : totalD p * 1 ≤ totalD p * (Ω * th) := by linarith
  exact le_of_mul_le_mul_left h3 hp.posD

/-- C49: the approximate analysis never reports a shorter period than the exact one. -/
theorem C49_approximation_above (hB : BaseOK B) {cs cs' : List EvConstraint} (hcs : generateSP B false = some cs)
    (hcs' : generateSP B true = some cs') {th th' : ℚ} {p p' : List EvConstraint} (hp : ExactRatio cs th p)
    (hp' : ExactRatio cs' th' p') : 1 / th ≤ 1 / th' ∧ th' ≤ th := by
  have h := (C49_optimal hB hcs hp).2 (sp_attained hB hcs' hp')
  refine ⟨h, ?_⟩
  have h1 := exact_th_pos hp
  have h2 := exact_th_pos hp'
  exact (one_div_le_one_div h1 h2).mp h

/-- C49: a strictly periodic schedule sustains its period, so both analyses report at best the optimal period of the
graph. -/
theorem C49_never_beats_optimum (hB : BaseOK B) {useMax : Bool} {cs : List EvConstraint} (hcs : generateSP B useMax = some cs) {th : ℚ}
    {p : List EvConstraint} (hp : ExactRatio cs th p) : 1 / th ∈ SustainablePeriods B := by
  obtain ⟨S, hS⟩ := sp_attained hB hcs hp
  refine sustainable_of_starts hB hS fun t _ => ⟨S ⟨t.id, 1, 1⟩, fun k => ?_⟩
  unfold strictStart
  have : (k : ℚ) * (1 / th / t.ni) = 1 / th * k / t.ni := by ring
  rw [this]
  linarith

end

/-! ### A concrete case -/

namespace StrictExample
/-- The constraints of the exact analysis for the graph of `KIterExample`. -/
def cs : List EvConstraint :=
  [⟨⟨0, 1, 1⟩, ⟨0, 1, 1⟩, 1/2, 3, 0⟩, ⟨⟨1, 1, 1⟩, ⟨1, 1, 1⟩, 1/3, 2, 1⟩, ⟨⟨0, 1, 1⟩, ⟨1, 1, 1⟩, 0, 1, 1⟩,
   ⟨⟨0, 1, 1⟩, ⟨1, 1, 1⟩, -1/6, 3, 1⟩, ⟨⟨1, 1, 1⟩, ⟨0, 1, 1⟩, 5/6, 2, 2⟩]

/-- The approximate analysis keeps only the longest phase of the first task. -/
def cs' : List EvConstraint :=
  [⟨⟨0, 1, 1⟩, ⟨0, 1, 1⟩, 1/2, 3, 0⟩, ⟨⟨1, 1, 1⟩, ⟨1, 1, 1⟩, 1/3, 2, 1⟩,
   ⟨⟨0, 1, 1⟩, ⟨1, 1, 1⟩, -1/6, 3, 1⟩, ⟨⟨1, 1, 1⟩, ⟨0, 1, 1⟩, 5/6, 2, 2⟩]

theorem gen : generateSP KIterExample.G false = some cs ∧ generateSP KIterExample.G true = some cs' := by decide +kernel

def crit : List EvConstraint := [⟨⟨0, 1, 1⟩, ⟨1, 1, 1⟩, -1/6, 3, 1⟩, ⟨⟨1, 1, 1⟩, ⟨0, 1, 1⟩, 5/6, 2, 2⟩]

/-- The circuit through both tasks has the ratio 2/15, proved best by the starts 0 and 17/4. -/
theorem exact : ExactRatio cs (2/15) crit := by
  have h : certified [(crit, fun e => if e.task = 0 then 0 else 17/4)] cs = some (2/15, crit) := by decide +kernel
  exact certified_exact _ _ _ _ h
end StrictExample

/-- C49 applies: the least strictly periodic period of the graph is 15/2, above its best period 7. -/
example : IsLeast (StrictPeriods KIterExample.G) (15/2) := by
  have := C49_optimal KIterExample.G_ok StrictExample.gen.1 StrictExample.exact
  norm_num at this
  exact this

end Kiter
