/-
C101: K-Iter's throughput reacts to edits of the graph as it should.
-/
import Verif.Spec.Compare
import Verif.Props.KIter
import Verif.Lemmas.ExactSolver

set_option autoImplicit false

namespace Kiter

theorem dur_le_of_forall {t t' : KTask} (h : List.Forall₂ (· ≤ ·) t'.durations t.durations) (k : ℕ) :
    t'.dur k ≤ t.dur k := by
  unfold KTask.dur
  rw [h.length_eq]
  generalize k % t.durations.length = j
  generalize t'.durations = a at *
  generalize t.durations = b at *
  induction h generalizing j with
  | nil => simp
  | cons h1 _ ih =>
    cases j with
    | zero => simpa using h1
    | succ j => simpa using ih j

/-- **C101** A schedule of a graph is a schedule of any graph that asks for less. -/
theorem C101_schedules {φ : Int → Int} {B B' : BaseGraph} (h : Eased φ B B') {σ : Int → ℕ → ℚ} (hσ : ValidGen B σ) :
    ValidGen B' (fun i => σ (φ i)) := by
  refine ⟨fun t' ht' k => ?_, fun t' ht' k => ?_, fun c' hc' => ?_⟩
  · obtain ⟨t, ht, e, -⟩ := h.tasks t' ht'
    have := hσ.nonneg t ht k
    rwa [e] at this
  · obtain ⟨t, ht, e, -, hd⟩ := h.tasks t' ht'
    have := hσ.noOverlap t ht k
    rw [e] at this
    have := dur_le_of_forall hd k
    linarith
  · obtain ⟨c, hc, e1, e2, hd, ei, eo, hp⟩ := h.channels c' hc'
    have H := hσ.channels c hc
    rw [ei, eo]
    intro x C hC
    obtain ⟨P, hP, hs⟩ := H x C (by rw [e2]; exact hC)
    refine ⟨P, fun k hk => ?_, by linarith⟩
    have := hP k hk
    rw [e1] at this
    have := dur_le_of_forall hd k
    linarith

/-- **C101** The periods of a graph are periods of any graph that asks for less. -/
theorem C101_periods {φ : Int → Int} {B B' : BaseGraph} (h : Eased φ B B') :
    SustainablePeriods B ⊆ SustainablePeriods B' := by
  rintro Ω ⟨σ, hσ, hs⟩
  refine ⟨_, C101_schedules h hσ, fun t' ht' => ?_⟩
  obtain ⟨t, ht, e, en, -⟩ := h.tasks t' ht'
  obtain ⟨C, hC⟩ := hs t ht
  exact ⟨C, fun k => by have := hC k; rwa [e, en] at this⟩

/-- A graph where K-Iter's two verdicts can be compared: an exact answer for every event graph met. -/
theorem kiter_compare {B B' : BaseGraph} (hB : BaseOK B) (hB' : BaseOK B')
    {solve solve' : List EvConstraint → Option (ℚ × List EvConstraint)}
    (hsolve : ExactFor B solve)
    (hsolve' : ExactFor B' solve') {fuel fuel' : ℕ} {r r' : KIterResult}
    (hr : kiter solve B fuel = some (some r)) (hr' : kiter solve' B' fuel' = some (some r')) {q : ℚ} (hq : 0 < q)
    (hsub : ∀ Ω ∈ SustainablePeriods B, q * Ω ∈ SustainablePeriods B') (hpos : 0 < r.throughput) :
    r.throughput / q ≤ r'.throughput := by
  have h1 := (C52_kiter_verdict hB solve hsolve fuel r hr).1 hpos
  have h2 := C52_kiter_verdict hB' solve' hsolve' fuel' r' hr'
  have hm := hsub _ h1.1.1
  by_cases hp : 0 < r'.throughput
  · have := (h2.1 hp).1.2 hm
    rw [div_le_iff₀ hp] at this
    rw [div_le_iff₀ hq]
    have e : q * (1 / r.throughput) * r'.throughput = q * r'.throughput / r.throughput := by ring
    rw [e, one_le_div hpos] at this
    linarith
  · obtain ⟨σ, hσ, -⟩ := hm
    exact absurd ⟨σ, hσ⟩ (h2.2 (not_lt.mp hp))

/-- **C101** K-Iter reports at least the throughput of a graph that asks for more: shortening phases, adding initial
tokens, removing channels or tasks never lowers it. -/
theorem C101_monotone {φ : Int → Int} {B B' : BaseGraph} (h : Eased φ B B') (hB : BaseOK B) (hB' : BaseOK B')
    {solve solve' : List EvConstraint → Option (ℚ × List EvConstraint)}
    (hsolve : ExactFor B solve)
    (hsolve' : ExactFor B' solve') {fuel fuel' : ℕ} {r r' : KIterResult}
    (hr : kiter solve B fuel = some (some r)) (hr' : kiter solve' B' fuel' = some (some r')) (hpos : 0 < r.throughput) :
    r.throughput ≤ r'.throughput := by
  have := kiter_compare hB hB' hsolve hsolve' hr hr' (q := 1) one_pos (fun Ω hΩ => by rw [one_mul]; exact C101_periods h hΩ) hpos
  simpa using this

/-- **C101** The order of the tasks and channels, their ids and the solver do not matter: the verdict (deadlock or not)
and the throughput are the same. -/
theorem C101_same {φ ψ : Int → Int} {B B' : BaseGraph} (h : Eased φ B B') (h' : Eased ψ B' B) (hB : BaseOK B) (hB' : BaseOK B')
    {solve solve' : List EvConstraint → Option (ℚ × List EvConstraint)}
    (hsolve : ExactFor B solve)
    (hsolve' : ExactFor B' solve') {fuel fuel' : ℕ} {r r' : KIterResult}
    (hr : kiter solve B fuel = some (some r)) (hr' : kiter solve' B' fuel' = some (some r')) :
    (0 < r.throughput ↔ 0 < r'.throughput) ∧ (0 < r.throughput → r'.throughput = r.throughput) := by
  have a := C101_monotone h hB hB' hsolve hsolve' hr hr'
  have b := C101_monotone h' hB' hB hsolve' hsolve hr' hr
  refine ⟨⟨fun h => h.trans_le (a h), fun h => h.trans_le (b h)⟩, fun h => le_antisymm (b (h.trans_le (a h))) (a h)⟩

/-! ### Slower tasks -/

theorem slowed_dur (t : KTask) (q : ℚ) (k : ℕ) :
    KTask.dur { t with durations := t.durations.map (q * ·) } k = q * t.dur k := by
  unfold KTask.dur
  simp only [List.length_map, List.getD_eq_getElem?_getD, List.getElem?_map]
  cases t.durations[k % t.durations.length]? <;> simp

theorem slowed_periods {B : BaseGraph} {q : ℚ} (hq : 0 < q) :
    ∀ Ω ∈ SustainablePeriods B, q * Ω ∈ SustainablePeriods (B.slowed q) := by
  rintro Ω ⟨σ, hσ, hs⟩
  refine ⟨fun i k => q * σ i k, ⟨?_, ?_, ?_⟩, ?_⟩
  · intro t ht k
    obtain ⟨s, hs', rfl⟩ := List.mem_map.mp ht
    exact mul_nonneg hq.le (hσ.nonneg s hs' k)
  · intro t ht k
    obtain ⟨s, hs', rfl⟩ := List.mem_map.mp ht
    rw [slowed_dur]
    have := mul_le_mul_of_nonneg_left (hσ.noOverlap s hs' k) hq.le
    simpa only [mul_add] using this
  · intro c hc
    obtain ⟨d, hd, rfl⟩ := List.mem_map.mp hc
    intro x C hC
    obtain ⟨P, hP, hsum⟩ := hσ.channels d hd (x / q) C (fun l hl => by
      rw [le_div_iff₀ hq, mul_comm]; exact hC l hl)
    refine ⟨P, fun k hk => ?_, hsum⟩
    have := hP k hk
    rw [le_div_iff₀ hq] at this
    simp only [slowed_dur]
    linarith
  · intro t ht
    obtain ⟨s, hs', rfl⟩ := List.mem_map.mp ht
    obtain ⟨C, hC⟩ := hs s hs'
    refine ⟨q * C, fun k => ?_⟩
    have := mul_le_mul_of_nonneg_left (hC k) hq.le
    calc q * σ s.id k ≤ q * (Ω * k / s.ni + C) := this
      _ = q * Ω * k / s.ni + q * C := by ring

theorem slowed_slowed (B : BaseGraph) {q : ℚ} (hq : 0 < q) : (B.slowed q).slowed (1 / q) = B := by
  have e : ∀ t : KTask, ({ t with durations := (t.durations.map (q * ·)).map (1 / q * ·) } : KTask) = t := by
    intro t
    have : t.durations.map ((fun x => 1 / q * x) ∘ fun x => q * x) = t.durations := by
      conv_rhs => rw [← List.map_id t.durations]
      apply List.map_congr_left
      intro x _
      simp only [Function.comp, id]
      field_simp
    rw [List.map_map, this]
  unfold BaseGraph.slowed
  simp only [List.map_map]
  have e1 : B.tasks.map ((fun t : KTask => ({ t with durations := t.durations.map (1 / q * ·) } : KTask)) ∘
      fun t => { t with durations := t.durations.map (q * ·) }) = B.tasks := by
    conv_rhs => rw [← List.map_id B.tasks]
    exact List.map_congr_left fun t _ => e t
  rw [e1]
  have e2 : B.channels.map ((fun c : BChannel => (c.1, ({ c.2.1 with durations := c.2.1.durations.map (1 / q * ·) } : KTask),
        ({ c.2.2 with durations := c.2.2.durations.map (1 / q * ·) } : KTask))) ∘
      fun c => (c.1, { c.2.1 with durations := c.2.1.durations.map (q * ·) }, { c.2.2 with durations := c.2.2.durations.map (q * ·) }))
      = B.channels := by
    conv_rhs => rw [← List.map_id B.channels]
    refine List.map_congr_left fun c _ => ?_
    simp only [Function.comp, id]
    rw [e, e]
  rw [e2]

theorem slowed_ok {B : BaseGraph} (hB : BaseOK B) {q : ℚ} (hq : 0 < q) : BaseOK (B.slowed q) := by
  refine ⟨?_, ?_, ?_, ?_, ?_⟩
  · intro s hs t ht e
    obtain ⟨s, hs', rfl⟩ := List.mem_map.mp hs
    obtain ⟨t, ht', rfl⟩ := List.mem_map.mp ht
    rw [hB.ids s hs' t ht' e]
  · intro t ht
    obtain ⟨t, ht', rfl⟩ := List.mem_map.mp ht
    have h := hB.tasks t ht'
    refine ⟨by simpa using h.phases, h.noInit, ?_, h.reentrancy, h.ni, h.k⟩
    intro d hd
    obtain ⟨x, hx, rfl⟩ := List.mem_map.mp hd
    exact mul_nonneg hq.le (h.durNonneg x hx)
  · intro t ht
    obtain ⟨t, ht', rfl⟩ := List.mem_map.mp ht
    simpa using hB.multiple t ht'
  · intro c hc
    obtain ⟨c, hc', rfl⟩ := List.mem_map.mp hc
    obtain ⟨h1, h2, h3⟩ := hB.channels c hc'
    refine ⟨List.mem_map_of_mem h1, List.mem_map_of_mem h2, h3.noInInit, h3.noOutInit, by simpa using h3.srcPhases,
      by simpa using h3.dstPhases, h3.inNonneg, h3.outNonneg, h3.inPos, h3.outPos, h3.gcdPos, h3.gcdIn, h3.gcdOut, h3.preload, ?_⟩
    simpa using h3.balance
  · intro c hc e he h
    obtain ⟨c, hc', rfl⟩ := List.mem_map.mp hc
    obtain ⟨e, he', rfl⟩ := List.mem_map.mp he
    rw [hB.channelIds c hc' e he' h]

/-- **C101** When every phase lasts `q` times as long, the verdict is the same and the throughput is divided by `q`
(in particular the unit of time does not matter). -/
theorem C101_time {B : BaseGraph} (hB : BaseOK B) {q : ℚ} (hq : 0 < q)
    {solve solve' : List EvConstraint → Option (ℚ × List EvConstraint)}
    (hsolve : ExactFor B solve)
    (hsolve' : ExactFor (B.slowed q) solve') {fuel fuel' : ℕ} {r r' : KIterResult}
    (hr : kiter solve B fuel = some (some r)) (hr' : kiter solve' (B.slowed q) fuel' = some (some r')) :
    (0 < r.throughput ↔ 0 < r'.throughput) ∧ (0 < r.throughput → r'.throughput = r.throughput / q) := by
  have hB' := slowed_ok hB hq
  have a := kiter_compare hB hB' hsolve hsolve' hr hr' hq (slowed_periods hq)
  have b := kiter_compare hB' hB hsolve' hsolve hr' hr (one_div_pos.mpr hq) (fun Ω hΩ => by
    have := slowed_periods (B := B.slowed q) (one_div_pos.mpr hq) Ω hΩ
    rwa [slowed_slowed B hq] at this)
  have b' : 0 < r'.throughput → r'.throughput * q ≤ r.throughput := fun h => by
    have := b h
    rwa [div_div_eq_mul_div, div_one] at this
  refine ⟨⟨fun h => (div_pos h hq).trans_le (a h), fun h => (mul_pos h hq).trans_le (b' h)⟩, fun h => ?_⟩
  have h1 := a h
  refine le_antisymm ?_ h1
  rw [le_div_iff₀ hq]
  exact b' ((div_pos h hq).trans_le h1)

/-! ### Units of the tokens and useless tokens -/

theorem rate_finer (l : List Int) (m : Int) (k : ℕ) : rate (l.map (m * ·)) k = m * rate l k := by
  unfold rate
  simp only [List.length_map, List.getD_eq_getElem?_getD, List.getElem?_map]
  cases l[k % l.length]? <;> simp

theorem finer_neverShort {c : KChannel} {m : Int → Int} (hm : 0 < m c.id) {e t : ℕ → ℚ} :
    NeverShort (rate (c.finer m).inPhases) (rate (c.finer m).outPhases) (c.finer m).preload e t ↔
      NeverShort (rate c.inPhases) (rate c.outPhases) c.preload e t := by
  have key : ∀ (C P : Finset ℕ), ∑ l ∈ C, rate (c.finer m).outPhases l ≤ (c.finer m).preload + ∑ k ∈ P, rate (c.finer m).inPhases k ↔
      ∑ l ∈ C, rate c.outPhases l ≤ c.preload + ∑ k ∈ P, rate c.inPhases k := by
    intro C P
    have e1 : ∑ l ∈ C, rate (c.finer m).outPhases l = m c.id * ∑ l ∈ C, rate c.outPhases l := by
      rw [Finset.mul_sum]; exact Finset.sum_congr rfl fun l _ => rate_finer _ _ _
    have e2 : ∑ l ∈ P, rate (c.finer m).inPhases l = m c.id * ∑ l ∈ P, rate c.inPhases l := by
      rw [Finset.mul_sum]; exact Finset.sum_congr rfl fun l _ => rate_finer _ _ _
    rw [e1, e2, show (c.finer m).preload = m c.id * c.preload from rfl, ← mul_add, mul_le_mul_iff_right₀ hm]
  unfold NeverShort
  simp only [key]

theorem rate_granular {l : List Int} {g : Int} (h : ∀ r ∈ l, g ∣ r) (k : ℕ) : g ∣ rate l k := by
  unfold rate
  rw [List.getD_eq_getElem?_getD]
  cases h' : l[k % l.length]? with
  | none => simp
  | some x => exact h x (List.mem_of_getElem? h')

theorem rounded_neverShort {c : KChannel} (hg : 0 < c.fineGCD) (hin : ∀ r ∈ c.inPhases, c.fineGCD ∣ r)
    (hout : ∀ r ∈ c.outPhases, c.fineGCD ∣ r) {e t : ℕ → ℚ} :
    NeverShort (rate c.rounded.inPhases) (rate c.rounded.outPhases) c.rounded.preload e t ↔
      NeverShort (rate c.inPhases) (rate c.outPhases) c.preload e t := by
  have key : ∀ (C P : Finset ℕ), ∑ l ∈ C, rate c.outPhases l ≤ c.fineGCD * (c.preload / c.fineGCD) + ∑ k ∈ P, rate c.inPhases k ↔
      ∑ l ∈ C, rate c.outPhases l ≤ c.preload + ∑ k ∈ P, rate c.inPhases k := by
    intro C P
    obtain ⟨a, ha⟩ := Finset.dvd_sum (s := C) fun l _ => rate_granular hout l
    obtain ⟨b, hb⟩ := Finset.dvd_sum (s := P) fun l _ => rate_granular hin l
    rw [ha, hb]
    have h1 := Int.mul_ediv_add_emod c.preload c.fineGCD
    have h2 := Int.emod_lt_of_pos c.preload hg
    have h3 := Int.emod_nonneg c.preload hg.ne'
    constructor
    · intro h; linarith
    · intro h
      have h4 : c.fineGCD * (a - b) < c.fineGCD * (c.preload / c.fineGCD + 1) := by linarith
      have h5 : a - b ≤ c.preload / c.fineGCD := by
        have := lt_of_mul_lt_mul_left h4 hg.le; linarith
      have := mul_le_mul_of_nonneg_left h5 hg.le
      linarith
  unfold NeverShort
  simp only [KChannel.rounded, key]

theorem mapped_periods {B : BaseGraph} {f : KChannel → KChannel}
    (hf : ∀ c ∈ B.channels, ∀ e t : ℕ → ℚ, NeverShort (rate (f c.1).inPhases) (rate (f c.1).outPhases) (f c.1).preload e t ↔
      NeverShort (rate c.1.inPhases) (rate c.1.outPhases) c.1.preload e t) :
    SustainablePeriods (B.mapChannels f) = SustainablePeriods B := by
  have key : ∀ σ, ValidGen (B.mapChannels f) σ ↔ ValidGen B σ := by
    intro σ
    constructor
    · intro h
      refine ⟨h.nonneg, h.noOverlap, fun c hc => ?_⟩
      exact (hf c hc _ _).mp (h.channels _ (List.mem_map_of_mem hc))
    · intro h
      refine ⟨h.nonneg, h.noOverlap, fun c hc => ?_⟩
      obtain ⟨d, hd, rfl⟩ := List.mem_map.mp hc
      exact (hf d hd _ _).mpr (h.channels d hd)
  ext Ω
  unfold SustainablePeriods
  simp only [Set.mem_setOf_eq, key]
  rfl

theorem kiter_same {B B' : BaseGraph} (hB : BaseOK B) (hB' : BaseOK B')
    {solve solve' : List EvConstraint → Option (ℚ × List EvConstraint)}
    (hsolve : ExactFor B solve)
    (hsolve' : ExactFor B' solve') {fuel fuel' : ℕ} {r r' : KIterResult}
    (hr : kiter solve B fuel = some (some r)) (hr' : kiter solve' B' fuel' = some (some r'))
    (h : SustainablePeriods B' = SustainablePeriods B) :
    (0 < r.throughput ↔ 0 < r'.throughput) ∧ (0 < r.throughput → r'.throughput = r.throughput) := by
  have a := kiter_compare hB hB' hsolve hsolve' hr hr' (q := 1) one_pos (fun Ω hΩ => by rw [one_mul, h]; exact hΩ)
  have b := kiter_compare hB' hB hsolve' hsolve hr' hr (q := 1) one_pos (fun Ω hΩ => by rw [one_mul, ← h]; exact hΩ)
  simp only [div_one] at a b
  exact ⟨⟨fun h => h.trans_le (a h), fun h => h.trans_le (b h)⟩, fun h => le_antisymm (b (h.trans_le (a h))) (a h)⟩

theorem sum_finer (l : List Int) (m : Int) : (l.map (m * ·)).sum = m * l.sum := by
  induction l with
  | nil => simp
  | cons a l ih => simp only [List.map_cons, List.sum_cons, ih]; ring

theorem finer_ok {B : BaseGraph} (hB : BaseOK B) {m : Int → Int} (hm : ∀ c ∈ B.channels, 0 < m c.1.id) :
    BaseOK (B.mapChannels (KChannel.finer m)) := by
  refine ⟨hB.ids, hB.tasks, hB.multiple, ?_, ?_⟩
  · intro c hc
    obtain ⟨c, hc', rfl⟩ := List.mem_map.mp hc
    have hm := hm c hc'
    obtain ⟨h1, h2, h3⟩ := hB.channels c hc'
    have nn : ∀ l : List Int, (∀ r ∈ l, 0 ≤ r) → ∀ r ∈ l.map (m c.1.id * ·), 0 ≤ r := by
      intro l hl r hr
      obtain ⟨x, hx, rfl⟩ := List.mem_map.mp hr
      exact mul_nonneg hm.le (hl x hx)
    have dv : ∀ l : List Int, (∀ r ∈ l, c.1.fineGCD ∣ r) → ∀ r ∈ l.map (m c.1.id * ·), m c.1.id * c.1.fineGCD ∣ r := by
      intro l hl r hr
      obtain ⟨x, hx, rfl⟩ := List.mem_map.mp hr
      exact mul_dvd_mul_left _ (hl x hx)
    refine ⟨h1, h2, h3.noInInit, h3.noOutInit, ?_, ?_, nn _ h3.inNonneg, nn _ h3.outNonneg, ?_, ?_, mul_pos hm h3.gcdPos,
      dv _ h3.gcdIn, dv _ h3.gcdOut, mul_nonneg hm.le h3.preload, ?_⟩
    · simpa [KChannel.finer] using h3.srcPhases
    · simpa [KChannel.finer] using h3.dstPhases
    · simp only [KChannel.finer, sum_finer]; exact mul_pos hm h3.inPos
    · simp only [KChannel.finer, sum_finer]; exact mul_pos hm h3.outPos
    · simp only [KChannel.finer, sum_finer]
      have := h3.balance
      linear_combination m c.1.id * this
  · intro c hc e he h
    obtain ⟨c, hc', rfl⟩ := List.mem_map.mp hc
    obtain ⟨e, he', rfl⟩ := List.mem_map.mp he
    rw [hB.channelIds c hc' e he' h]

theorem rounded_ok {B : BaseGraph} (hB : BaseOK B) : BaseOK (B.mapChannels KChannel.rounded) := by
  refine ⟨hB.ids, hB.tasks, hB.multiple, ?_, ?_⟩
  · intro c hc
    obtain ⟨c, hc', rfl⟩ := List.mem_map.mp hc
    obtain ⟨h1, h2, h3⟩ := hB.channels c hc'
    exact ⟨h1, h2, h3.noInInit, h3.noOutInit, h3.srcPhases, h3.dstPhases, h3.inNonneg, h3.outNonneg, h3.inPos, h3.outPos,
      h3.gcdPos, h3.gcdIn, h3.gcdOut, mul_nonneg h3.gcdPos.le (Int.ediv_nonneg h3.preload h3.gcdPos.le), h3.balance⟩
  · intro c hc e he h
    obtain ⟨c, hc', rfl⟩ := List.mem_map.mp hc
    obtain ⟨e, he', rfl⟩ := List.mem_map.mp he
    rw [hB.channelIds c hc' e he' h]

/-- **C101** The unit in which the tokens of a channel are counted does not matter. -/
theorem C101_token_unit {B : BaseGraph} (hB : BaseOK B) {m : Int → Int} (hm : ∀ c ∈ B.channels, 0 < m c.1.id)
    {solve solve' : List EvConstraint → Option (ℚ × List EvConstraint)}
    (hsolve : ExactFor B solve)
    (hsolve' : ExactFor (B.mapChannels (KChannel.finer m)) solve') {fuel fuel' : ℕ} {r r' : KIterResult}
    (hr : kiter solve B fuel = some (some r))
    (hr' : kiter solve' (B.mapChannels (KChannel.finer m)) fuel' = some (some r')) :
    (0 < r.throughput ↔ 0 < r'.throughput) ∧ (0 < r.throughput → r'.throughput = r.throughput) :=
  kiter_same hB (finer_ok hB hm) hsolve hsolve' hr hr' (mapped_periods fun c hc _ _ => finer_neverShort (hm c hc))

/-- **C101** Initial tokens that do not make up a multiple of the granularity of the rates do not matter. -/
theorem C101_useless_tokens {B : BaseGraph} (hB : BaseOK B)
    {solve solve' : List EvConstraint → Option (ℚ × List EvConstraint)}
    (hsolve : ExactFor B solve)
    (hsolve' : ExactFor (B.mapChannels KChannel.rounded) solve') {fuel fuel' : ℕ} {r r' : KIterResult}
    (hr : kiter solve B fuel = some (some r))
    (hr' : kiter solve' (B.mapChannels KChannel.rounded) fuel' = some (some r')) :
    (0 < r.throughput ↔ 0 < r'.throughput) ∧ (0 < r.throughput → r'.throughput = r.throughput) :=
  kiter_same hB (rounded_ok hB) hsolve hsolve' hr hr' (mapped_periods fun c hc _ _ =>
    let h := (hB.channels c hc).2.2; rounded_neverShort h.gcdPos h.gcdIn h.gcdOut)

/-! ### Concrete graphs -/

/-- An exact solver: exhaustive search, for positive durations. -/
theorem exhaustive_exactFor {B : BaseGraph} (hB : BaseOK B) (hpos : ∀ t ∈ B.tasks, ∀ d ∈ t.durations, 0 < d) :
    ExactFor B exhaustive := fun _ _ th p hK hcs h => (exhaustive_event hB hpos hK hcs).1 th p h

namespace CompareExample
def X (i : Int) (d : ℚ) : KTask := ⟨i, [d], [], 1, 2⟩
def Y (i : Int) (d : ℚ) : KTask := ⟨i, [d], [], 1, 1⟩
def xy (i : Int) : KChannel := ⟨i, [2], [4], [], [], 0, 2⟩
def yx (i p : Int) : KChannel := ⟨i, [2], [1], [], [], p, 1⟩
/-- A task executed twice per iteration and another one, in a circuit with two tokens. -/
def G1 : BaseGraph := ⟨[X 1 3, Y 2 4], [(xy 1, X 1 3, Y 2 4), (yx 2 2, Y 2 4, X 1 3)]⟩
/-- The same with other ids, in another order, a faster task and one more token. -/
def G2 : BaseGraph := ⟨[Y 0 4, X 7 2], [(yx 1 3, Y 0 4, X 7 2), (xy 2, X 7 2, Y 0 4)]⟩
/-- The first graph with a token too many in the channel whose rates are even. -/
def G3 : BaseGraph := ⟨[X 1 3, Y 2 4], [({ xy 1 with preload := 1 }, X 1 3, Y 2 4), (yx 2 2, Y 2 4, X 1 3)]⟩

theorem X_ok {i : Int} {d : ℚ} (hd : 0 ≤ d) : TaskOK (X i d) 1 := ⟨by simp [X], rfl, by simpa [X] using hd, by simp [X], by simp [X], by decide⟩
theorem Y_ok {i : Int} {d : ℚ} (hd : 0 ≤ d) : TaskOK (Y i d) 1 := ⟨by simp [Y], rfl, by simpa [Y] using hd, by simp [Y], by simp [Y], by decide⟩
theorem xy_ok {i j k p : Int} {d d' : ℚ} (hp : 0 ≤ p) : ChannelOK { xy i with preload := p } (X j d) (Y k d') :=
  ⟨rfl, rfl, rfl, rfl, by simp [xy], by simp [xy], by simp [xy], by simp [xy], by simp [xy], by simp [xy], by simp [xy], hp, by simp [xy, X, Y]⟩
theorem yx_ok {i j k p : Int} {d d' : ℚ} (hp : 0 ≤ p) : ChannelOK (yx i p) (Y j d) (X k d') :=
  ⟨rfl, rfl, rfl, rfl, by simp [yx], by simp [yx], by simp [yx], by simp [yx], by simp [yx], by simp [yx], by simp [yx], hp, by simp [yx, X, Y]⟩

theorem G1_ok : BaseOK G1 := by
  refine ⟨by simp [G1, X, Y], ?_, by simp [G1, X, Y], ?_, by simp [G1, xy, yx]⟩
  · simp only [G1, List.mem_cons, List.not_mem_nil, or_false, forall_eq_or_imp, forall_eq]
    exact ⟨X_ok (by norm_num), Y_ok (by norm_num)⟩
  · simp only [G1, List.mem_cons, List.not_mem_nil, or_false, forall_eq_or_imp, forall_eq]
    exact ⟨⟨by simp, by simp, xy_ok (p := 0) le_rfl⟩, by simp, by simp, yx_ok (by norm_num)⟩

theorem G2_ok : BaseOK G2 := by
  refine ⟨by simp [G2, X, Y], ?_, by simp [G2, X, Y], ?_, by simp [G2, xy, yx]⟩
  · simp only [G2, List.mem_cons, List.not_mem_nil, or_false, forall_eq_or_imp, forall_eq]
    exact ⟨Y_ok (by norm_num), X_ok (by norm_num)⟩
  · simp only [G2, List.mem_cons, List.not_mem_nil, or_false, forall_eq_or_imp, forall_eq]
    exact ⟨⟨by simp, by simp, yx_ok (by norm_num)⟩, by simp, by simp, xy_ok (p := 0) le_rfl⟩

theorem G3_ok : BaseOK G3 := by
  refine ⟨by simp [G3, X, Y], ?_, by simp [G3, X, Y], ?_, by simp [G3, xy, yx]⟩
  · simp only [G3, List.mem_cons, List.not_mem_nil, or_false, forall_eq_or_imp, forall_eq]
    exact ⟨X_ok (by norm_num), Y_ok (by norm_num)⟩
  · simp only [G3, List.mem_cons, List.not_mem_nil, or_false, forall_eq_or_imp, forall_eq]
    exact ⟨⟨by simp, by simp, xy_ok (p := 1) (by norm_num)⟩, by simp, by simp, yx_ok (by norm_num)⟩

theorem eased : Eased (fun i => if i = 7 then 1 else 2) G1 G2 := by
  constructor
  · simp only [G1, G2, List.mem_cons, List.not_mem_nil, or_false, forall_eq_or_imp, forall_eq, exists_eq_or_imp, exists_eq_left]
    exact ⟨.inr ⟨by decide, by decide, by simp [Y]⟩, .inl ⟨by decide, by decide, by simp [X]; norm_num⟩⟩
  · simp only [G1, G2, List.mem_cons, List.not_mem_nil, or_false, forall_eq_or_imp, forall_eq, exists_eq_or_imp, exists_eq_left]
    exact ⟨.inr ⟨by decide, by decide, by simp [Y], by decide, by decide, by decide⟩,
      .inl ⟨by decide, by decide, by simp [X]; norm_num, by decide, by decide, by decide⟩⟩

/-- The runs: the throughput rises from 1/10 to 1/6 with the easier graph, falls to 1/15 when time is stretched by 3/2,
and stays when tokens are counted in thirds or a useless one is added or removed. -/
theorem runs : [G1, G2, G1.slowed (3 / 2), G1.mapChannels (KChannel.finer fun i => 1 + i), G3, G3.mapChannels KChannel.rounded].map
      (fun G => (kiter exhaustive G 10).map fun o => o.map fun r => r.throughput) =
    [some (some (1 / 10)), some (some (1 / 6)), some (some (1 / 15)), some (some (1 / 10)), some (some (1 / 10)),
      some (some (1 / 10))] := by decide +kernel

/-- The hypotheses of C101 are met by these graphs. -/
example : ExactFor G1 exhaustive ∧ ExactFor G2 exhaustive ∧ ExactFor G3 exhaustive ∧ ExactFor (G1.slowed (3 / 2)) exhaustive ∧
    ExactFor (G1.mapChannels (KChannel.finer fun i => 1 + i)) exhaustive :=
  ⟨exhaustive_exactFor G1_ok (by decide +kernel), exhaustive_exactFor G2_ok (by decide +kernel),
    exhaustive_exactFor G3_ok (by decide +kernel), exhaustive_exactFor (slowed_ok G1_ok (by norm_num)) (by decide +kernel),
    exhaustive_exactFor (finer_ok G1_ok (by decide)) (by decide +kernel)⟩
end CompareExample

end Kiter
