/-
C77 and C78: buffer sizes for schedules with given offsets, and the offset generators.
-/
import Verif.Lemmas.FixedOffsets
import Verif.Props.PeriodicSizing

set_option autoImplicit false

namespace Kiter
open Finset

/-! ### Sizing for given offsets -/

theorem fixed_startOf (o : Int → List ℚ) (t : KTask) (v : LPVar → ℚ) (a : ℕ) :
    startOf (fixedStarts o) v t.id a = v (.start t.id 0) + (o t.id).getD a 0 := by
  unfold startOf fixedStarts
  dsimp only
  rw [if_neg (by omega), Nat.add_sub_cancel, List.getD_eq_getElem?_getD]

theorem fixedRows_spec {B : BaseGraph} (hB : BaseOK B) {Ω : ℚ} (hΩ : 0 < Ω) {o : Int → List ℚ}
    (ho : ∀ t ∈ B.tasks, (o t.id).length = t.durations.length) :
    ∃ rows, fixedRows B o Ω = some rows ∧ ∀ v, Holds v rows ↔
      ∀ i (hi : i < B.channels.length), ∃ mop, cFloor B.channels[i].1.preload B.channels[i].1.fineGCD = some mop ∧
        ∀ a < B.channels[i].2.1.durations.length, ∀ b < B.channels[i].2.2.durations.length,
          SizePair ⟨fixedStarts o, i, B.channels[i], Ω, mop, stepOf B.channels[i].1⟩ v a b := by
  have hoff : ∀ t ∈ B.tasks, ∀ m < t.durations.length, ∃ x, (fixedStarts o).off t.id (m + 1) = some x := by
    intro t ht m hm
    unfold fixedStarts
    dsimp only
    rw [if_neg (by omega), Nat.add_sub_cancel, List.getElem?_eq_getElem (by rw [ho t ht]; exact hm)]
    exact ⟨_, rfl⟩
  obtain ⟨a, ha, sa⟩ := allEdgeRows_spec (st := fixedStarts o) (Ω := Ω) B.channels 0 (fun e he => by
    obtain ⟨hs, ht, hok⟩ := hB.channels e he
    exact ⟨hok, (hB.tasks _ hs).ni, (hB.tasks _ ht).ni, hoff _ hs, hoff _ ht⟩)
  refine ⟨a, ?_, fun v => ?_⟩
  · unfold fixedRows; rw [if_neg (not_le.2 hΩ), ha]
  · rw [sa]; simp only [zero_add]

/-- **C77** For offsets that keep the executions of each task apart, whatever solution the solver returns, the sizes of the
buffers computed from it are large enough for the periodic schedule with these offsets. -/
theorem C77_sizes_suffice {B : BaseGraph} (hB : BaseOK B) {Ω : ℚ} (hΩ : 0 < Ω) {o : Int → List ℚ}
    (ho : ∀ t ∈ B.tasks, OffsetsFit t Ω (o t.id)) {rows : List LPRow} (hrows : fixedRows B o Ω = some rows) {ilp : Bool}
    {v : LPVar → ℚ} (hv : LPFeasible rows ilp v) :
    ∃ sizes, bufferSizes ilp v 0 B.channels = some sizes ∧ sizes.length = B.channels.length ∧
      ∃ σ, BoundedSchedule B (fun i => sizes.getD i 0) σ ∧ WithOffsets B o Ω σ := by
  obtain ⟨rows', h', hspec⟩ := fixedRows_spec hB hΩ (fun t ht => (ho t ht).length)
  rw [hrows] at h'; cases h'
  have hst : ∀ t ∈ B.tasks, ∀ a < t.durations.length, startOf (fixedStarts o) v t.id a = v (.start t.id 0) + (o t.id).getD a 0 :=
    fun t _ a _ => fixed_startOf o t v a
  obtain ⟨sizes, e1, e2, e3⟩ := sizes_sound hB hΩ.le (st := fixedStarts o) (readMo_nonneg hv) (readLoc_le hv) ((hspec v).1 hv.rows)
    (fun t ht a ha => by rw [hst t ht a ha]; exact add_nonneg (hv.start _ _) ((ho t ht).nonneg a ha))
    (fun t ht => by
      have hP := (hB.tasks t ht).phases
      refine ⟨fun a ha => ?_, ?_⟩
      · rw [hst t ht a (by omega), hst t ht _ ha]
        have := (ho t ht).chain a ha; linarith
      · rw [hst t ht _ (by omega), hst t ht 0 hP]
        have := (ho t ht).wrap; linarith)
  exact ⟨sizes, e1, e2, _, e3, periodicSched_periodic hB _ _, fun t ht => ⟨_, hv.start t.id 0, fun a ha => by
    rw [periodicSched_first hB ht _ _ ha, hst t ht a ha]⟩⟩

/-- The assignment of a schedule with offsets. -/
theorem fixed_assign {B : BaseGraph} (hB : BaseOK B) {Ω : ℚ} (hΩ : 0 < Ω) {o : Int → List ℚ}
    (ho : ∀ t ∈ B.tasks, (o t.id).length = t.durations.length) {rows : List LPRow} (hrows : fixedRows B o Ω = some rows)
    {σ : Int → ℕ → ℚ} (hσ : ValidGen B σ) (hper : WithOffsets B o Ω σ) {F : ℕ → Int} (hF : ∀ i, 0 ≤ F i)
    (hroom : ∀ i (hi : i < B.channels.length), ∀ a < B.channels[i].2.1.durations.length, ∀ b < B.channels[i].2.2.durations.length,
      0 < min (rate B.channels[i].1.inPhases a) (rate B.channels[i].1.outPhases b) →
      cum (rate B.channels[i].1.inPhases) (a + 1) - cum (rate B.channels[i].1.outPhases) b - stepOf B.channels[i].1 ≤
        stepOf B.channels[i].1 * locOf B σ Ω i (a + 1) (b + 1) + F i) (ilp : Bool) :
    ∃ v, LPFeasible rows ilp v ∧ ∀ i, v (.mo i) = F i := by
  obtain ⟨rows', h', hspec⟩ := fixedRows_spec hB hΩ ho
  rw [hrows] at h'; cases h'
  obtain ⟨hp, hx⟩ := hper
  have hx' : ∀ id, ∃ x, 0 ≤ x ∧ ∀ t ∈ B.tasks, t.id = id → ∀ a < t.durations.length, σ t.id a = x + (o t.id).getD a 0 := by
    intro id
    by_cases h : ∃ t ∈ B.tasks, t.id = id
    · obtain ⟨t, ht, rfl⟩ := h
      obtain ⟨x, h1, h2⟩ := hx t ht
      refine ⟨x, h1, fun s hs hid => ?_⟩
      have := hB.ids s hs t ht hid
      subst this; exact h2
    · exact ⟨0, le_rfl, fun t ht hid => absurd ⟨t, ht, hid⟩ h⟩
  choose x hx0 hx1 using hx'
  refine ⟨fun y => match y with | .start t _ => x t | .mo i => F i | .loc i a b => locOf B σ Ω i a b, ⟨(hspec _).2 ?_,
    fun t a => hx0 t, fun i => ?_, fun _ i => ⟨F i, rfl⟩, fun _ i a b => ⟨_, rfl⟩⟩, fun _ => rfl⟩
  · refine assign_pairs hB hΩ hσ hp (fun t ht a ha => ?_) (fun _ => rfl) (fun _ _ _ => rfl) hroom
    rw [fixed_startOf o t _ a]
    exact (hx1 t.id t ht rfl a ha).symm
  · show (0 : ℚ) ≤ (F i : ℚ); exact_mod_cast hF i

/-- **C77, feasibility** The program has a solution exactly when a valid schedule with these offsets exists. -/
theorem C77_feasible_iff {B : BaseGraph} (hB : BaseOK B) {Ω : ℚ} (hΩ : 0 < Ω) {o : Int → List ℚ}
    (ho : ∀ t ∈ B.tasks, OffsetsFit t Ω (o t.id)) (ilp : Bool) :
    ∃ rows, fixedRows B o Ω = some rows ∧ ((∃ v, LPFeasible rows ilp v) ↔ ∃ σ, ValidGen B σ ∧ WithOffsets B o Ω σ) := by
  obtain ⟨rows, hrows, -⟩ := fixedRows_spec hB hΩ (fun t ht => (ho t ht).length)
  refine ⟨rows, hrows, ?_, ?_⟩
  · rintro ⟨v, hv⟩
    obtain ⟨sizes, -, -, σ, h1, h2⟩ := C77_sizes_suffice hB hΩ ho hrows hv
    exact ⟨σ, h1.valid, h2⟩
  · rintro ⟨σ, h1, h2⟩
    obtain ⟨F, hF, hroom⟩ := exists_spaces B σ Ω
    obtain ⟨v, hv, -⟩ := fixed_assign hB hΩ (fun t ht => (ho t ht).length) hrows h1 h2 hF hroom ilp
    exact ⟨v, hv⟩

/-- **C77, optimality** From an optimal integer solution the function reports the least total memory of a schedule with these
offsets, with the sizes of the single buffers; from the absence of a solution it reports an invalid result. -/
theorem C77_least_memory {B : BaseGraph} (hB : BaseOK B) {Ω : ℚ} (hΩ : 0 < Ω) {o : Int → List ℚ}
    (ho : ∀ t ∈ B.tasks, OffsetsFit t Ω (o t.id)) {rows : List LPRow} (hrows : fixedRows B o Ω = some rows)
    {tokenSizes : List Int} (hts : tokenSizes.length = B.channels.length) {sol : Option (LPVar → ℚ)}
    (hsol : SolverAnswer B tokenSizes rows true sol) :
    ∃ r, fixedResult B tokenSizes true false sol = some r ∧
      (r.valid = true ↔ ∃ σ, ValidGen B σ ∧ WithOffsets B o Ω σ) ∧
      (r.valid = true → (∃ σ, BoundedSchedule B (fun i => r.sizes.getD i 0) σ ∧ WithOffsets B o Ω σ) ∧
        r.total = memory B tokenSizes (fun i => r.sizes.getD i 0) ∧
        IsLeast {M | ∃ w σ, BoundedSchedule B w σ ∧ WithOffsets B o Ω σ ∧ M = memory B tokenSizes w} r.total) := by
  obtain ⟨rows', h', hspec⟩ := fixedRows_spec hB hΩ (fun t ht => (ho t ht).length)
  obtain ⟨rows'', h'', hiff⟩ := C77_feasible_iff hB hΩ ho true
  rw [hrows] at h' h''; cases h'; cases h''
  cases sol with
  | none =>
    refine ⟨⟨false, 0, []⟩, rfl, ⟨fun h => by simp at h, fun h => absurd (hiff.2 h) hsol⟩, fun h => by simp at h⟩
  | some v =>
    have hv : LPOptimal B tokenSizes rows true v := hsol
    obtain ⟨sizes, e1, e2, σ, e3, e4⟩ := C77_sizes_suffice hB hΩ ho hrows hv.feasible
    refine ⟨⟨true, totalSize sizes tokenSizes, sizes⟩, by unfold fixedResult; simp [e1], ⟨fun _ => ⟨σ, e3.valid, e4⟩, fun _ => rfl⟩,
      fun _ => ⟨⟨σ, e3, e4⟩, totalSize_eq e2 hts, ⟨_, σ, e3, e4, totalSize_eq e2 hts⟩, ?_⟩⟩
    rintro M ⟨w, σ', h1, h2, rfl⟩
    obtain ⟨F, hF0, hFi, hroom⟩ := bounded_spaces hB hΩ h1 h2.1
    obtain ⟨v', f1, f2⟩ := fixed_assign hB hΩ (fun t ht => (ho t ht).length) hrows h1.valid h2 hF0 hroom true
    exact least_of_optimal hB hts hv ((hspec v).1 hv.feasible.rows) e1 e2 f1 (objective_eq tokenSizes f2 hFi)

/-! ### The generators -/

theorem offsets_mapM {f : KTask → Option (Int × List ℚ)} {g : KTask → List ℚ} : ∀ {l : List KTask},
    (∀ t ∈ l, f t = some (t.id, g t)) → l.mapM f = some (l.map fun t => (t.id, g t)) := by
  intro l
  induction l with
  | nil => intro _; rfl
  | cons t l ih =>
    intro h
    rw [List.mapM_cons, h t (by simp), ih fun s hs => h s (by simp [hs])]
    rfl

theorem offsets_get {g : KTask → List ℚ} : ∀ {l : List KTask} {t : KTask}, t ∈ l → (∀ s ∈ l, s.id = t.id → s = t) →
    Offsets.get (l.map fun t => (t.id, g t)) t.id = g t := by
  intro l
  induction l with
  | nil => intro t ht; simp at ht
  | cons s l ih =>
    intro t ht h
    unfold Offsets.get
    rw [List.map_cons, List.lookup_cons]
    by_cases hid : s.id = t.id
    · have := h s (by simp) hid
      subst this
      simp
    · have hne : (t.id == s.id) = false := by simpa using fun h => hid h.symm
      rw [hne]
      have : t ∈ l := by
        rcases List.mem_cons.1 ht with rfl | h
        · exact absurd rfl hid
        · exact h
      exact ih this fun x hx => h x (by simp [hx])

theorem checkPhases_some : ∀ {l : List ℚ}, (∀ x ∈ l, 0 ≤ x) → checkPhases l = some () := by
  intro l
  induction l with
  | nil => intro _; rfl
  | cons x l ih => intro h; unfold checkPhases; rw [if_neg (not_lt.2 (h x (by simp)))]; exact ih fun y hy => h y (by simp [hy])

theorem checkOffsets_some {Ω : ℚ} (hΩ : 0 < Ω) {o : Offsets} : ∀ {l : List KTask}, (∀ t ∈ l, OffsetsFit t Ω (o.get t.id)) →
    checkOffsets Ω o l = some () := by
  intro l
  induction l with
  | nil => intro _; unfold checkOffsets; rw [if_pos hΩ]
  | cons t l ih =>
    intro h
    have ht := h t (by simp)
    unfold checkOffsets
    rw [if_pos ⟨hΩ, ht.length⟩, checkPhases_some (l := o.get t.id) (fun x hx => ?_)]
    · exact ih fun s hs => h s (by simp [hs])
    · obtain ⟨a, ha, rfl⟩ := List.mem_iff_getElem.1 hx
      have := ht.nonneg a (by rw [← ht.length]; exact ha)
      rwa [List.getD_eq_getElem _ _ ha] at this

/-- Offsets of the one phase of a task. -/
theorem fit_single {t : KTask} {Ω : ℚ} (hP : t.durations.length = 1) (h : workBefore t t.durations.length ≤ taskPeriod Ω t) :
    OffsetsFit t Ω [0] := by
  refine ⟨by rw [hP]; rfl, fun a _ => ?_, fun a ha => by omega, ?_⟩
  · cases a <;> simp
  · unfold taskPeriod at h
    rw [hP] at h ⊢
    have : workBefore t 1 = t.dur 0 := by simp [workBefore]
    rw [this] at h
    simpa using h

theorem workBefore_last {t : KTask} (ht : TaskOK t 1) :
    workBefore t (t.durations.length - 1) + t.dur (t.durations.length - 1) = workBefore t t.durations.length := by
  rw [← workBefore_succ, Nat.sub_add_cancel ht.phases]

theorem fit_burst {t : KTask} {Ω : ℚ} (ht : TaskOK t 1) (h : workBefore t t.durations.length ≤ taskPeriod Ω t) :
    OffsetsFit t Ω (burst t) := by
  have hP := ht.phases
  refine ⟨by simp [burst], fun a ha => by rw [burst_getD ha]; exact workBefore_nonneg ht a, fun a ha => ?_, ?_⟩
  · rw [burst_getD (by omega), burst_getD ha, workBefore_succ]
  · rw [burst_getD (by omega), burst_getD hP, workBefore_last ht, workBefore_zero, zero_add]; exact h

/-- The offsets of the average generator. -/
def averageList (t : KTask) (Ω : ℚ) : List ℚ :=
  if t.durations.length = 1 then [0]
  else (List.range t.durations.length).map fun j =>
    if workBefore t t.durations.length = 0 then 0 else workBefore t j * (taskPeriod Ω t / workBefore t t.durations.length)

theorem fit_average {t : KTask} {Ω : ℚ} (ht : TaskOK t 1) (h : workBefore t t.durations.length ≤ taskPeriod Ω t) :
    OffsetsFit t Ω (averageList t Ω) := by
  have hP := ht.phases
  unfold averageList
  split
  · rename_i h1; exact fit_single h1 h
  set L := workBefore t t.durations.length with hL
  have hL0 : 0 ≤ L := workBefore_nonneg ht _
  have get : ∀ a < t.durations.length, ((List.range t.durations.length).map fun j =>
      if L = 0 then 0 else workBefore t j * (taskPeriod Ω t / L)).getD a 0 = if L = 0 then 0 else workBefore t a * (taskPeriod Ω t / L) := by
    intro a ha
    rw [List.getD_eq_getElem _ _ (by simpa using ha)]; simp
  by_cases hz : L = 0
  · have hd : ∀ a < t.durations.length, t.dur a = 0 := by
      intro a ha
      have h1 : t.dur a ≤ L := single_le_sum (f := fun i => t.dur i) (fun i _ => dur_nn ht i) (mem_range.2 ha)
      exact le_antisymm (hz ▸ h1) (dur_nn ht a)
    refine ⟨by simp, fun a ha => by rw [get a ha, if_pos hz], fun a ha => ?_, ?_⟩
    · rw [get _ (by omega), get _ ha, if_pos hz, if_pos hz, hd a (by omega), add_zero]
    · rw [get _ (by omega), get _ hP, if_pos hz, if_pos hz, hd _ (by omega), add_zero, zero_add]
      rw [hz] at h; exact h
  · have hpos : 0 < L := lt_of_le_of_ne hL0 (Ne.symm hz)
    have hr : 1 ≤ taskPeriod Ω t / L := (one_le_div hpos).2 h
    refine ⟨by simp, fun a ha => ?_, fun a ha => ?_, ?_⟩
    · rw [get a ha, if_neg hz]; exact mul_nonneg (workBefore_nonneg ht a) (by linarith)
    · rw [get _ (by omega), get _ ha, if_neg hz, if_neg hz, workBefore_succ]
      have := dur_nn ht a
      nlinarith
    · rw [get _ (by omega), get _ hP, if_neg hz, if_neg hz, workBefore_zero, zero_mul, zero_add]
      have h1 := workBefore_last ht
      rw [← hL] at h1
      have h2 := dur_nn ht (t.durations.length - 1)
      have h3 : L * (taskPeriod Ω t / L) = taskPeriod Ω t := by field_simp
      show _ ≤ taskPeriod Ω t
      nlinarith

theorem averageOffsets_eq {B : BaseGraph} (hB : BaseOK B) {Ω : ℚ} (hΩ : 0 < Ω) :
    averageOffsets B Ω = some (B.tasks.map fun t => (t.id, averageList t Ω)) := by
  unfold averageOffsets
  rw [if_neg (not_le.2 hΩ)]
  refine offsets_mapM fun t ht => ?_
  have hok := hB.tasks t ht
  have hmu : 0 < taskPeriod Ω t := by
    unfold taskPeriod
    have : (0 : ℚ) < t.ni := by exact_mod_cast hok.ni
    have : (0 : ℚ) < t.durations.length := by exact_mod_cast hok.phases
    positivity
  have h1 := totalDuration_spec t t.durations.length 0 (by simp)
  rw [workBefore_zero, sub_zero, zero_add] at h1
  have h2 := averagePhases_spec t (taskPeriod Ω t) (workBefore t t.durations.length) t.durations.length 0 (by simp)
  simp only [zero_add, Nat.zero_sub, workBefore_zero] at h2
  dsimp only
  rw [if_neg hok.ni.ne', if_neg (not_le.2 hmu), h1]
  simp only [Option.bind_eq_bind, Option.bind_some]
  unfold averageList
  split
  · rfl
  · rw [h2]; rfl

theorem burstOffsets_eq (B : BaseGraph) : burstOffsets B = some (B.tasks.map fun t => (t.id, burst t)) := by
  unfold burstOffsets
  refine offsets_mapM fun t _ => ?_
  rw [burst_eq]; rfl

theorem mapM_total {α β : Type} {f : α → Option β} {P : α → β → Prop} : ∀ {l : List α}, (∀ a ∈ l, ∃ b, f a = some b ∧ P a b) →
    ∃ m, l.mapM f = some m ∧ ∀ b ∈ m, ∃ a ∈ l, f a = some b ∧ P a b := by
  intro l
  induction l with
  | nil => intro _; exact ⟨[], rfl, fun b hb => by simp at hb⟩
  | cons a l ih =>
    intro h
    obtain ⟨b, h1, h2⟩ := h a (by simp)
    obtain ⟨m, h3, h4⟩ := ih fun x hx => h x (by simp [hx])
    refine ⟨b :: m, by rw [List.mapM_cons, h1, h3]; rfl, fun c hc => ?_⟩
    rcases List.mem_cons.1 hc with rfl | hc
    · exact ⟨a, by simp, h1, h2⟩
    · obtain ⟨x, hx, y⟩ := h4 c hc
      exact ⟨x, by simp [hx], y⟩

/-- The edges the retiming of a task sees. -/
theorem wiggers_edges {B : BaseGraph} (hB : BaseOK B) {Ω : ℚ} (hΩ : 0 < Ω) :
    ∃ edges, (B.channels.mapM fun e => (wiggersEdge Ω e).map fun w => (e.2.1.id, w)) = some edges ∧
      ∀ t ∈ B.tasks, ∀ w ∈ (edges.filter fun e => e.1 == t.id).map (·.2), WEdgeOK t w := by
  obtain ⟨m, h1, h2⟩ := mapM_total (l := B.channels) (f := fun e => (wiggersEdge Ω e).map fun w => (e.2.1.id, w))
    (P := fun e x => x.1 = e.2.1.id ∧ x.2.ch = e.1 ∧ 0 < x.2.lambda ∧ 0 < x.2.alpha) (fun e he => by
      obtain ⟨hs, ht, hc⟩ := hB.channels e he
      obtain ⟨w, w1, w2⟩ := wiggersEdge_total hc (hB.tasks _ hs) hΩ
      exact ⟨(e.2.1.id, w), by rw [w1]; rfl, rfl, w2⟩)
  refine ⟨m, h1, fun t ht w hw => ?_⟩
  obtain ⟨x, hx, rfl⟩ := List.mem_map.1 hw
  obtain ⟨hx1, hx2⟩ := List.mem_filter.1 hx
  obtain ⟨e, he, -, e1, e2, e3, e4⟩ := h2 x hx1
  obtain ⟨hs, -, hc⟩ := hB.channels e he
  have hid : x.1 = t.id := by simpa using hx2
  have hst := hB.ids _ hs _ ht (by rw [← e1]; exact hid)
  exact ⟨by rw [e2]; exact hc.noInInit, by rw [e2, ← hst]; exact hc.srcPhases, e3, e4⟩

theorem mu_eq {t : KTask} (Ω : ℚ) : Ω / t.ni * t.durations.length = taskPeriod Ω t := by unfold taskPeriod; ring

theorem last_duration {t : KTask} (ht : TaskOK t 1) :
    phaseDuration t (t.durations.length : Int) = some (t.dur (t.durations.length - 1)) := by
  have := phaseDuration_lt (t := t) (a := t.durations.length - 1) (by have := ht.phases; omega)
  rwa [Nat.sub_add_cancel ht.phases] at this

theorem wiggersTask_spec {t : KTask} {Ω : ℚ} (ht : TaskOK t 1) {edges : List WiggersEdge} (he : ∀ w ∈ edges, WEdgeOK t w)
    (h : workBefore t t.durations.length ≤ taskPeriod Ω t) :
    ∃ l, wiggersTask Ω edges t = some (t.id, l) ∧ OffsetsFit t Ω l := by
  have hP := ht.phases
  have hlast := workBefore_last ht
  obtain ⟨pre, p1, p2, p3⟩ := wiggersPhases_spec he (t.durations.length - 1) (taskPeriod Ω t - t.dur (t.durations.length - 1))
    [taskPeriod Ω t - t.dur (t.durations.length - 1)] (by omega) (by linarith)
  refine ⟨if t.durations.length = 1 then [0] else pre ++ [taskPeriod Ω t - t.dur (t.durations.length - 1)], ?_, ?_⟩
  · unfold wiggersTask
    rw [if_neg ht.ni.ne', last_duration ht, burst_eq, mu_eq]
    simp only [Option.bind_eq_bind, Option.bind_some]
    rw [p1]; rfl
  · split
    · rename_i h1; exact fit_single h1 h
    set g := taskPeriod Ω t - t.dur (t.durations.length - 1) with hg
    have get : ∀ a, a + 1 < t.durations.length → (pre ++ [g]).getD a 0 = pre.getD a 0 := by
      intro a ha; exact List.getD_append _ _ _ _ (by omega)
    have getl : (pre ++ [g]).getD (t.durations.length - 1) 0 = g := by
      rw [List.getD_append_right _ _ _ _ (by omega), p2, Nat.sub_self]; rfl
    have nn : ∀ a < t.durations.length, 0 ≤ (pre ++ [g]).getD a 0 := by
      intro a ha
      by_cases h1 : a + 1 < t.durations.length
      · rw [get a h1]; exact le_trans (workBefore_nonneg ht a) (p3 a (by omega)).1
      · rw [show a = t.durations.length - 1 by omega, getl]
        have := workBefore_nonneg ht (t.durations.length - 1)
        linarith
    refine ⟨by rw [List.length_append, p2, List.length_singleton]; omega, nn, fun a ha => ?_, ?_⟩
    · rw [get a ha]
      have h1 := (p3 a (by omega)).2
      by_cases h2 : a + 1 < t.durations.length - 1
      · rw [if_pos h2] at h1
        rw [get _ (by omega)]; exact h1
      · rw [if_neg h2] at h1
        rw [show a + 1 = t.durations.length - 1 by omega, getl]; exact h1
    · rw [getl]
      have := nn 0 hP
      show g + _ ≤ _ + taskPeriod Ω t
      linarith

theorem wiggersOffsets_spec {B : BaseGraph} (hB : BaseOK B) {Ω : ℚ} (hΩ : 0 < Ω)
    (h : ∀ t ∈ B.tasks, workBefore t t.durations.length ≤ taskPeriod Ω t) :
    ∃ o, wiggersOffsets B Ω = some o ∧ ∀ t ∈ B.tasks, OffsetsFit t Ω (o.get t.id) := by
  obtain ⟨edges, e1, e2⟩ := wiggers_edges hB hΩ
  have h1 : ∀ t, ∃ l, t ∈ B.tasks → wiggersTask Ω ((edges.filter fun e => e.1 == t.id).map (·.2)) t = some (t.id, l) ∧ OffsetsFit t Ω l := by
    intro t
    by_cases ht : t ∈ B.tasks
    · obtain ⟨l, hl⟩ := wiggersTask_spec (hB.tasks t ht) (e2 t ht) (h t ht)
      exact ⟨l, fun _ => hl⟩
    · exact ⟨[], fun h => absurd h ht⟩
  choose g hg using h1
  refine ⟨B.tasks.map fun t => (t.id, g t), ?_, fun t ht => ?_⟩
  · unfold wiggersOffsets
    rw [e1]
    simp only [Option.bind_eq_bind, Option.bind_some]
    exact offsets_mapM fun t ht => (hg t ht).1
  · rw [offsets_get ht fun s hs hid => hB.ids s hs t ht hid]
    exact (hg t ht).2

/-- A correct solver for the min-max programs. -/
def MinMaxSolver (B : BaseGraph) (Ω : ℚ) (solve : KTask → Option (MMVar → ℚ)) : Prop :=
  ∀ t ∈ B.tasks, ∀ rows, minmaxRows B Ω t = some rows →
    (∀ v, solve t = some v → MMFeasible rows v) ∧ (solve t = none → ¬ ∃ v, MMFeasible rows v)

/-- The offsets of the min-max generator when the solver has answered. -/
def minmaxList (solve : KTask → Option (MMVar → ℚ)) (t : KTask) : List ℚ :=
  if t.durations.length ≤ 1 then [0] else match solve t with
    | some v => (List.range t.durations.length).map fun k => v (.ct (k + 1))
    | none => []

theorem minmaxTasks_eq {solve : KTask → Option (MMVar → ℚ)} : ∀ {l : List KTask}, (∀ t ∈ l, 1 < t.durations.length → ∃ v, solve t = some v) →
    minmaxTasks solve true l = (true, l.map fun t => (t.id, minmaxList solve t)) := by
  intro l
  induction l with
  | nil => intro _; rfl
  | cons t l ih =>
    intro h
    have h1 := ih fun s hs => h s (by simp [hs])
    unfold minmaxTasks
    rw [if_pos rfl, h1]
    unfold minmaxList
    by_cases hP : t.durations.length ≤ 1
    · simp [hP]
    · obtain ⟨v, hv⟩ := h t (by simp) (by omega)
      simp [hP, hv]

theorem fit_minmax {B : BaseGraph} (hB : BaseOK B) {Ω : ℚ} {solve : KTask → Option (MMVar → ℚ)} (hs : MinMaxSolver B Ω solve)
    {t : KTask} (ht : t ∈ B.tasks) (h : workBefore t t.durations.length ≤ taskPeriod Ω t) :
    (1 < t.durations.length → ∃ v, solve t = some v) ∧ OffsetsFit t Ω (minmaxList solve t) := by
  have hok := hB.tasks t ht
  obtain ⟨rows, r1, r2, r3⟩ := minmaxRows_spec (Ω := Ω) hB ht
  obtain ⟨s1, s2⟩ := hs t ht rows r1
  have hv : ∃ v, solve t = some v := by
    cases hv : solve t with
    | some v => exact ⟨v, rfl⟩
    | none => exact absurd (r3 h) (s2 hv)
  refine ⟨fun _ => hv, ?_⟩
  obtain ⟨v, hv⟩ := hv
  unfold minmaxList
  split
  · rename_i h1; have := hok.phases; exact fit_single (by omega) h
  · rename_i hP
    rw [hv]
    dsimp only
    have hf := s1 v hv
    obtain ⟨f1, f2⟩ := r2 v hf
    have get : ∀ a < t.durations.length, ((List.range t.durations.length).map fun k => v (.ct (k + 1))).getD a 0 = v (.ct (a + 1)) := by
      intro a ha
      rw [List.getD_eq_getElem _ _ (by simpa using ha)]; simp
    have nn : ∀ a < t.durations.length, 0 ≤ v (.ct (a + 1)) := by
      intro a
      induction a with
      | zero => intro _; rw [zero_add, hf.first]
      | succ a ih =>
        intro ha
        have h1 := ih (by omega)
        have h2 := f1 a ha
        have h3 := dur_nn hok a
        show 0 ≤ v (.ct (a + 2))
        linarith
    refine ⟨by simp, fun a ha => by rw [get a ha]; exact nn a ha, fun a ha => ?_, ?_⟩
    · rw [get a (by omega), get _ ha]; exact f1 a ha
    · rw [get _ (by omega), get _ hok.phases, zero_add, hf.first, zero_add, Nat.sub_add_cancel hok.phases]
      exact f2

/-- **C78** When the period is long enough for each task taken alone, every offset generator (burst, average, Wiggers, min-max)
succeeds, its offsets pass the check, and they describe executions without overlap. -/
theorem C78_offsets_fit {B : BaseGraph} (hB : BaseOK B) {Ω : ℚ} (hΩ : 0 < Ω)
    (h : ∀ t ∈ B.tasks, workBefore t t.durations.length ≤ Ω * t.durations.length / t.ni)
    {solve : KTask → Option (MMVar → ℚ)} (hs : MinMaxSolver B Ω solve) (kind : OffsetKind) :
    ∃ o, fixedOffsets solve B Ω kind = some o ∧ ∀ t ∈ B.tasks, OffsetsFit t Ω (o.get t.id) := by
  have key : ∀ o, (∀ t ∈ B.tasks, OffsetsFit t Ω (Offsets.get o t.id)) → checkOffsets Ω o B.tasks = some () :=
    fun o ho => checkOffsets_some hΩ ho
  have hg : ∀ {g : KTask → List ℚ}, (∀ t ∈ B.tasks, OffsetsFit t Ω (g t)) →
      ∀ t ∈ B.tasks, OffsetsFit t Ω (Offsets.get (B.tasks.map fun t => (t.id, g t)) t.id) := by
    intro g hg t ht
    rw [offsets_get ht fun s hs hid => hB.ids s hs t ht hid]; exact hg t ht
  cases kind with
  | burst =>
    have ho := hg fun t ht => fit_burst (hB.tasks t ht) (h t ht)
    exact ⟨_, by unfold fixedOffsets; simp [burstOffsets_eq, key _ ho], ho⟩
  | average =>
    have ho := hg fun t ht => fit_average (hB.tasks t ht) (h t ht)
    exact ⟨_, by unfold fixedOffsets; simp [averageOffsets_eq hB hΩ, key _ ho], ho⟩
  | wiggers =>
    obtain ⟨o, o1, o2⟩ := wiggersOffsets_spec hB hΩ h
    exact ⟨o, by unfold fixedOffsets; simp [o1, key _ o2], o2⟩
  | minmax =>
    have ho := hg fun t ht => (fit_minmax hB hs ht (h t ht)).2
    have h1 := minmaxTasks_eq (solve := solve) (l := B.tasks) fun t ht => (fit_minmax hB hs ht (h t ht)).1
    exact ⟨_, by unfold fixedOffsets; simp [h1, key _ ho], ho⟩

end Kiter
