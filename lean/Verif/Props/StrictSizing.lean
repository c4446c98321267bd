/-
C78 (strictly periodic part), C79 and C80: strictly periodic buffer sizing, the failures of the offset generators, and the
virtual buffers.
-/
import Verif.Props.FixedOffsets

set_option autoImplicit false

namespace Kiter
open Finset

/-! ### Strictly periodic offsets -/

/-- The offsets of a strictly periodic schedule. -/
def strictList (t : KTask) (Ω : ℚ) : List ℚ := (List.range t.durations.length).map fun j => ((j : ℕ) : ℚ) * (Ω / t.ni)

theorem strictList_get {t : KTask} {Ω : ℚ} {a : ℕ} (ha : a < t.durations.length) : (strictList t Ω).getD a 0 = a * (Ω / t.ni) := by
  unfold strictList
  rw [List.getD_eq_getElem _ _ (by simpa using ha)]; simp

theorem strictTasks_spec (Ω : ℚ) : ∀ (l : List KTask), (∀ t ∈ l, TaskOK t 1) → ∃ r, strictTasks Ω l = some r ∧
    (r.1 = true ↔ ∀ t ∈ l, 1 < t.durations.length → ∀ a < t.durations.length, t.dur a ≤ Ω / t.ni) ∧
    (r.1 = true → r.2 = l.map fun t => (t.id, strictList t Ω)) := by
  intro l
  induction l with
  | nil => intro _; exact ⟨(true, []), rfl, by simp, fun _ => rfl⟩
  | cons t l ih =>
    intro h
    have ht := h t (by simp)
    obtain ⟨s, s1, s2, s3⟩ := ih fun x hx => h x (by simp [hx])
    have hr : ∃ r, strictTask t (Ω / t.ni) = some r ∧
        (r.1 = true ↔ (1 < t.durations.length → ∀ a < t.durations.length, t.dur a ≤ Ω / t.ni)) ∧ (r.1 = true → r.2 = strictList t Ω) := by
      unfold strictTask
      by_cases hP : t.durations.length = 1
      · rw [if_pos hP]
        refine ⟨_, rfl, ⟨fun _ h => by omega, fun _ => rfl⟩, fun _ => ?_⟩
        unfold strictList; rw [hP]; simp
      · rw [if_neg hP]
        obtain ⟨r, r1, r2, r3⟩ := strictPhases_spec t (Ω / t.ni) t.durations.length 0 (by simp)
        rw [zero_add] at r1
        refine ⟨r, r1, ?_, fun h => ?_⟩
        · rw [r2]
          have := ht.phases
          exact ⟨fun h _ a ha => h a (Nat.zero_le _) ha, fun h a _ ha => h (by omega) a ha⟩
        · rw [r3 h]; simp [strictList]
    obtain ⟨r, r1, r2, r3⟩ := hr
    unfold strictTasks
    simp only [if_neg ht.ni.ne', Option.bind_eq_bind, Option.pure_def]
    rw [r1, Option.bind_some, s1, Option.bind_some]
    by_cases hb : r.1 = true
    · refine ⟨_, if_pos hb, ?_, fun hs => ?_⟩
      · show s.1 = true ↔ _
        rw [s2, List.forall_mem_cons, ← r2]
        exact ⟨fun h => ⟨hb, h⟩, fun h => h.2⟩
      · show _ :: _ = _
        rw [r3 hb, s3 hs]; rfl
    · refine ⟨_, if_neg hb, ⟨fun h => by simp at h, fun h => ?_⟩, fun h => by simp at h⟩
      exact absurd (r2.2 (h t (by simp))) hb

/-- **C78, strictly periodic generator** The generator reports failure exactly when a phase of a task with several phases is
longer than the distance between two executions; otherwise its offsets are the multiples of that distance. -/
theorem C78_strict_offsets {B : BaseGraph} (hB : BaseOK B) {Ω : ℚ} (hΩ : 0 < Ω) :
    ∃ r, strictOffsets B Ω = some r ∧
      (r.isSome ↔ ∀ t ∈ B.tasks, 1 < t.durations.length → ∀ a < t.durations.length, t.dur a ≤ Ω / t.ni) ∧
      ∀ o, r = some o → ∀ t ∈ B.tasks, (o.get t.id).length = t.durations.length ∧
        ∀ a < t.durations.length, (o.get t.id).getD a 0 = a * (Ω / t.ni) := by
  obtain ⟨r, r1, r2, r3⟩ := strictTasks_spec Ω B.tasks hB.tasks
  unfold strictOffsets strictlyPeriodicOffsets
  simp only [if_neg (not_le.2 hΩ), if_neg hΩ.ne', r1, Option.bind_eq_bind, Option.bind_some, Option.pure_def]
  by_cases hb : r.1 = true
  · have hget : ∀ t ∈ B.tasks, Offsets.get r.2 t.id = strictList t Ω := by
      intro t ht
      rw [r3 hb, offsets_get ht fun s hs hid => hB.ids s hs t ht hid]
    have hc : checkOffsets Ω r.2 B.tasks = some () := by
      have : ∀ l : List KTask, (∀ t ∈ l, t ∈ B.tasks) → checkOffsets Ω r.2 l = some () := by
        intro l
        induction l with
        | nil => intro _; unfold checkOffsets; rw [if_pos hΩ]
        | cons t l ih =>
          intro h
          have ht := h t (by simp)
          unfold checkOffsets
          rw [hget t ht, if_pos ⟨hΩ, by simp [strictList]⟩, checkPhases_some (fun x hx => ?_)]
          · exact ih fun s hs => h s (by simp [hs])
          · unfold strictList at hx
            obtain ⟨j, -, rfl⟩ := List.mem_map.1 hx
            have : (0 : ℚ) < t.ni := by exact_mod_cast (hB.tasks t ht).ni
            positivity
      exact this _ fun _ h => h
    rw [if_pos hb, hc]
    refine ⟨some r.2, rfl, ⟨fun _ => r2.1 hb, fun _ => rfl⟩, fun o ho t ht => ?_⟩
    cases ho
    rw [hget t ht]
    exact ⟨by simp [strictList], fun a ha => strictList_get ha⟩
  · rw [if_neg hb]
    exact ⟨none, rfl, ⟨fun h => by simp at h, fun h => absurd (r2.2 h) hb⟩, fun o ho => by cases ho⟩

theorem fit_strict {t : KTask} {Ω : ℚ} (hΩ : 0 < Ω) (ht : TaskOK t 1) {l : List ℚ} (hl : l.length = t.durations.length)
    (hg : ∀ a < t.durations.length, l.getD a 0 = a * (Ω / t.ni)) (h : ∀ a < t.durations.length, t.dur a ≤ Ω / t.ni) :
    OffsetsFit t Ω l := by
  have hP := ht.phases
  have hni : (0 : ℚ) < t.ni := by exact_mod_cast ht.ni
  refine ⟨hl, fun a ha => by rw [hg a ha]; positivity, fun a ha => ?_, ?_⟩
  · rw [hg a (by omega), hg _ ha]
    have := h a (by omega)
    push_cast; linarith
  · rw [hg _ (by omega), hg 0 hP]
    have h1 := h (t.durations.length - 1) (by omega)
    have h2 : ((t.durations.length - 1 : ℕ) : ℚ) = t.durations.length - 1 := by push_cast [hP]; ring
    rw [h2, Nat.cast_zero, zero_mul, zero_add]
    have h3 : Ω * t.durations.length / t.ni = t.durations.length * (Ω / t.ni) := by ring
    rw [h3]; linarith

/-- Schedules with strictly periodic offsets are the strictly periodic schedules. -/
theorem with_strict_iff {B : BaseGraph} (hB : BaseOK B) {Ω : ℚ} {o : Int → List ℚ}
    (hg : ∀ t ∈ B.tasks, ∀ a < t.durations.length, (o t.id).getD a 0 = a * (Ω / t.ni)) (σ : Int → ℕ → ℚ) :
    WithOffsets B o Ω σ ↔ StrictlyPeriodic B Ω σ := by
  constructor
  · rintro ⟨h1, h2⟩ t ht
    obtain ⟨x, hx, hx'⟩ := h2 t ht
    have hP := (hB.tasks t ht).phases
    refine ⟨x, hx, fun n => ?_⟩
    induction n using Nat.strong_induction_on with
    | _ n ih =>
      by_cases hn : n < t.durations.length
      · rw [hx' n hn, hg t ht n hn]
      · have h3 := h1 t ht (n - t.durations.length)
        rw [Nat.sub_add_cancel (by omega), ih (n - t.durations.length) (by omega), Nat.cast_sub (by omega)] at h3
        rw [h3]; ring
  · intro h
    refine ⟨fun t ht k => ?_, fun t ht => ?_⟩
    · obtain ⟨x, -, hx⟩ := h t ht
      rw [hx, hx]; push_cast; ring
    · obtain ⟨x, hx, hx'⟩ := h t ht
      exact ⟨x, hx, fun a ha => by rw [hx', hg t ht a ha]⟩

theorem strict_dur {B : BaseGraph} {Ω : ℚ} {σ : Int → ℕ → ℚ} (h1 : ValidGen B σ) (h2 : StrictlyPeriodic B Ω σ) {t : KTask}
    (ht : t ∈ B.tasks) (a : ℕ) : t.dur a ≤ Ω / t.ni := by
  obtain ⟨x, -, hx⟩ := h2 t ht
  have := h1.noOverlap t ht a
  rw [hx, hx] at this
  push_cast at this
  linarith

/-- **C78, strictly periodic sizing** If every task with a single phase fits in its period, the integer sizing reports a valid
result exactly when a strictly periodic schedule with this period exists; the sizes then suffice for one, and the total is the
least memory of a strictly periodic schedule. -/
theorem C78_strict_sizing {B : BaseGraph} (hB : BaseOK B) {Ω : ℚ} (hΩ : 0 < Ω)
    (hone : ∀ t ∈ B.tasks, t.durations.length = 1 → t.dur 0 ≤ Ω / t.ni)
    {tokenSizes : List Int} (hts : tokenSizes.length = B.channels.length) {solve : List LPRow → Option (LPVar → ℚ)}
    (hsol : ∀ o rows, strictOffsets B Ω = some (some o) → fixedRows B o.get Ω = some rows → SolverAnswer B tokenSizes rows true (solve rows)) :
    ∃ r, strictSizing solve B tokenSizes Ω true false = some r ∧
      (r.valid = true ↔ ∃ σ, ValidGen B σ ∧ StrictlyPeriodic B Ω σ) ∧
      (r.valid = true → (∃ σ, BoundedSchedule B (fun i => r.sizes.getD i 0) σ ∧ StrictlyPeriodic B Ω σ) ∧
        IsLeast {M | ∃ w σ, BoundedSchedule B w σ ∧ StrictlyPeriodic B Ω σ ∧ M = memory B tokenSizes w} r.total) := by
  obtain ⟨r, r1, r2, r3⟩ := C78_strict_offsets hB hΩ
  unfold strictSizing
  rw [r1]
  cases r with
  | none =>
    refine ⟨⟨false, 0, []⟩, rfl, ⟨fun h => by simp at h, ?_⟩, fun h => by simp at h⟩
    rintro ⟨σ, h1, h2⟩
    have := r2.2 fun t ht _ a _ => strict_dur h1 h2 ht a
    simp at this
  | some o =>
    have hd : ∀ t ∈ B.tasks, ∀ a < t.durations.length, t.dur a ≤ Ω / t.ni := by
      intro t ht a ha
      by_cases hP : t.durations.length = 1
      · rw [show a = 0 by omega]; exact hone t ht hP
      · exact r2.1 rfl t ht (by omega) a ha
    have hfit : ∀ t ∈ B.tasks, OffsetsFit t Ω (o.get t.id) := fun t ht =>
      fit_strict hΩ (hB.tasks t ht) (r3 o rfl t ht).1 (r3 o rfl t ht).2 (hd t ht)
    obtain ⟨rows, hrows, -⟩ := fixedRows_spec hB hΩ (fun t ht => (hfit t ht).length)
    obtain ⟨res, e1, e2, e3⟩ := C77_least_memory hB hΩ hfit hrows hts (hsol o rows r1 hrows)
    have hw := with_strict_iff hB (Ω := Ω) fun t ht => (r3 o rfl t ht).2
    simp only [hw] at e2 e3
    refine ⟨res, ?_, e2, fun h => ⟨(e3 h).1, (e3 h).2.2⟩⟩
    show (fixedRows B o.get Ω).bind _ = _
    rw [hrows]; exact e1

/-! ### Failures of the generators -/

theorem mapM_none {α β : Type} {f : α → Option β} {a : α} (h : f a = none) : ∀ {l : List α}, a ∈ l → l.mapM f = none := by
  intro l
  induction l with
  | nil => intro ha; simp at ha
  | cons x l ih =>
    intro ha
    rw [List.mapM_cons]
    rcases List.mem_cons.1 ha with rfl | ha
    · rw [h]; rfl
    · rw [ih ha]; cases f x <;> rfl

theorem minmax_get {solve : KTask → Option (MMVar → ℚ)} {t : KTask} (hP : 1 < t.durations.length) (hs : solve t = none) :
    ∀ {l : List KTask} {w : Bool}, t ∈ l → (∀ s ∈ l, s.id = t.id → s = t) → Offsets.get (minmaxTasks solve w l).2 t.id = [] := by
  intro l
  induction l with
  | nil => intro w ht; simp at ht
  | cons s l ih =>
    intro w ht h
    by_cases hid : s.id = t.id
    · have := h s (by simp) hid
      subst this
      unfold Offsets.get minmaxTasks
      cases w
      · simp
      · rw [if_pos rfl, if_neg (by omega), hs]; simp
    · have hne : (t.id == s.id) = false := by simpa using fun h => hid h.symm
      have hm : t ∈ l := by
        rcases List.mem_cons.1 ht with rfl | h
        · exact absurd rfl hid
        · exact h
      have ih' := fun w => ih (w := w) hm fun x hx => h x (by simp [hx])
      unfold Offsets.get at ih' ⊢
      unfold minmaxTasks
      cases w
      · simp only [Bool.false_eq_true, if_false, List.lookup_cons, hne]; exact ih' false
      · rw [if_pos rfl]
        split
        · simp only [List.lookup_cons, hne]; exact ih' true
        · cases solve s with
          | some v => simp only [List.lookup_cons, hne]; exact ih' true
          | none => simp only [List.lookup_cons, hne]; exact ih' false

theorem checkOffsets_none {Ω : ℚ} {o : Offsets} {t : KTask} (ho : (o.get t.id).length ≠ t.durations.length) :
    ∀ {l : List KTask}, t ∈ l → checkOffsets Ω o l = none := by
  intro l
  induction l with
  | nil => intro h; simp at h
  | cons s l ih =>
    intro h
    unfold checkOffsets
    rcases List.mem_cons.1 h with rfl | h
    · rw [if_neg fun h => ho h.2]
    · rw [ih h]; split
      · cases checkPhases (o.get s.id) <;> rfl
      · rfl

theorem chain_work {t : KTask} {x : ℕ → ℚ} (h0 : 0 ≤ x 0) (hc : ∀ a, a + 1 < t.durations.length → x a + t.dur a ≤ x (a + 1)) :
    ∀ a < t.durations.length, workBefore t a ≤ x a := by
  intro a
  induction a with
  | zero => intro _; rw [workBefore_zero]; exact h0
  | succ a ih =>
    intro ha
    rw [workBefore_succ]
    have := ih (by omega)
    have := hc a ha
    linarith

/-- **C78, failures** When a task with several phases does not fit in its period, the Wiggers and the min-max generator stop
with an error instead of delivering offsets. -/
theorem C78_no_offsets {B : BaseGraph} (hB : BaseOK B) {Ω : ℚ} (hΩ : 0 < Ω) {t : KTask} (ht : t ∈ B.tasks)
    (hP : 1 < t.durations.length) (h : Ω * t.durations.length / t.ni < workBefore t t.durations.length)
    {solve : KTask → Option (MMVar → ℚ)} (hs : MinMaxSolver B Ω solve) :
    fixedOffsets solve B Ω .wiggers = none ∧ fixedOffsets solve B Ω .minmax = none := by
  have hok := hB.tasks t ht
  have h' : taskPeriod Ω t < workBefore t t.durations.length := h
  have hlast := workBefore_last hok
  constructor
  · obtain ⟨edges, e1, e2⟩ := wiggers_edges hB hΩ
    have h1 : wiggersTask Ω ((edges.filter fun e => e.1 == t.id).map (·.2)) t = none := by
      unfold wiggersTask
      rw [if_neg hok.ni.ne', last_duration hok, burst_eq, mu_eq]
      simp only [Option.bind_eq_bind, Option.bind_some]
      obtain ⟨k, hk⟩ : ∃ k, t.durations.length - 1 = k + 1 := ⟨t.durations.length - 2, by omega⟩
      rw [hk] at hlast
      rw [hk, wiggersPhases_none (by omega) (by linarith)]; rfl
    have h2 : wiggersOffsets B Ω = none := by
      unfold wiggersOffsets
      rw [e1]
      exact mapM_none (f := fun t => wiggersTask Ω ((edges.filter fun e => e.1 == t.id).map (·.2)) t) h1 ht
    unfold fixedOffsets
    simp only [h2]; rfl
  · obtain ⟨rows, r1, r2, -⟩ := minmaxRows_spec (Ω := Ω) hB ht
    obtain ⟨s1, -⟩ := hs t ht rows r1
    have hn : solve t = none := by
      cases hv : solve t with
      | none => rfl
      | some v =>
        exfalso
        have hf := s1 v hv
        obtain ⟨f1, f2⟩ := r2 v hf
        have := chain_work (t := t) (x := fun a => v (.ct (a + 1))) (by rw [zero_add, hf.first]) f1 (t.durations.length - 1) (by omega)
        rw [Nat.sub_add_cancel hok.phases] at this
        linarith
    have h1 := minmax_get hP hn (w := true) ht fun s hs hid => hB.ids s hs t ht hid
    unfold fixedOffsets
    simp only [Option.bind_eq_bind, Option.bind_some]
    rw [checkOffsets_none (t := t) (by rw [h1]; simp; omega) ht]; rfl

/-- **C79** Sizing with any of the generated offsets, when each task taken alone fits in its period: a valid result has sizes
large enough for a periodic schedule with this period. -/
theorem C79_fixed_sizing {B : BaseGraph} (hB : BaseOK B) {Ω : ℚ} (hΩ : 0 < Ω)
    (h : ∀ t ∈ B.tasks, workBefore t t.durations.length ≤ Ω * t.durations.length / t.ni)
    {solveMM : KTask → Option (MMVar → ℚ)} (hs : MinMaxSolver B Ω solveMM) (kind : OffsetKind)
    {tokenSizes : List Int} (hts : tokenSizes.length = B.channels.length) {ilp : Bool} {solve : List LPRow → Option (LPVar → ℚ)}
    (hsol : ∀ rows v, solve rows = some v → LPFeasible rows ilp v) :
    ∃ r, fixedSizing solveMM solve B tokenSizes Ω kind ilp false = some r ∧
      (r.valid = true → r.total = memory B tokenSizes (fun i => r.sizes.getD i 0) ∧
        ∃ σ, BoundedSchedule B (fun i => r.sizes.getD i 0) σ ∧ PeriodicSchedule B σ Ω) := by
  obtain ⟨o, o1, o2⟩ := C78_offsets_fit hB hΩ h hs kind
  obtain ⟨rows, hrows, -⟩ := fixedRows_spec hB hΩ (fun t ht => (o2 t ht).length)
  unfold fixedSizing
  rw [o1]
  simp only [Option.bind_eq_bind, Option.bind_some]
  rw [hrows]
  simp only [Option.bind_some]
  cases hv : solve rows with
  | none => exact ⟨⟨false, 0, []⟩, rfl, fun h => by simp at h⟩
  | some v =>
    obtain ⟨sizes, e1, e2, σ, e3, e4⟩ := C77_sizes_suffice hB hΩ o2 hrows (hsol rows v hv)
    exact ⟨⟨true, totalSize sizes tokenSizes, sizes⟩, by unfold fixedResult; simp [e1], fun _ => ⟨totalSize_eq e2 hts, σ, e3, e4.1⟩⟩

/-! ### Virtual buffers -/

theorem BoundedSchedule.mono {B : BaseGraph} {w w' : Fin B.channels.length → Int} {σ : Int → ℕ → ℚ} (h : BoundedSchedule B w σ)
    (hw : ∀ i, w i ≤ w' i) : BoundedSchedule B w' σ :=
  ⟨h.valid, fun i => (h.room i).mono (by have := hw i; linarith)⟩

/-- **C80** For a period with a strictly periodic schedule, adding the virtual buffers keeps the tasks and the channels, gives a
well-formed graph in which each channel is bounded by the computed size times the multiplier, and this graph still has a
strictly periodic schedule with the period. -/
theorem C80_virtual_buffers {B : BaseGraph} (hB : BaseOK B) (hids : ∀ c ∈ B.channels, c.1.id ≤ B.channels.length) {Ω : ℚ} (hΩ : 0 < Ω)
    (hσ : ∃ σ, ValidGen B σ ∧ StrictlyPeriodic B Ω σ) {mul : Int} (hmul : 1 ≤ mul) {ilp : Bool}
    {solve : List LPRow → Option (LPVar → ℚ)}
    (hsol : ∀ o rows, fixedRows B o Ω = some rows → (∃ v, LPFeasible rows ilp v) → ∃ v, solve rows = some v ∧ LPFeasible rows ilp v) :
    ∃ G r, addVBuffers solve B Ω mul ilp false = some G ∧ vbufferSizes solve B Ω ilp false = some r ∧ BaseOK G ∧
      G.tasks = B.tasks ∧ B.channels <+: G.channels ∧
      (∀ σ, ValidGen G σ ↔ BoundedSchedule B (fun i => r.sizes.getD i 0 * mul) σ) ∧
      ∃ σ, ValidGen G σ ∧ StrictlyPeriodic G Ω σ := by
  obtain ⟨σ, hσ1, hσ2⟩ := hσ
  obtain ⟨r, r1, r2, r3⟩ := C78_strict_offsets hB hΩ
  have hd : ∀ t ∈ B.tasks, ∀ a < t.durations.length, t.dur a ≤ Ω / t.ni := fun t ht a _ => strict_dur hσ1 hσ2 ht a
  obtain ⟨o, rfl⟩ := Option.isSome_iff_exists.1 (r2.2 fun t ht _ => hd t ht)
  have hfit : ∀ t ∈ B.tasks, OffsetsFit t Ω (o.get t.id) := fun t ht =>
    fit_strict hΩ (hB.tasks t ht) (r3 o rfl t ht).1 (r3 o rfl t ht).2 (hd t ht)
  have hw := with_strict_iff hB (Ω := Ω) fun t ht => (r3 o rfl t ht).2
  obtain ⟨rows, hrows, hiff⟩ := C77_feasible_iff hB hΩ hfit ilp
  obtain ⟨v, hv1, hv2⟩ := hsol _ rows hrows (hiff.2 ⟨σ, hσ1, (hw σ).2 hσ2⟩)
  obtain ⟨sizes, e1, e2, τ, e3, e4⟩ := C77_sizes_suffice hB hΩ hfit hrows hv2
  have hcheck : ∃ s, strictlyPeriodicOffsets B Ω = some s ∧ s.2 = o ∧ checkOffsets Ω s.2 B.tasks = some () := by
    unfold strictOffsets at r1
    rw [if_neg (not_le.2 hΩ)] at r1
    cases hs : strictlyPeriodicOffsets B Ω with
    | none => rw [hs] at r1; simp at r1
    | some s =>
      rw [hs] at r1
      simp only [Option.bind_eq_bind, Option.bind_some] at r1
      by_cases hb : s.1 = true
      · rw [if_pos hb] at r1
        cases hc : checkOffsets Ω s.2 B.tasks with
        | none => rw [hc] at r1; simp at r1
        | some u =>
          rw [hc] at r1
          simp only [Option.bind_some, Option.pure_def, Option.some.injEq] at r1
          exact ⟨s, rfl, r1, hc⟩
      · rw [if_neg hb] at r1; simp at r1
  obtain ⟨s, s1, rfl, s3⟩ := hcheck
  have hvb : vbufferSizes solve B Ω ilp false = some ⟨true, totalSize sizes [], sizes⟩ := by
    unfold vbufferSizes
    rw [if_neg (not_le.2 hΩ), s1]
    simp only [Option.bind_eq_bind, Option.bind_some]
    rw [s3]
    simp only [Option.bind_some]
    rw [hrows]
    simp only [Option.bind_some]
    unfold fixedResult
    simp [hv1, e1]
  have hpre : ∀ i : Fin B.m, B.channels[i].1.preload ≤ sizes.getD i 0 := fun i => capacity_ge_preload hB e3 i
  have hmono : ∀ i : Fin B.m, sizes.getD i 0 ≤ sizes.getD i 0 * mul := by
    intro i
    have h1 := (hB.channels B.channels[i] (List.getElem_mem _)).2.2.preload
    have h2 := hpre i
    nlinarith
  set q : Fin (B.m + B.m) → Int := Fin.addCases (fun _ => 0) (fun i => sizes.getD i.val 0 * mul) with hq
  have hcap : caps q = fun i : Fin B.m => sizes.getD i.val 0 * mul := by
    funext i; unfold caps; rw [hq]; exact Fin.addCases_right i
  refine ⟨B.bounded q, _, ?_, hvb, bounded_ok hB hids fun i => ?_, rfl, ⟨_, rfl⟩, fun σ => ?_, τ, ?_, (hw τ).1 e4⟩
  · unfold addVBuffers
    rw [hvb]
    simp only [Option.bind_eq_bind, Option.bind_some, Option.pure_def]
    unfold BaseGraph.bounded
    congr 3
    refine List.map_congr_left fun i _ => ?_
    have := congrFun hcap i
    unfold caps at this
    rw [this]
  · rw [hcap]; exact (hpre i).trans (hmono i)
  · rw [bounded_valid, hcap]
  · rw [bounded_valid, hcap]; exact e3.mono hmono

/-! ### Examples -/

/-- Correct solvers of the min-max programs exist. -/
theorem exists_minmax_solver (B : BaseGraph) (Ω : ℚ) : ∃ solve, MinMaxSolver B Ω solve := by
  classical
  refine ⟨fun t => if h : ∃ v, ∃ rows, minmaxRows B Ω t = some rows ∧ MMFeasible rows v then some h.choose else none,
    fun t _ rows hr => ⟨fun v hv => ?_, fun hn => ?_⟩⟩
  · dsimp only at hv
    split at hv
    · rename_i h
      obtain ⟨rows', h1, h2⟩ := h.choose_spec
      rw [hr] at h1; cases h1
      cases hv; exact h2
    · cases hv
  · rintro ⟨v, hv⟩
    dsimp only at hn
    rw [dif_pos ⟨v, rows, hr, hv⟩] at hn
    cases hn

namespace OffsetExample
/-- A task with phases of durations 1 and 2, which feeds a task of duration 3. -/
def A : KTask := ⟨0, [1, 2], [], 1, 2⟩
def C : KTask := ⟨1, [3], [], 1, 1⟩
def ch : KChannel := ⟨1, [1, 1], [2], [], [], 0, 1⟩
def G : BaseGraph := ⟨[A, C], [(ch, A, C)]⟩

theorem G_ok : BaseOK G := by
  have ch_ok : ChannelOK ch A C :=
    ⟨rfl, rfl, rfl, rfl, by decide, by decide, by decide, by decide, by decide, by decide, by decide, by decide, by decide⟩
  have A_ok : TaskOK A 1 := ⟨by decide, rfl, by decide, by decide, by decide, by decide⟩
  have C_ok : TaskOK C 1 := ⟨by decide, rfl, by decide, by decide, by decide, by decide⟩
  constructor
  · simp [G, A, C]
  · intro t ht; simp only [G, List.mem_cons, List.not_mem_nil, or_false] at ht
    rcases ht with rfl | rfl
    · exact A_ok
    · exact C_ok
  · simp [G, A, C]
  · intro c hc; simp only [G, List.mem_cons, List.not_mem_nil, or_false] at hc
    rcases hc with rfl
    exact ⟨by simp [G], by simp [G], ch_ok⟩
  · simp [G]

/-- The program for the strictly periodic offsets and the period 5. -/
def rows5 : List LPRow := [⟨[(.loc 0 1 1, -5), (.start 0 0, 1), (.start 1 0, -1)], 3⟩, ⟨[(.loc 0 1 1, 2), (.mo 0, 1)], -1⟩,
  ⟨[(.start 1 0, 1), (.start 0 0, -1)], 9 / 2⟩, ⟨[(.loc 0 2 1, -5), (.start 0 0, 1), (.start 1 0, -1)], 1 / 2⟩,
  ⟨[(.loc 0 2 1, 2), (.mo 0, 1)], 0⟩]

/-- Its optimal integer solution: the second task starts at 9/2, three places are needed. -/
def sol5 : LPVar → ℚ
  | .start 1 _ => 9 / 2
  | .mo 0 => 3
  | .loc 0 1 1 => -2
  | .loc 0 2 1 => -1
  | _ => 0

theorem sol5_int (x : LPVar) (hx : ∀ t a, x ≠ .start t a) : ∃ z : Int, sol5 x = z := by
  unfold sol5; split
  · exact absurd rfl (hx _ _)
  · exact ⟨3, by norm_num⟩
  · exact ⟨-2, by norm_num⟩
  · exact ⟨-1, by norm_num⟩
  · exact ⟨0, by norm_num⟩

theorem sol5_feasible : LPFeasible rows5 true sol5 := by
  refine ⟨?_, ?_, ?_, ?_, ?_⟩
  · intro r hr
    simp only [rows5, List.mem_cons, List.not_mem_nil, or_false] at hr
    rcases hr with rfl | rfl | rfl | rfl | rfl <;> simp [LPRow.value, sol5] <;> norm_num
  · intro t a; unfold sol5; split <;> first | (norm_num; done) | (rename_i h; cases h)
  · intro i; unfold sol5; split <;> first | (norm_num; done) | (rename_i h; cases h)
  · intro _ i; exact sol5_int _ (by simp)
  · intro _ i a b; exact sol5_int _ (by simp)

theorem sol5_optimal : LPOptimal G [4] rows5 true sol5 := by
  refine ⟨sol5_feasible, fun v hv => ?_⟩
  have h1 := hv.rows _ (List.mem_cons_self ..)
  have h2 := hv.rows _ (List.mem_cons_of_mem _ (List.mem_cons_self ..))
  have h3 := hv.rows _ (List.mem_cons_of_mem _ (List.mem_cons_of_mem _ (List.mem_cons_self ..)))
  simp only [LPRow.value, List.map_cons, List.map_nil, List.sum_cons, List.sum_nil] at h1 h2 h3
  show (∑ i : Fin 1, sol5 (.mo i) * _) ≤ ∑ i : Fin 1, v (.mo i) * _
  simp only [univ_unique, Fin.default_eq_zero, sum_singleton, sol5]
  obtain ⟨z, hz⟩ := hv.locInt rfl 0 1 1
  have hz' : z ≤ -2 := by
    by_contra h
    have : (-1 : ℚ) ≤ z := by exact_mod_cast (by omega : (-1 : Int) ≤ z)
    rw [hz] at h1
    linarith
  have hz'' : (z : ℚ) ≤ -2 := by exact_mod_cast hz'
  rw [hz] at h2
  norm_num
  linarith

theorem strict5 : strictOffsets G 5 = some (some [(0, [0, 5 / 2]), (1, [0])]) := by decide +kernel

end OffsetExample

open OffsetExample in
/-- C77 and C78 apply to a graph with a task of two phases: for the period 5 the sizing is valid with total 12 (three places, tokens
of size 4), the least memory of a strictly periodic schedule. -/
example : strictSizing (fun _ => some sol5) G [4] 5 true false = some ⟨true, 12, [3]⟩ ∧
    IsLeast {M | ∃ w σ, BoundedSchedule G w σ ∧ StrictlyPeriodic G 5 σ ∧ M = memory G [4] w} 12 := by
  have h0 : strictSizing (fun _ => some sol5) G [4] 5 true false = some ⟨true, 12, [3]⟩ := by decide +kernel
  obtain ⟨r, h1, h2, h3⟩ := C78_strict_sizing G_ok (Ω := 5) (by norm_num) (by decide +kernel) (tokenSizes := [4]) rfl
    (solve := fun _ => some sol5) (fun o rows ho hr => by
      rw [strict5] at ho; cases ho
      have : fixedRows G (Offsets.get [(0, [0, 5 / 2]), (1, [0])]) 5 = some rows5 := by decide +kernel
      rw [this] at hr; cases hr
      exact sol5_optimal)
  rw [h0] at h1; cases h1
  exact ⟨h0, (h3 rfl).2⟩

open OffsetExample in
/-- C78 applies to all generators: the period 5 is long enough for both tasks, which work 3 out of 5 time units; the period 2 is
too short for the task with two phases. -/
example : (∃ solve, MinMaxSolver G 5 solve ∧ ∀ kind, ∃ o, fixedOffsets solve G 5 kind = some o ∧ ∀ t ∈ G.tasks, OffsetsFit t 5 (o.get t.id)) ∧
    ∃ solve, MinMaxSolver G 2 solve ∧ fixedOffsets solve G 2 .wiggers = none ∧ fixedOffsets solve G 2 .minmax = none := by
  obtain ⟨s, hs⟩ := exists_minmax_solver G 5
  obtain ⟨s', hs'⟩ := exists_minmax_solver G 2
  refine ⟨⟨s, hs, C78_offsets_fit G_ok (by norm_num) ?_ hs⟩, ⟨s', hs', C78_no_offsets G_ok (by norm_num) (t := A) ?_ ?_ ?_ hs'⟩⟩
  · unfold workBefore; decide +kernel
  · simp [G]
  · decide
  · unfold workBefore; decide +kernel

/-- Correct solvers of the sizing programs exist. -/
theorem exists_solver (ilp : Bool) : ∃ solve : List LPRow → Option (LPVar → ℚ),
    (∀ rows v, solve rows = some v → LPFeasible rows ilp v) ∧
    ∀ rows, (∃ v, LPFeasible rows ilp v) → ∃ v, solve rows = some v ∧ LPFeasible rows ilp v := by
  classical
  refine ⟨fun rows => if h : ∃ v, LPFeasible rows ilp v then some h.choose else none, fun rows v hv => ?_, fun rows h => ?_⟩
  · dsimp only at hv
    split at hv
    · rename_i h; cases hv; exact h.choose_spec
    · cases hv
  · exact ⟨h.choose, dif_pos h, h.choose_spec⟩

namespace OffsetExample

theorem strict_exists : ∃ σ, ValidGen G σ ∧ StrictlyPeriodic G 5 σ := by
  obtain ⟨r, h1, h2, -⟩ := C78_strict_sizing G_ok (Ω := 5) (by norm_num) (by decide +kernel) (tokenSizes := [4]) rfl
    (solve := fun _ => some sol5) (fun o rows ho hr => by
      rw [strict5] at ho; cases ho
      have : fixedRows G (Offsets.get [(0, [0, 5 / 2]), (1, [0])]) 5 = some rows5 := by decide +kernel
      rw [this] at hr; cases hr
      exact sol5_optimal)
  have h0 : strictSizing (fun _ => some sol5) G [4] 5 true false = some ⟨true, 12, [3]⟩ := by decide +kernel
  rw [h0] at h1; cases h1
  exact h2.1 rfl

end OffsetExample

open OffsetExample in
/-- C80 applies, with virtual buffers of twice the computed size, and C79 applies; for the solution found above the channel of the
virtual buffer has six initial tokens. -/
example : (∃ solve Gv, addVBuffers solve G 5 2 true false = some Gv ∧ ∃ σ, ValidGen Gv σ ∧ StrictlyPeriodic Gv 5 σ) ∧
    (∃ solveMM solve, ∀ kind, ∃ r, fixedSizing solveMM solve G [4] 5 kind true false = some r) ∧
    (addVBuffers (fun _ => some sol5) G 5 2 true false).map (fun x => x.channels.map (·.1.preload)) = some [0, 6] := by
  obtain ⟨solve, s1, s2⟩ := exists_solver true
  obtain ⟨solveMM, hs⟩ := exists_minmax_solver G 5
  obtain ⟨Gv, r, g1, -, -, -, -, -, g2⟩ := C80_virtual_buffers G_ok (by decide) (by norm_num) strict_exists (mul := 2) (by norm_num)
    (ilp := true) (solve := solve) (fun _ rows _ h => s2 rows h)
  refine ⟨⟨solve, Gv, g1, g2⟩, ⟨solveMM, solve, fun kind => ?_⟩, by decide +kernel⟩
  obtain ⟨r, h1, -⟩ := C79_fixed_sizing G_ok (by norm_num) (by unfold workBefore; decide +kernel) hs kind (tokenSizes := [4]) rfl s1
  exact ⟨r, h1⟩

namespace BufferExample

/-- The program for the graph of two tasks with one phase, and the period 3. -/
def rows3 : List LPRow := [⟨[(.start 1 0, 1), (.start 0 0, -1)], 7 / 2⟩,
  ⟨[(.loc 0 1 1, -3 / 2), (.start 0 0, 1), (.start 1 0, -1)], 3⟩, ⟨[(.loc 0 1 1, 1), (.mo 0, 1)], 0⟩]

def sol3 : LPVar → ℚ
  | .start 1 _ => 7 / 2
  | .mo 0 => 5
  | .loc 0 1 1 => -5
  | _ => 0

theorem sol3_optimal : LPOptimal G [4] rows3 true sol3 := by
  have hint : ∀ x : LPVar, (∀ t a, x ≠ .start t a) → ∃ z : Int, sol3 x = z := by
    intro x hx
    unfold sol3; split
    · exact absurd rfl (hx _ _)
    · exact ⟨5, by norm_num⟩
    · exact ⟨-5, by norm_num⟩
    · exact ⟨0, by norm_num⟩
  refine ⟨⟨?_, ?_, ?_, ?_, ?_⟩, fun v hv => ?_⟩
  · intro r hr
    simp only [rows3, List.mem_cons, List.not_mem_nil, or_false] at hr
    rcases hr with rfl | rfl | rfl <;> (simp [LPRow.value, sol3]; try norm_num)
  · intro t a; unfold sol3; split <;> first | (norm_num; done) | (rename_i h; cases h)
  · intro i; unfold sol3; split <;> first | (norm_num; done) | (rename_i h; cases h)
  · intro _ i; exact hint _ (by simp)
  · intro _ i a b; exact hint _ (by simp)
  have h1 := hv.rows _ (List.mem_cons_self ..)
  have h2 := hv.rows _ (List.mem_cons_of_mem _ (List.mem_cons_self ..))
  have h3 := hv.rows _ (List.mem_cons_of_mem _ (List.mem_cons_of_mem _ (List.mem_cons_self ..)))
  simp only [LPRow.value, List.map_cons, List.map_nil, List.sum_cons, List.sum_nil] at h1 h2 h3
  show (∑ i : Fin 1, sol3 (.mo i) * _) ≤ ∑ i : Fin 1, v (.mo i) * _
  simp only [univ_unique, Fin.default_eq_zero, sum_singleton, sol3]
  obtain ⟨z, hz⟩ := hv.locInt rfl 0 1 1
  have hz' : z ≤ -5 := by
    by_contra h
    have : (-4 : ℚ) ≤ z := by exact_mod_cast (by omega : (-4 : Int) ≤ z)
    rw [hz] at h2
    linarith
  have hz'' : (z : ℚ) ≤ -5 := by exact_mod_cast hz'
  rw [hz] at h3
  norm_num
  linarith

end BufferExample

open BufferExample in
/-- **C81 is violated.** With a correct solver, the strictly periodic sizing and the sizing with burst offsets report a valid
result for a period in which a task with a single phase does not fit: no schedule at all has this period. -/
theorem C81_violated : ∃ (B : BaseGraph) (Ω : ℚ) (solve : List LPRow → Option (LPVar → ℚ)) (rows : List LPRow) (o : Offsets),
    BaseOK B ∧ 0 < Ω ∧ strictOffsets B Ω = some (some o) ∧ fixedOffsets (fun _ => none) B Ω .burst = some o ∧
    fixedRows B o.get Ω = some rows ∧ SolverAnswer B [4] rows true (solve rows) ∧
    (¬ ∃ σ, ValidGen B σ ∧ PeriodicSchedule B σ Ω) ∧
    strictSizing solve B [4] Ω true false = some ⟨true, 20, [5]⟩ ∧
    fixedSizing (fun _ => none) solve B [4] Ω .burst true false = some ⟨true, 20, [5]⟩ := by
  refine ⟨G, 3, fun _ => some sol3, rows3, [(0, [0]), (1, [0])], G_ok, by norm_num, by decide +kernel, by decide +kernel,
    by decide +kernel, sol3_optimal, ?_, by decide +kernel, by decide +kernel⟩
  rintro ⟨σ, h1, h2⟩
  have h3 := h1.noOverlap A (by simp [G]) 0
  have h4 := h2 A (by simp [G]) 0
  have h5 : A.durations.length = 1 := rfl
  have h6 : A.dur 0 = 2 := by decide +kernel
  have h7 : (A.ni : ℚ) = 2 := by norm_num [A]
  rw [h5] at h4
  rw [h6] at h3
  rw [h7] at h4
  norm_num at h4
  linarith

/-- **C81** (partial) A valid result of the strictly periodic integer sizing means that the period is possible, if the tasks with a
single phase fit in their periods. The full property, without this assumption, does not hold: see `C81_violated`. -/
theorem C81_valid_partial {B : BaseGraph} (hB : BaseOK B) {Ω : ℚ} (hΩ : 0 < Ω)
    (hone : ∀ t ∈ B.tasks, t.durations.length = 1 → t.dur 0 ≤ Ω / t.ni)
    {tokenSizes : List Int} (hts : tokenSizes.length = B.channels.length) {solve : List LPRow → Option (LPVar → ℚ)}
    (hsol : ∀ o rows, strictOffsets B Ω = some (some o) → fixedRows B o.get Ω = some rows → SolverAnswer B tokenSizes rows true (solve rows))
    {r : SizingResult} (hr : strictSizing solve B tokenSizes Ω true false = some r) (hv : r.valid = true) :
    ∃ σ, ValidGen B σ ∧ PeriodicSchedule B σ Ω := by
  obtain ⟨r', h1, h2, -⟩ := C78_strict_sizing hB hΩ hone hts hsol
  rw [hr] at h1; cases h1
  obtain ⟨σ, h3, h4⟩ := h2.1 hv
  refine ⟨σ, h3, fun t ht k => ?_⟩
  obtain ⟨x, -, hx⟩ := h4 t ht
  rw [hx, hx]; push_cast; ring

end Kiter
