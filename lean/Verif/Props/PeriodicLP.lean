/-
C83: the linear programs behind LP1, LPN and REALLP1 compute the same periods as the event-graph methods.
-/
import Verif.Lemmas.PeriodicLP
import Verif.Props.FixedK

set_option autoImplicit false

namespace Kiter

/-- The rows hold exactly when the constraints of the event graph do. -/
theorem lpRows_spec {B : BaseGraph} (hB : BaseOK B) {K : Int → ℕ} (hK : ∀ i, 0 < K i) :
    ∃ rs cs, lpRows B K = some rs ∧ eventGraph (B.withK K) = some cs ∧
      ∀ v, SHolds v rs ↔ ∀ c ∈ cs, Satisfies (fun e => v (.start e)) (v .omega) c := by
  have hok := withK_ok hB (K := K) (fun t _ => hK _)
  obtain ⟨cs, hcs⟩ := eventGraph_total hok
  have hk : ∀ t ∈ B.tasks, TaskOK t (K t.id) := fun t ht => by
    have := hB.tasks t ht
    exact ⟨this.phases, this.noInit, this.durNonneg, this.reentrancy, this.ni, hK _⟩
  obtain ⟨a, ha, ea⟩ := gather_spec (fun t => lpTask t (K t.id))
    (fun v t => ∀ x, selfLoopConstraints t (K t.id) = some x → ∀ c ∈ x, Satisfies (fun e => v (.start e)) (v .omega) c) B.tasks
    (fun t ht => by
      obtain ⟨rs, cs, h1, h2, h3⟩ := lpTask_spec (hk t ht)
      refine ⟨rs, h1, fun v => ?_⟩
      rw [h3, h2]
      simp only [Option.some.injEq, forall_eq'])
  obtain ⟨b, hb, eb⟩ := gather_spec (fun c : BChannel => lpChannel c.2.1 c.2.2 c.1 (K c.2.1.id) (K c.2.2.id))
    (fun v e => ∀ x, channelConstraints e.2.1 e.2.2 e.1 (K e.2.1.id) (K e.2.2.id) = some x →
      ∀ c ∈ x, Satisfies (fun e => v (.start e)) (v .omega) c) B.channels
    (fun e he => by
      obtain ⟨s1, s2, hc⟩ := hB.channels e he
      obtain ⟨rs, cs, h1, h2, h3⟩ := lpChannel_spec (Kj := K e.2.2.id) hc (hB.tasks _ s1) (hB.tasks _ s2) (hK e.2.1.id) (hB.multiple _ s1)
      refine ⟨rs, h1, fun v => ?_⟩
      rw [h3, h2]
      simp only [Option.some.injEq, forall_eq'])
  refine ⟨a ++ b, cs, ?_, hcs, fun v => ?_⟩
  · unfold lpRows
    rw [ha]
    simp only [Option.bind_eq_bind, Option.bind_some]
    rw [hb]; rfl
  · unfold eventGraph at hcs
    simp only [Option.bind_eq_bind] at hcs
    obtain ⟨x, hx, hcs⟩ := Option.bind_eq_some_iff.mp hcs
    obtain ⟨y, hy, hcs⟩ := Option.bind_eq_some_iff.mp hcs
    cases hcs
    rw [srows_append, ea, eb]
    constructor
    · rintro ⟨h1, h2⟩ c hc
      rcases List.mem_append.mp hc with hc | hc
      · obtain ⟨tk, htk, z, hz, hcz⟩ := (collect_mem _ _ _ hx c).mp hc
        obtain ⟨t, ht, rfl⟩ := List.mem_map.mp htk
        exact h1 t ht z hz c hcz
      · obtain ⟨ch, hch, z, hz, hcz⟩ := (collect_mem _ _ _ hy c).mp hc
        obtain ⟨e, he, rfl⟩ := List.mem_map.mp hch
        exact h2 e he z hz c hcz
    · intro H
      refine ⟨fun t ht z hz c hc => H c (List.mem_append_left _ ?_), fun e he z hz c hc => H c (List.mem_append_right _ ?_)⟩
      · exact (collect_mem _ _ _ hx c).mpr ⟨(t, K t.id), List.mem_map.mpr ⟨t, ht, rfl⟩, z, hz, hc⟩
      · exact (collect_mem _ _ _ hy c).mpr ⟨_, List.mem_map.mpr ⟨e, he, rfl⟩, z, hz, hc⟩

/-- **C83** The program is always generated, and for every vector of column values with `OMEGA ≥ 0` its rows hold exactly when
the infinite K-periodic schedule made of these starts and of the period `OMEGA` is valid. -/
theorem C83_rows_iff_valid {B : BaseGraph} (hB : BaseOK B) {K : Int → ℕ} (hK : ∀ i, 0 < K i) :
    ∃ rs, lpRows B K = some rs ∧ ∀ v, 0 ≤ v .omega →
      (SHolds v rs ↔ ValidSchedule (B.withK K) (fun e => v (.start e)) (v .omega)) := by
  obtain ⟨rs, cs, h1, h2, h3⟩ := lpRows_spec hB hK
  refine ⟨rs, h1, fun v hv => ?_⟩
  obtain ⟨cs', h', e⟩ := C15_C16_graph_iff (withK_ok hB (K := K) (fun t _ => hK _)) (fun e => v (.start e)) hv
  rw [h2] at h'; cases h'
  rw [h3, e]

/-- Column values made of starts, shifted by a constant. -/
def shiftedValues (S : Event → ℚ) (Ω C : ℚ) : SVar → ℚ
  | .omega => Ω
  | .init _ _ => 0
  | .start e => S e + C

/-- A constant that makes finitely many columns non-negative. -/
theorem exists_shift (S : Event → ℚ) (l : List SVar) : ∃ C : ℚ, ∀ e, SVar.start e ∈ l → 0 ≤ S e + C := by
  induction l with
  | nil => exact ⟨0, by simp⟩
  | cons x l ih =>
    obtain ⟨C, hC⟩ := ih
    cases x with
    | omega => exact ⟨C, fun e he => hC e (by simpa using he)⟩
    | init _ _ => exact ⟨C, fun e he => hC e (by simpa using he)⟩
    | start f =>
      refine ⟨max C (-S f), fun e he => ?_⟩
      rcases List.mem_cons.mp he with h | h
      · cases h
        have := le_max_right C (-S f); linarith
      · have := le_max_left C (-S f); have := hC e h; linarith

/-- Solutions of the program are the K-periodic schedules, up to a shift. -/
theorem lp_feasible_iff {B : BaseGraph} (hB : BaseOK B) {K : Int → ℕ} (hK : ∀ i, 0 < K i) {rs : List SRow} (hrs : lpRows B K = some rs)
    (Ω : ℚ) : (∃ v, SFeasible (lpColumns B K) rs v ∧ v .omega = Ω) ↔ Ω ∈ KPeriods B K := by
  obtain ⟨rs', cs, h1, h2, h3⟩ := lpRows_spec hB hK
  rw [hrs] at h1; cases h1
  have hval : ∀ S, 0 ≤ Ω → ((∀ c ∈ cs, Satisfies S Ω c) ↔ ValidSchedule (B.withK K) S Ω) := fun S h0 => by
    obtain ⟨cs', h', e⟩ := C15_C16_graph_iff (withK_ok hB (K := K) (fun t _ => hK _)) S h0
    rw [h2] at h'; cases h'
    exact e
  constructor
  · rintro ⟨v, ⟨n, h⟩, rfl⟩
    have h0 : 0 ≤ v .omega := n _ (by simp [lpColumns])
    exact ⟨h0, _, (hval _ h0).mp ((h3 v).mp h)⟩
  · rintro ⟨h0, S, hS⟩
    obtain ⟨C, hC⟩ := exists_shift S (lpColumns B K)
    refine ⟨shiftedValues S Ω C, ⟨fun c hc => ?_, (h3 _).mpr fun c hc => ?_⟩, rfl⟩
    · cases c with
      | omega => exact h0
      | init _ _ => exact le_rfl
      | start e => exact hC e hc
    · have := (hval S h0).mpr hS c hc
      unfold Satisfies at this ⊢
      unfold shiftedValues
      simp only
      linarith

theorem collectLP_some {B : BaseGraph} (hB : BaseOK B) {K : Int → ℕ} (hK : ∀ i, 0 < K i) (v : SVar → ℚ) :
    collectLP B K v = some (B.tasks.map fun t => ⟨t.id, v .omega / ((t.ni : ℚ) / K t.id),
      (List.range' 1 t.durations.length).flatMap fun (a : ℕ) => (List.range' 1 (K t.id)).map fun (k : ℕ) => v (.start ⟨t.id, a, k⟩)⟩) := by
  unfold collectLP
  apply mapM_some
  intro t ht
  have hk := hB.tasks t ht
  rw [if_neg (by have := hk.ni; have := hK t.id; omega), hk.noInit]
  simp

/-- What the programs return, from what the solver returns. -/
theorem lpResult_cases {B : BaseGraph} (hB : BaseOK B) (hT : B.tasks ≠ []) {K : Int → ℕ} (hK : ∀ i, 0 < K i)
    (solve : List SVar → List SRow → Option (SVar → ℚ)) (rows : List SRow) {s : LPSchedule} (h : lpResult solve B K rows = some s) :
    (solve (lpColumns B K) rows = none ∧ s.period = 0) ∨
    ∃ v, solve (lpColumns B K) rows = some v ∧ s.period = v .omega ∧ collectLP B K v = some s.tasks := by
  unfold lpResult at h
  rw [if_neg (by simpa using hT)] at h
  cases hr : solve (lpColumns B K) rows with
  | none => rw [hr] at h; simp only [Option.some.injEq] at h; left; exact ⟨rfl, by rw [← h]⟩
  | some v =>
    rw [hr] at h
    simp only at h
    rw [collectLP_some hB hK] at h
    simp only [Option.map_some, Option.some.injEq] at h
    right
    exact ⟨v, rfl, by rw [← h], by rw [collectLP_some hB hK, ← h]⟩

/-- **C83** LP1 and LPN: the commands always return a result; the period is the smallest period of a valid K-periodic schedule, or
0 when there is none. -/
theorem C83_lp_optimal {B : BaseGraph} (hB : BaseOK B) (hT : B.tasks ≠ []) {K : Int → ℕ} (hK : ∀ i, 0 < K i)
    {solve : List SVar → List SRow → Option (SVar → ℚ)} (hs : ∀ rs, lpRows B K = some rs → SSolves solve (lpColumns B K) rs) :
    ∃ s, lpSchedule solve B K = some s ∧
      (IsLeast (KPeriods B K) s.period ∨ (KPeriods B K = ∅ ∧ s.period = 0)) := by
  obtain ⟨rs, cs, h1, h2, h3⟩ := lpRows_spec hB hK
  have hsol := hs rs h1
  have hex : ∃ s, lpResult solve B K rs = some s := by
    unfold lpResult
    rw [if_neg (by simpa using hT)]
    cases solve (lpColumns B K) rs with
    | none => exact ⟨_, rfl⟩
    | some v => exact ⟨_, by simp only; rw [collectLP_some hB hK]; rfl⟩
  obtain ⟨s, hres⟩ := hex
  refine ⟨s, by unfold lpSchedule; rw [h1]; exact hres, ?_⟩
  rcases lpResult_cases hB hT hK solve rs hres with ⟨hn, hp⟩ | ⟨v, hv, hp, -⟩
  · right
    refine ⟨?_, hp⟩
    rw [Set.eq_empty_iff_forall_notMem]
    intro Ω hΩ
    obtain ⟨w, hw, -⟩ := (lp_feasible_iff hB hK h1 Ω).mpr hΩ
    exact hsol.fails hn w hw
  · left
    rw [hp]
    refine ⟨(lp_feasible_iff hB hK h1 _).mp ⟨v, hsol.sound v hv, rfl⟩, fun Ω hΩ => ?_⟩
    obtain ⟨w, hw, rfl⟩ := (lp_feasible_iff hB hK h1 Ω).mpr hΩ
    exact hsol.best v hv w hw

/-- **C83** The linear program and the event-graph method agree for every periodicity vector: the period of the former is the
inverse of the throughput of the latter, and 0 when the latter finds no schedule. -/
theorem C83_lp_agrees {B : BaseGraph} (hB : BaseOK B) (hT : B.tasks ≠ []) {K : Int → ℕ} (hK : ∀ i, 0 < K i)
    {solve : List SVar → List SRow → Option (SVar → ℚ)} (hs : ∀ rs, lpRows B K = some rs → SSolves solve (lpColumns B K) rs)
    {mcrp : List EvConstraint → Option (ℚ × List EvConstraint)} (hm : SolvesFor B K mcrp) {th : ℚ} {cc : List BChannel}
    (h : kSchedule mcrp B K = some (th, cc)) {s : LPSchedule} (hl : lpSchedule solve B K = some s) :
    (0 < th → s.period = 1 / th) ∧ (th ≤ 0 → s.period = 0) := by
  obtain ⟨s', h', hc⟩ := C83_lp_optimal hB hT hK hs
  rw [hl] at h'; cases h'
  obtain ⟨a, b⟩ := C82_fixed_vector hB hK hm h
  constructor
  · intro hth
    rcases hc with hc | ⟨hc, -⟩
    · exact hc.unique (a hth).1
    · have := (a hth).1.1
      rw [hc] at this; exact absurd this (by simp)
  · intro hth
    rcases hc with hc | ⟨-, hc⟩
    · have := hc.1
      rw [b hth] at this; exact absurd this (by simp)
    · exact hc

/-- **C83** LPN (K equal to the repetition counts): the period is the smallest period the graph can sustain over all schedules,
or 0 when the graph has no valid K-periodic schedule. -/
theorem C83_lpn_optimal {B : BaseGraph} (hB : BaseOK B) (hT : B.tasks ≠ [])
    {solve : List SVar → List SRow → Option (SVar → ℚ)}
    (hs : ∀ rs, lpRows B (nVector B) = some rs → SSolves solve (lpColumns B (nVector B)) rs)
    {mcrp : List EvConstraint → Option (ℚ × List EvConstraint)} (hm : SolvesFor B (nVector B) mcrp) {th : ℚ} {cc : List BChannel}
    (h : kSchedule mcrp B (nVector B) = some (th, cc)) {s : LPSchedule} (hl : lpSchedule solve B (nVector B) = some s) :
    (0 < th → IsLeast (SustainablePeriods B) s.period) ∧ (th ≤ 0 → s.period = 0 ∧ ¬ ∃ σ, ValidGen B σ) := by
  obtain ⟨a, b⟩ := C82_nperiodic_optimal hB hm h
  obtain ⟨c, d⟩ := C83_lp_agrees hB hT (nVector_pos hB) hs hm h hl
  exact ⟨fun hth => by rw [c hth]; exact a hth, fun hth => ⟨d hth, b hth⟩⟩

/-! ### REALLP1 -/

theorem strictRows_spec {t : KTask} (ht : TaskOK t 1) : ∃ rs, strictRows t = some rs ∧ ∀ v, SHolds v rs ↔
    ∀ a : ℕ, a + 1 < t.durations.length → v (.start (evAt t (a + 1))) = v (.start (evAt t a)) + v .omega / t.ni := by
  have hev : ∀ a, a < t.durations.length → evAt t a = ⟨t.id, (a : Int) + 1, 1⟩ := fun a ha => by
    unfold evAt; rw [Nat.mod_eq_of_lt ha, Nat.div_eq_of_lt ha]; simp
  obtain ⟨rs, h1, h2⟩ := gather_spec (fun (a : ℕ) => if t.ni = 0 then none else
      some [⟨[(SVar.start ⟨t.id, (a : Int) - 1, 1⟩, -1), (SVar.start ⟨t.id, a, 1⟩, 1), (SVar.omega, -1 / (t.ni : ℚ))], 0, true⟩])
    (fun v a => v (.start ⟨t.id, a, 1⟩) = v (.start ⟨t.id, (a : Int) - 1, 1⟩) + v .omega / t.ni)
    (List.range' 2 (t.durations.length - 1)) (fun a _ => by
      rw [if_neg ht.ni.ne']
      refine ⟨_, rfl, fun v => ?_⟩
      unfold SHolds SRow.Ok SRow.value
      simp only [List.mem_singleton, forall_eq, if_true, List.map_cons, List.map_nil, List.sum_cons, List.sum_nil]
      have e : -1 / (t.ni : ℚ) * v .omega = -(v .omega / t.ni) := by ring
      rw [e]
      constructor <;> intro h <;> linarith)
  refine ⟨rs, h1, fun v => ?_⟩
  rw [h2]
  simp only [List.mem_range'_1]
  constructor
  · intro H a ha
    have := H (a + 2) ⟨by omega, by omega⟩
    rw [hev _ ha, hev a (by omega)]
    push_cast at this ⊢
    rw [show (a : Int) + 2 - 1 = a + 1 by ring] at this
    rw [show (a : Int) + 1 + 1 = a + 2 by ring]
    exact this
  · intro H a ha
    obtain ⟨b, rfl⟩ : ∃ b, a = b + 2 := ⟨a - 2, by omega⟩
    have := H b (by omega)
    rw [hev _ (by omega), hev b (by omega)] at this
    push_cast at this ⊢
    rw [show (b : Int) + 2 - 1 = b + 1 by ring]
    rw [show (b : Int) + 1 + 1 = b + 2 by ring] at this
    exact this

/-- With equidistant phases, the 1-periodic schedule is the strictly periodic one. -/
theorem execStart_strict {t : KTask} (ht : TaskOK t 1) {S : Event → ℚ} {Ω : ℚ}
    (h : ∀ a : ℕ, a + 1 < t.durations.length → S (evAt t (a + 1)) = S (evAt t a) + Ω / t.ni) (k : ℕ) :
    execStart S Ω t 1 k = strictStart S Ω t k := by
  have h1 : ∀ a : ℕ, a < t.durations.length → S (evAt t a) = S (evAt t 0) + a * (Ω / t.ni) := by
    intro a
    induction a with
    | zero => intro _; simp
    | succ a ih => intro ha; rw [h a ha, ih (by omega)]; push_cast; ring
  have h0 : evAt t 0 = ⟨t.id, 1, 1⟩ := by unfold evAt; simp
  have hmod := Nat.mod_lt k ht.phases
  have h2 := h1 _ hmod
  unfold strictStart
  rw [← h0]
  unfold execStart
  rw [Nat.mod_one, one_mul]
  have e : (⟨t.id, ((k % t.durations.length : ℕ) : Int) + 1, ((0 : ℕ) : Int) + 1⟩ : Event) = evAt t (k % t.durations.length) := by
    unfold evAt
    rw [Nat.mod_mod, Nat.div_eq_of_lt hmod]
  rw [e, h2]
  have e2 : (k : ℚ) = ((k % t.durations.length : ℕ) : ℚ) + ((k / t.durations.length : ℕ) : ℚ) * t.durations.length := by
    exact_mod_cast (Nat.mod_add_div' k t.durations.length).symm
  conv_rhs => rw [e2]
  push_cast
  ring

/-- The rows of REALLP1: the 1-periodic rows and the equidistance of the phases. -/
theorem realRows_spec {B : BaseGraph} (hB : BaseOK B) : ∃ rs, realRows B = some rs ∧ ∀ v, 0 ≤ v .omega →
    (SHolds v rs ↔ (∀ t ∈ B.tasks, ∀ a : ℕ, a + 1 < t.durations.length →
        v (.start (evAt t (a + 1))) = v (.start (evAt t a)) + v .omega / t.ni) ∧
      ValidStarts B (strictStart (fun e => v (.start e)) (v .omega))) := by
  obtain ⟨f, hf, ef⟩ := gather_spec strictRows (fun v t => ∀ a : ℕ, a + 1 < t.durations.length →
    v (.start (evAt t (a + 1))) = v (.start (evAt t a)) + v .omega / t.ni) B.tasks (fun t ht => strictRows_spec (hB.tasks t ht))
  obtain ⟨r, hr, er⟩ := C83_rows_iff_valid hB (K := fun _ => 1) (fun _ => Nat.one_pos)
  refine ⟨f ++ r, ?_, fun v hv => ?_⟩
  · unfold realRows
    rw [if_neg, hf]
    · simp only [Option.bind_eq_bind, Option.bind_some]
      rw [hr]; rfl
    · simp only [List.any_eq_true, not_exists, not_and]
      intro t ht
      rw [(hB.tasks t ht).noInit]; simp
  · rw [srows_append, ef, er v hv]
    refine and_congr_right fun hst => ?_
    have hst' : ∀ t ∈ B.tasks, execStart (fun e => v (.start e)) (v .omega) t 1 = strictStart (fun e => v (.start e)) (v .omega) t :=
      fun t ht => funext fun k => execStart_strict (hB.tasks t ht) (hst t ht) k
    constructor
    · rintro ⟨v1, v2⟩
      refine ⟨fun t ht k => ?_, fun c hc => ?_⟩
      · have := v1 (t, 1) (List.mem_map.mpr ⟨t, ht, rfl⟩) k
        unfold execEnd at this
        rw [hst' t ht] at this
        exact this
      · have := v2 _ (List.mem_map.mpr ⟨c, hc, rfl⟩)
        obtain ⟨s1, s2, -⟩ := hB.channels c hc
        unfold ChannelSafe execEnd at this
        simp only at this
        rw [hst' _ s1, hst' _ s2] at this
        exact this
    · rintro ⟨v1, v2⟩
      refine ⟨fun tk htk k => ?_, fun ch hch => ?_⟩
      · obtain ⟨t, ht, rfl⟩ := List.mem_map.mp htk
        have := v1 t ht k
        unfold execEnd
        simp only
        rw [hst' t ht]
        exact this
      · obtain ⟨c, hc, rfl⟩ := List.mem_map.mp hch
        obtain ⟨s1, s2, -⟩ := hB.channels c hc
        have := v2 c hc
        unfold ChannelSafe execEnd
        simp only
        rw [hst' _ s1, hst' _ s2]
        exact this

/-- Solutions of the program of REALLP1 are the strictly periodic schedules, up to a shift. -/
theorem real_feasible_iff {B : BaseGraph} (hB : BaseOK B) (hT : B.tasks ≠ []) {rs : List SRow} (hrs : realRows B = some rs)
    (Ω : ℚ) : (∃ v, SFeasible (lpColumns B fun _ => 1) rs v ∧ v .omega = Ω) ↔ Ω ∈ StrictPeriods B := by
  obtain ⟨rs', h1, h3⟩ := realRows_spec hB
  rw [hrs] at h1; cases h1
  constructor
  · rintro ⟨v, ⟨n, h⟩, rfl⟩
    have h0 : 0 ≤ v .omega := n _ (by simp [lpColumns])
    exact ⟨_, ((h3 v h0).mp h).2⟩
  · rintro ⟨S, hS⟩
    obtain ⟨cs, hcs⟩ := C49_total hB false
    have h0 : 0 ≤ Ω := (sp_nonneg hB hcs (Or.inr hS)).resolve_right hT
    set S' : Event → ℚ := fun e => S ⟨e.task, 1, 1⟩ + ((e.phase : ℚ) - 1) * (Ω / ((((B.find e.task).map fun t => t.ni).getD 1 : Int) : ℚ)) with hS'
    obtain ⟨C, hC⟩ := exists_shift S' (lpColumns B fun _ => 1)
    refine ⟨shiftedValues S' Ω C, ⟨fun c hc => ?_, (h3 _ h0).mpr ⟨fun t ht a ha => ?_, ?_⟩⟩, rfl⟩
    · cases c with
      | omega => exact h0
      | init _ _ => exact le_rfl
      | start e => exact hC e hc
    · unfold shiftedValues
      simp only [hS', evAt, find_eq hB ht, Option.map_some, Option.getD_some]
      rw [Nat.mod_eq_of_lt ha, Nat.mod_eq_of_lt (by omega : a < t.durations.length)]
      push_cast
      ring
    · have e : ∀ t k, strictStart (fun e => shiftedValues S' Ω C (.start e)) Ω t k = strictStart S Ω t k + C := fun t k => by
        unfold strictStart shiftedValues
        simp only [hS']
        push_cast
        ring
      refine ⟨fun t ht k => ?_, fun c hc => ?_⟩
      · have := hS.noOverlap t ht k
        have h1 := e t k
        have h2 := e t (k + 1)
        change strictStart (fun e => shiftedValues S' Ω C (.start e)) Ω t k + t.dur k ≤ strictStart (fun e => shiftedValues S' Ω C (.start e)) Ω t (k + 1)
        linarith
      · have := hS.channels c hc
        change NeverShort _ _ _ (fun k => strictStart (fun e => shiftedValues S' Ω C (.start e)) Ω c.2.1 k + c.2.1.dur k)
          (strictStart (fun e => shiftedValues S' Ω C (.start e)) Ω c.2.2)
        have e1 : (fun k => strictStart (fun e => shiftedValues S' Ω C (.start e)) Ω c.2.1 k + c.2.1.dur k) =
            fun k => (strictStart S Ω c.2.1 k + c.2.1.dur k) + C := funext fun k => by rw [e]; ring
        have e2 : strictStart (fun e => shiftedValues S' Ω C (.start e)) Ω c.2.2 = fun k => strictStart S Ω c.2.2 k + C := funext fun k => e _ k
        rw [e1, e2]
        intro x Q hQ
        obtain ⟨P, h1, h2⟩ := this (x - C) Q (fun l hl => by have := hQ l hl; linarith)
        exact ⟨P, fun k hk => by have := h1 k hk; linarith, h2⟩

/-- **C83** REALLP1: the command always returns a result; the period is the smallest period of a valid strictly periodic
schedule, or 0 when there is none. -/
theorem C83_real_optimal {B : BaseGraph} (hB : BaseOK B) (hT : B.tasks ≠ [])
    {solve : List SVar → List SRow → Option (SVar → ℚ)} (hs : ∀ rs, realRows B = some rs → SSolves solve (lpColumns B fun _ => 1) rs) :
    ∃ s, realSchedule solve B = some s ∧
      (IsLeast (StrictPeriods B) s.period ∨ (StrictPeriods B = ∅ ∧ s.period = 0)) := by
  obtain ⟨rs, h1, h3⟩ := realRows_spec hB
  have hK : ∀ i : Int, 0 < (fun _ : Int => 1) i := fun _ => Nat.one_pos
  have hsol := hs rs h1
  have hex : ∃ s, lpResult solve B (fun _ => 1) rs = some s := by
    unfold lpResult
    rw [if_neg (by simpa using hT)]
    cases solve (lpColumns B fun _ => 1) rs with
    | none => exact ⟨_, rfl⟩
    | some v => exact ⟨_, by simp only; rw [collectLP_some hB hK]; rfl⟩
  obtain ⟨s, hres⟩ := hex
  refine ⟨s, by unfold realSchedule; rw [h1]; exact hres, ?_⟩
  rcases lpResult_cases hB hT hK solve rs hres with ⟨hn, hp⟩ | ⟨v, hv, hp, -⟩
  · right
    refine ⟨?_, hp⟩
    rw [Set.eq_empty_iff_forall_notMem]
    intro Ω hΩ
    obtain ⟨w, hw, -⟩ := (real_feasible_iff hB hT h1 Ω).mpr hΩ
    exact hsol.fails hn w hw
  · left
    rw [hp]
    refine ⟨(real_feasible_iff hB hT h1 _).mp ⟨v, hsol.sound v hv, rfl⟩, fun Ω hΩ => ?_⟩
    obtain ⟨w, hw, rfl⟩ := (real_feasible_iff hB hT h1 Ω).mpr hΩ
    exact hsol.best v hv w hw

/-- **C83** REALLP1 agrees with the strictly periodic analysis (C49): its period is the inverse of the exact cycle ratio. -/
theorem C83_real_agrees {B : BaseGraph} (hB : BaseOK B) (hT : B.tasks ≠ [])
    {solve : List SVar → List SRow → Option (SVar → ℚ)} (hs : ∀ rs, realRows B = some rs → SSolves solve (lpColumns B fun _ => 1) rs)
    {cs : List EvConstraint} (hcs : generateSP B false = some cs) {th : ℚ} {p : List EvConstraint} (hp : ExactRatio cs th p)
    {s : LPSchedule} (hl : realSchedule solve B = some s) : s.period = 1 / th := by
  obtain ⟨s', h', hc⟩ := C83_real_optimal hB hT hs
  rw [hl] at h'; cases h'
  have := C49_optimal hB hcs hp
  rcases hc with hc | ⟨hc, -⟩
  · exact hc.unique this
  · have := this.1
    rw [hc] at this; exact absurd this (by simp)

/-! ### The returned schedules -/

/-- The starts of a task with a single phase, as listed in the result, are its infinite K-periodic schedule. -/
theorem collected_start {t : KTask} (h1 : t.durations.length = 1) {K : ℕ} (hK : 0 < K) (v : SVar → ℚ) (k : ℕ) :
    (⟨t.id, v .omega / ((t.ni : ℚ) / K), (List.range' 1 t.durations.length).flatMap fun (a : ℕ) =>
      (List.range' 1 K).map fun (k : ℕ) => v (.start ⟨t.id, a, k⟩)⟩ : TaskSchedule).start k =
    execStart (fun e => v (.start e)) (v .omega) t K k := by
  unfold TaskSchedule.start execStart
  rw [h1]
  simp only [List.range'_one, List.flatMap_cons, List.flatMap_nil, List.append_nil, List.length_map, List.length_range', Nat.mod_one, Nat.div_one,
    Nat.mul_one]
  have hm := Nat.mod_lt k hK
  rw [List.getD_eq_getElem _ _ (by simpa using hm)]
  simp only [List.getElem_map, List.getElem_range']
  push_cast
  have e : v .omega / ((t.ni : ℚ) / K) = v .omega * (1 * K) / t.ni := by rw [div_div_eq_mul_div, one_mul]
  rw [e]
  congr 3
  rw [one_mul, add_comm]

/-- **C83, partial** (missing: tasks with several phases, for which it is false, see `C83_collected_counterexample`) LP1 and LPN
on a graph whose tasks have a single phase: when a schedule exists, the returned one lists every task in order and is valid. -/
theorem C83_schedule_partial {B : BaseGraph} (hB : BaseOK B) (hT : B.tasks ≠ []) (hone : ∀ t ∈ B.tasks, t.durations.length = 1)
    {K : Int → ℕ} (hK : ∀ i, 0 < K i)
    {solve : List SVar → List SRow → Option (SVar → ℚ)} (hs : ∀ rs, lpRows B K = some rs → SSolves solve (lpColumns B K) rs)
    (hne : (KPeriods B K).Nonempty) {s : LPSchedule} (hl : lpSchedule solve B K = some s) :
    ∃ σ, ValidStarts B σ ∧ s.tasks.length = B.tasks.length ∧ ∀ i (hi : i < B.tasks.length) (hi' : i < s.tasks.length),
      s.tasks[i].id = B.tasks[i].id ∧ ∀ k, s.tasks[i].start k = σ B.tasks[i] k := by
  obtain ⟨rs, h1, h3⟩ := C83_rows_iff_valid hB hK
  unfold lpSchedule at hl
  rw [h1] at hl
  simp only [Option.bind_eq_bind, Option.bind_some] at hl
  rcases lpResult_cases hB hT hK solve rs hl with ⟨hn, hp⟩ | ⟨v, hv, hp, hc⟩
  · obtain ⟨Ω, hΩ⟩ := hne
    obtain ⟨w, hw, -⟩ := (lp_feasible_iff hB hK h1 Ω).mpr hΩ
    exact absurd hw ((hs rs h1).fails hn w)
  · obtain ⟨n, hh⟩ := (hs rs h1).sound v hv
    obtain ⟨v1, v2⟩ := (h3 v (n _ (by simp [lpColumns]))).mp hh
    rw [collectLP_some hB hK] at hc
    simp only [Option.some.injEq] at hc
    refine ⟨fun t => execStart (fun e => v (.start e)) (v .omega) t (K t.id), ⟨fun t ht k => ?_, fun c hc => ?_⟩, by rw [← hc]; simp, ?_⟩
    · exact v1 (t, K t.id) (List.mem_map.mpr ⟨t, ht, rfl⟩) k
    · exact v2 _ (List.mem_map.mpr ⟨c, hc, rfl⟩)
    · intro i hi hi'
      simp only [← hc, List.getElem_map]
      exact ⟨trivial, fun k => collected_start (hone _ (List.getElem_mem _)) (hK _) v k⟩

namespace LPExample

/-- Optimal values for the graph of the K-Iter example: period 15/2, the two phases of the first task at 0 and 15/4, the second
task at 17/4. -/
def values : SVar → ℚ
  | .omega => 15 / 2
  | .init _ _ => 0
  | .start e => if e.task = 0 then (if e.phase = 1 then 0 else 15 / 4) else 17 / 4

def solve : List SVar → List SRow → Option (SVar → ℚ) := fun _ _ => some values

theorem feasible {rs : List SRow} (hrs : lpRows KIterExample.G (fun _ => 1) = some rs ∨ realRows KIterExample.G = some rs) :
    SFeasible (lpColumns KIterExample.G fun _ => 1) rs values := by
  have h1 : ∀ r ∈ ((lpRows KIterExample.G fun _ => 1).getD []), if r.fixed = true then r.value values = r.lo else r.lo ≤ r.value values := by
    decide +kernel
  have h2 : ∀ r ∈ ((realRows KIterExample.G).getD []), if r.fixed = true then r.value values = r.lo else r.lo ≤ r.value values := by
    decide +kernel
  refine ⟨by decide +kernel, ?_⟩
  rcases hrs with hrs | hrs
  · rw [hrs] at h1; exact h1
  · rw [hrs] at h2; exact h2

theorem nonempty : KIterExample.G.tasks ≠ [] := by decide

theorem strict_least : IsLeast (StrictPeriods KIterExample.G) (15 / 2) := by
  have := C49_optimal KIterExample.G_ok StrictExample.gen.1 StrictExample.exact
  norm_num at this
  exact this

/-- A correct solver for the two programs of this graph. -/
theorem solves : (∀ rs, lpRows KIterExample.G (fun _ => 1) = some rs → SSolves solve (lpColumns KIterExample.G fun _ => 1) rs) ∧
    ∀ rs, realRows KIterExample.G = some rs → SSolves solve (lpColumns KIterExample.G fun _ => 1) rs := by
  constructor
  · intro rs hrs
    refine ⟨fun v hv => ?_, fun v hv w hw => ?_, fun h => by simp [solve] at h⟩
    · cases hv; exact feasible (Or.inl hrs)
    · cases hv
      exact fixedK_least.1.2 ((lp_feasible_iff KIterExample.G_ok (fun _ => Nat.one_pos) hrs _).mp ⟨w, hw, rfl⟩)
  · intro rs hrs
    refine ⟨fun v hv => ?_, fun v hv w hw => ?_, fun h => by simp [solve] at h⟩
    · cases hv; exact feasible (Or.inr hrs)
    · cases hv
      exact strict_least.2 ((real_feasible_iff KIterExample.G_ok nonempty hrs _).mp ⟨w, hw, rfl⟩)

/-- C83 applies: LP1 and REALLP1 both report the period 15/2. -/
example : (∃ s, lpSchedule solve KIterExample.G (fun _ => 1) = some s ∧ s.period = 15 / 2) ∧
    ∃ s, realSchedule solve KIterExample.G = some s ∧ s.period = 15 / 2 := by
  obtain ⟨s, h1, h2⟩ := C83_lp_optimal KIterExample.G_ok nonempty (K := fun _ => 1) (fun _ => Nat.one_pos) solves.1
  obtain ⟨s', h1', h2'⟩ := C83_real_optimal KIterExample.G_ok nonempty solves.2
  refine ⟨⟨s, h1, ?_⟩, s', h1', ?_⟩
  · rcases h2 with h2 | ⟨h2, -⟩
    · exact h2.unique fixedK_least.1
    · exact absurd fixedK_least.1.1 (by rw [show constVector 1 = fun _ => 1 from rfl, h2]; simp)
  · rcases h2' with h2' | ⟨h2', -⟩
    · exact h2'.unique strict_least
    · exact absurd strict_least.1 (by rw [h2']; simp)

/-- Two tasks with one phase. -/
def A1 : KTask := ⟨0, [1], [], 1, 2⟩
def B1 : KTask := ⟨1, [2], [], 1, 3⟩
def f1 : KChannel := ⟨1, [3], [2], [], [], 0, 1⟩
def b1 : KChannel := ⟨2, [2], [3], [], [], 6, 1⟩
def G1 : BaseGraph := ⟨[A1, B1], [(f1, A1, B1), (b1, B1, A1)]⟩

theorem G1_ok : BaseOK G1 := by
  have ok1 : ChannelOK f1 A1 B1 :=
    ⟨rfl, rfl, rfl, rfl, by decide, by decide, by decide, by decide, by decide, by decide, by decide, by decide, by decide⟩
  have ok2 : ChannelOK b1 B1 A1 :=
    ⟨rfl, rfl, rfl, rfl, by decide, by decide, by decide, by decide, by decide, by decide, by decide, by decide, by decide⟩
  refine ⟨by simp [G1, A1, B1], ?_, by decide, ?_, by simp [G1, f1, b1]⟩
  · intro t ht
    simp only [G1, List.mem_cons, List.not_mem_nil, or_false] at ht
    rcases ht with rfl | rfl
    · exact ⟨by decide, rfl, by decide, by decide, by decide, by decide⟩
    · exact ⟨by decide, rfl, by decide, by decide, by decide, by decide⟩
  · intro c hc
    simp only [G1, List.mem_cons, List.not_mem_nil, or_false] at hc
    rcases hc with rfl | rfl
    · exact ⟨by simp [G1], by simp [G1], ok1⟩
    · exact ⟨by simp [G1], by simp [G1], ok2⟩

def values1 : SVar → ℚ
  | .omega => 6
  | .init _ _ => 0
  | .start e => if e.task = 0 then 0 else 2

theorem solves1 : ∀ rs, lpRows G1 (fun _ => 1) = some rs → SSolves (fun _ _ => some values1) (lpColumns G1 fun _ => 1) rs := by
  intro rs hrs
  have h1 : ∀ r ∈ ((lpRows G1 fun _ => 1).getD []), if r.fixed = true then r.value values1 = r.lo else r.lo ≤ r.value values1 := by
    decide +kernel
  have h2 : (⟨[(.omega, 1 / 3)], 2, false⟩ : SRow) ∈ ((lpRows G1 fun _ => 1).getD []) := by decide +kernel
  rw [hrs] at h1 h2
  refine ⟨fun v hv => ?_, fun v hv w hw => ?_, fun h => by simp at h⟩
  · cases hv; exact ⟨by decide +kernel, h1⟩
  · cases hv
    have := hw.2 _ h2
    unfold SRow.Ok SRow.value at this
    simp only [Bool.false_eq_true, if_false, List.map_cons, List.map_nil, List.sum_cons, List.sum_nil] at this
    show (6 : ℚ) ≤ w .omega
    linarith

/-- The partial theorem on returned schedules applies to this graph. -/
example : ∃ s σ, lpSchedule (fun _ _ => some values1) G1 (fun _ => 1) = some s ∧ s.period = 6 ∧ ValidStarts G1 σ ∧
    s.tasks.map (fun e => e.period) = [3, 2] ∧ s.tasks.length = 2 := by
  have hv : lpSchedule (fun _ _ => some values1) G1 (fun _ => 1) = some ⟨6, [⟨0, 3, [0]⟩, ⟨1, 2, [2]⟩]⟩ := by decide +kernel
  have hne : (KPeriods G1 fun _ => 1).Nonempty := by
    obtain ⟨rs, cs, h1, -⟩ := lpRows_spec G1_ok (K := fun _ => 1) (fun _ => Nat.one_pos)
    exact ⟨6, (lp_feasible_iff G1_ok (fun _ => Nat.one_pos) h1 6).mp ⟨values1, (solves1 rs h1).sound _ rfl, rfl⟩⟩
  obtain ⟨σ, h1, -⟩ := C83_schedule_partial G1_ok (by decide) (by decide) (fun _ => Nat.one_pos) solves1 hne hv
  exact ⟨_, σ, hv, rfl, h1, rfl, rfl⟩

end LPExample

/-- **C83, returned schedule of a task with several phases**: on the graph of the K-Iter example, whatever optimal solution the
solver finds, the schedule returned by LP1 is not valid. The listed period of the first task, which has two phases, is OMEGA/Ni and
not OMEGA times the number of phases over Ni. -/
theorem C83_collected_counterexample {solve : List SVar → List SRow → Option (SVar → ℚ)}
    (hs : ∀ rs, lpRows KIterExample.G (fun _ => 1) = some rs → SSolves solve (lpColumns KIterExample.G fun _ => 1) rs) :
    ∃ s, lpSchedule solve KIterExample.G (fun _ => 1) = some s ∧ s.period = 15 / 2 ∧
      ∀ σ, (∀ e ∈ s.tasks, e.id = 0 → ∀ k, σ KIterExample.A k = e.start k) → ¬ ValidStarts KIterExample.G σ := by
  obtain ⟨s, h1, h2⟩ := C83_lp_optimal KIterExample.G_ok LPExample.nonempty (K := fun _ => 1) (fun _ => Nat.one_pos) hs
  have hp : s.period = 15 / 2 := by
    rcases h2 with h2 | ⟨h2, -⟩
    · exact h2.unique fixedK_least.1
    · exact absurd fixedK_least.1.1 (by rw [show constVector 1 = fun _ => 1 from rfl, h2]; simp)
  refine ⟨s, h1, hp, fun σ hσ hval => ?_⟩
  obtain ⟨rs, r1, r3⟩ := C83_rows_iff_valid KIterExample.G_ok (K := fun _ => 1) (fun _ => Nat.one_pos)
  unfold lpSchedule at h1
  rw [r1] at h1
  simp only [Option.bind_eq_bind, Option.bind_some] at h1
  rcases lpResult_cases KIterExample.G_ok LPExample.nonempty (fun _ => Nat.one_pos) solve rs h1 with ⟨hn, h0⟩ | ⟨v, hv, h0, hc⟩
  · rw [hp] at h0; norm_num at h0
  · obtain ⟨n, hh⟩ := (hs rs r1).sound v hv
    obtain ⟨v1, -⟩ := (r3 v (n _ (by simp [lpColumns]))).mp hh
    have a1 := v1 (KIterExample.A, 1) (by simp [BaseGraph.withK, KIterExample.G]) 0
    rw [collectLP_some KIterExample.G_ok (fun _ => Nat.one_pos)] at hc
    simp only [Option.some.injEq] at hc
    have hm : (⟨0, v .omega / ((2 : ℚ) / 1), [v (.start ⟨0, 1, 1⟩), v (.start ⟨0, 2, 1⟩)]⟩ : TaskSchedule) ∈ s.tasks := by
      rw [← hc]
      simp [KIterExample.G, KIterExample.A, List.range'_succ]
    have hA := hσ _ hm rfl
    have b1 := hval.noOverlap KIterExample.A (by simp [KIterExample.G]) 1
    rw [hA, hA] at b1
    unfold TaskSchedule.start at b1
    simp only [execEnd, execStart, KIterExample.A, KTask.dur, List.length_cons, List.length_nil] at a1 b1
    norm_num at a1 b1
    rw [← h0, hp] at b1
    linarith

end Kiter
