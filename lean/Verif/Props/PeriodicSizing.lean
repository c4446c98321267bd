/-
C73, C74 and C75: the buffer sizes computed for a periodic schedule.
-/
import Verif.Lemmas.PeriodicCapacity
import Verif.Props.BufferExploration

set_option autoImplicit false

namespace Kiter
open Finset

/-! ### Soundness of the sizes -/

theorem readMo_ge {rows : List LPRow} {ilp : Bool} {v : LPVar → ℚ} (h : LPFeasible rows ilp v) (i : ℕ) :
    v (.mo i) ≤ readMo ilp (v (.mo i)) := by
  unfold readMo
  split
  · rename_i hi
    obtain ⟨z, hz⟩ := h.moInt hi i
    rw [hz, round_intCast]
  · exact Int.le_ceil _

theorem readMo_nonneg {rows : List LPRow} {ilp : Bool} {v : LPVar → ℚ} (h : LPFeasible rows ilp v) (i : ℕ) :
    0 ≤ readMo ilp (v (.mo i)) := by
  have h1 := readMo_ge h i
  have h2 := h.mo i
  exact_mod_cast le_trans h2 h1

theorem readLoc_le {rows : List LPRow} {ilp : Bool} {v : LPVar → ℚ} (h : LPFeasible rows ilp v) (i a b : ℕ) :
    (readLoc ilp (v (.loc i a b)) : ℚ) ≤ v (.loc i a b) := by
  unfold readLoc
  split
  · rename_i hi
    obtain ⟨z, hz⟩ := h.locInt hi i a b
    rw [hz, round_intCast]
  · exact Int.floor_le _

theorem phaseDur_nonneg {t : KTask} (ht : TaskOK t 1) (k : ℕ) : 0 ≤ t.dur k := by
  unfold KTask.dur
  have hlt : k % t.durations.length < t.durations.length := Nat.mod_lt _ ht.phases
  rw [List.getD_eq_getElem _ _ hlt]
  exact ht.durNonneg _ (List.getElem_mem hlt)

theorem sched_end_mono {B : BaseGraph} (hB : BaseOK B) {t : KTask} (ht : t ∈ B.tasks) {σ : ℕ → ℚ}
    (h : ∀ k, σ k + t.dur k ≤ σ (k + 1)) : Monotone σ ∧ Monotone fun k => σ k + t.dur k := by
  have hd := phaseDur_nonneg (hB.tasks t ht)
  constructor
  · exact monotone_nat_of_le_succ fun k => by have := h k; have := hd k; linarith
  · exact monotone_nat_of_le_succ fun k => by have := h k; have := hd (k + 1); linarith

/-- Any assignment that satisfies what the rows say gives sizes that are large enough for the schedule it describes. -/
theorem sizes_sound {B : BaseGraph} (hB : BaseOK B) {Ω : ℚ} (hΩ : 0 ≤ Ω) {st : Starts} {ilp : Bool} {v : LPVar → ℚ}
    (hmo : ∀ i, 0 ≤ readMo ilp (v (.mo i))) (hloc : ∀ i a b, (readLoc ilp (v (.loc i a b)) : ℚ) ≤ v (.loc i a b))
    (hpairs : ∀ i (hi : i < B.channels.length), ∃ mop, cFloor B.channels[i].1.preload B.channels[i].1.fineGCD = some mop ∧
      ∀ a < B.channels[i].2.1.durations.length, ∀ b < B.channels[i].2.2.durations.length,
        SizePair ⟨st, i, B.channels[i], Ω, mop, stepOf B.channels[i].1⟩ v a b)
    (hX : ∀ t ∈ B.tasks, ∀ a < t.durations.length, 0 ≤ startOf st v t.id a)
    (htask : ∀ t ∈ B.tasks, (∀ a, a + 1 < t.durations.length → startOf st v t.id a + t.dur a ≤ startOf st v t.id (a + 1)) ∧
      startOf st v t.id (t.durations.length - 1) + t.dur (t.durations.length - 1) ≤
        startOf st v t.id 0 + Ω * t.durations.length / t.ni) :
    ∃ sizes, bufferSizes ilp v 0 B.channels = some sizes ∧ sizes.length = B.channels.length ∧
      BoundedSchedule B (fun i => sizes.getD i 0) (periodicSched B (startOf st v) Ω) := by
  obtain ⟨sizes, hsz, hlen, hget⟩ := bufferSizes_spec ilp v B.channels 0 (fun e he => (hB.channels e he).2.2)
  refine ⟨sizes, hsz, hlen, ?_⟩
  set σ := periodicSched B (startOf st v) Ω with hσ
  have hno : ∀ t ∈ B.tasks, ∀ k, σ t.id k + t.dur k ≤ σ t.id (k + 1) := fun t ht k =>
    periodicSched_noOverlap hB ht (htask t ht).1 (htask t ht).2 k
  have hper := periodicSched_periodic hB (startOf st v) Ω
  have hmono : ∀ t ∈ B.tasks, Monotone (σ t.id) ∧ Monotone fun k => σ t.id k + t.dur k := fun t ht =>
    sched_end_mono hB ht (hno t ht)
  refine ⟨⟨fun t ht k => ?_, hno, fun c hc => ?_⟩, fun i => ?_⟩
  · rw [hσ, periodicSched_eq hB ht]
    have h1 := hX t ht _ (Nat.mod_lt k (hB.tasks t ht).phases)
    have h2 : (0 : ℚ) < t.ni := by exact_mod_cast (hB.tasks t ht).ni
    positivity
  · obtain ⟨i, hi, rfl⟩ := List.mem_iff_getElem.1 hc
    obtain ⟨hs, ht, hok⟩ := hB.channels _ hc
    obtain ⟨mop, hmop, hp⟩ := hpairs i hi
    refine (normal_iff hok (hB.tasks _ hs).ni (hB.tasks _ ht).ni hΩ (hper _ hs) (hper _ ht) (hmono _ hs).2 (hmono _ ht).1 hmop).2 ?_
    intro m hm n hn hle
    have := (hp m hm n hn).1 hle
    rw [periodicSched_first hB hs _ _ hm, periodicSched_first hB ht _ _ hn]
    exact this
  · obtain ⟨i, hi⟩ := i
    have hc : B.channels[i] ∈ B.channels := List.getElem_mem hi
    obtain ⟨hs, ht, hok⟩ := hB.channels _ hc
    obtain ⟨mop, hmop, hp⟩ := hpairs i hi
    obtain ⟨F, hF1, hF2, hF3, -⟩ := bufferSize_spec ilp v i hok
    have hi' : i < sizes.length := by rw [hlen]; exact hi
    have hsize : sizes.getD i 0 - B.channels[i].1.preload = F := by
      have := hget i hi hi'
      rw [zero_add, hF1] at this
      rw [List.getD_eq_getElem _ _ hi', ← Option.some.inj this]; ring
    show NeverShort (rate B.channels[i].1.outPhases) (rate B.channels[i].1.inPhases) (sizes.getD i 0 - B.channels[i].1.preload)
      (fun k => σ B.channels[i].2.2.id k + B.channels[i].2.2.dur k) (σ B.channels[i].2.1.id)
    rw [hsize]
    refine room_of_pairs hok (hB.tasks _ hs).ni (hB.tasks _ ht).ni hΩ (hper _ hs) (hper _ ht) (hmono _ hs).1 (hmono _ ht).2
      (le_trans (hmo i) hF2) ?_
    intro m hm n hn hpos
    refine ⟨readLoc ilp (v (.loc i (m + 1) (n + 1))), ?_, ?_⟩
    · have := hF3 m hm n hn hpos
      unfold locBound at this
      rw [neg_mul] at this
      linarith
    · have h1 := ((hp m hm n hn).2 hpos).1
      rw [periodicSched_first hB hs _ _ hm, periodicSched_first hB ht _ _ hn]
      have h2 : (0 : ℚ) ≤ Ω * B.channels[i].2.2.durations.length / B.channels[i].2.2.ni / B.channels[i].1.outPhases.sum := by
        have : (0 : ℚ) < B.channels[i].1.outPhases.sum := by exact_mod_cast hok.outPos
        have : (0 : ℚ) < B.channels[i].2.2.ni := by exact_mod_cast (hB.tasks _ ht).ni
        positivity
      have h3 : (0 : ℚ) ≤ stepOf B.channels[i].1 := by exact_mod_cast (stepOf_pos hok).le
      have h4 := mul_le_mul_of_nonneg_left (mul_le_mul_of_nonneg_right (hloc i (m + 1) (n + 1)) h3) h2
      dsimp only [SizingCtx.mu] at h1
      rw [Int.cast_mul]
      linarith

theorem free_startOf (v : LPVar → ℚ) (t : Int) (a : ℕ) : startOf freeStarts v t a = v (.start t (a + 1)) := by
  simp [startOf, freeStarts]

/-- The rows of the free program, and what they say. -/
theorem periodicRows_spec {B : BaseGraph} (hB : BaseOK B) {Ω : ℚ} (hΩ : 0 < Ω) :
    ∃ rows, periodicRows B Ω = some rows ∧ ∀ v, Holds v rows ↔
      (∀ i (hi : i < B.channels.length), ∃ mop, cFloor B.channels[i].1.preload B.channels[i].1.fineGCD = some mop ∧
        ∀ a < B.channels[i].2.1.durations.length, ∀ b < B.channels[i].2.2.durations.length,
          SizePair ⟨freeStarts, i, B.channels[i], Ω, mop, stepOf B.channels[i].1⟩ v a b) ∧
      ∀ t ∈ B.tasks, (∀ a, a + 1 < t.durations.length → startOf freeStarts v t.id a + t.dur a ≤ startOf freeStarts v t.id (a + 1)) ∧
        startOf freeStarts v t.id (t.durations.length - 1) + t.dur (t.durations.length - 1) ≤
          startOf freeStarts v t.id 0 + Ω * t.durations.length / t.ni := by
  obtain ⟨a, ha, sa⟩ := allEdgeRows_spec (st := freeStarts) (Ω := Ω) B.channels 0 (fun e he => by
    obtain ⟨hs, ht, hok⟩ := hB.channels e he
    exact ⟨hok, (hB.tasks _ hs).ni, (hB.tasks _ ht).ni, fun m _ => ⟨0, rfl⟩, fun m _ => ⟨0, rfl⟩⟩)
  obtain ⟨b, hb, sb⟩ := allTaskRows_spec (Ω := Ω) B.tasks hB.tasks
  refine ⟨a ++ b, ?_, fun v => ?_⟩
  · unfold periodicRows; rw [if_neg (not_le.2 hΩ), ha, hb]; rfl
  · rw [holds_append, sa, sb]
    refine and_congr ?_ ?_
    · simp only [zero_add]
    · refine forall₂_congr fun t ht => ?_
      simp only [free_startOf]
      rw [Nat.sub_add_cancel (hB.tasks t ht).phases]

/-- **C73** Whatever solution of the linear program the solver returns, integer or not, the buffer sizes computed from it are
large enough: with these capacities the graph has a periodic schedule with the requested period, the one that starts the phases
where the solution says. -/
theorem C73_sizes_suffice {B : BaseGraph} (hB : BaseOK B) {Ω : ℚ} (hΩ : 0 < Ω) {rows : List LPRow}
    (hrows : periodicRows B Ω = some rows) {ilp : Bool} {v : LPVar → ℚ} (hv : LPFeasible rows ilp v) :
    ∃ sizes, bufferSizes ilp v 0 B.channels = some sizes ∧ sizes.length = B.channels.length ∧
      ∃ σ, BoundedSchedule B (fun i => sizes.getD i 0) σ ∧ PeriodicSchedule B σ Ω ∧
        ∀ t ∈ B.tasks, ∀ a < t.durations.length, σ t.id a = v (.start t.id (a + 1)) := by
  obtain ⟨rows', h', hspec⟩ := periodicRows_spec hB hΩ
  rw [hrows] at h'; cases h'
  obtain ⟨h1, h2⟩ := (hspec v).1 hv.rows
  obtain ⟨sizes, e1, e2, e3⟩ := sizes_sound hB hΩ.le (st := freeStarts) (readMo_nonneg hv) (readLoc_le hv) h1
    (fun t _ a _ => by rw [free_startOf]; exact hv.start _ _) h2
  exact ⟨sizes, e1, e2, _, e3, periodicSched_periodic hB _ _, fun t ht a ha => by
    rw [periodicSched_first hB ht _ _ ha, free_startOf]⟩

/-! ### Completeness -/

/-- The column of a pair of phases for a given schedule. -/
def locOf (B : BaseGraph) (σ : Int → ℕ → ℚ) (Ω : ℚ) (i a b : ℕ) : Int :=
  if h : i < B.channels.length then
    let e := B.channels[i]
    ⌊(σ e.2.1.id (a - 1) - σ e.2.2.id (b - 1) - e.2.2.dur (b - 1)) / (Ω * e.2.2.durations.length / e.2.2.ni / e.1.outPhases.sum * stepOf e.1)⌋
  else 0

/-- The assignment of a schedule and of free spaces `F`. -/
def assignOf (B : BaseGraph) (σ : Int → ℕ → ℚ) (Ω : ℚ) (F : ℕ → Int) : LPVar → ℚ
  | .start t a => max 0 (σ t (a - 1))
  | .mo i => F i
  | .loc i a b => locOf B σ Ω i a b

/-- The rows of the edges hold for an assignment that describes a periodic schedule and large enough free spaces. -/
theorem assign_pairs {B : BaseGraph} (hB : BaseOK B) {Ω : ℚ} (hΩ : 0 < Ω) {σ : Int → ℕ → ℚ} (hσ : ValidGen B σ)
    (hper : PeriodicSchedule B σ Ω) {F : ℕ → Int} {st : Starts} {v : LPVar → ℚ}
    (hst : ∀ t ∈ B.tasks, ∀ a < t.durations.length, startOf st v t.id a = σ t.id a) (hmo : ∀ i, v (.mo i) = F i)
    (hlo : ∀ i a b, v (.loc i a b) = locOf B σ Ω i a b)
    (hroom : ∀ i (hi : i < B.channels.length), ∀ a < B.channels[i].2.1.durations.length, ∀ b < B.channels[i].2.2.durations.length,
      0 < min (rate B.channels[i].1.inPhases a) (rate B.channels[i].1.outPhases b) →
      cum (rate B.channels[i].1.inPhases) (a + 1) - cum (rate B.channels[i].1.outPhases) b - stepOf B.channels[i].1 ≤
        stepOf B.channels[i].1 * locOf B σ Ω i (a + 1) (b + 1) + F i) (i : ℕ) (hi : i < B.channels.length) :
    ∃ mop, cFloor B.channels[i].1.preload B.channels[i].1.fineGCD = some mop ∧
      ∀ a < B.channels[i].2.1.durations.length, ∀ b < B.channels[i].2.2.durations.length,
        SizePair ⟨st, i, B.channels[i], Ω, mop, stepOf B.channels[i].1⟩ v a b := by
  have hc : B.channels[i] ∈ B.channels := List.getElem_mem hi
  obtain ⟨hs, ht, hok⟩ := hB.channels _ hc
  obtain ⟨mop, hmop, -⟩ := cFloor_spec B.channels[i].1.preload B.channels[i].1.fineGCD hok.gcdPos hok.preload
  have hms := sched_end_mono hB hs (hσ.noOverlap _ hs)
  have hmt := sched_end_mono hB ht (hσ.noOverlap _ ht)
  refine ⟨mop, hmop, fun a ha b hb => ⟨fun hle => ?_, fun hpos => ⟨?_, ?_⟩⟩⟩
  · dsimp only
    rw [hst _ hs _ ha, hst _ ht _ hb]
    exact (normal_iff hok (hB.tasks _ hs).ni (hB.tasks _ ht).ni hΩ.le (hper _ hs) (hper _ ht) hms.2 hmt.1 hmop).1
      (hσ.channels _ hc) a ha b hb hle
  · dsimp only
    rw [hst _ hs _ ha, hst _ ht _ hb, hlo]
    have q1 : (0 : ℚ) < B.channels[i].1.outPhases.sum := by exact_mod_cast hok.outPos
    have q2 : (0 : ℚ) < B.channels[i].2.2.ni := by exact_mod_cast (hB.tasks _ ht).ni
    have q3 : (0 : ℚ) < stepOf B.channels[i].1 := by exact_mod_cast stepOf_pos hok
    have q4 : (0 : ℚ) < B.channels[i].2.2.durations.length := by exact_mod_cast (hB.tasks _ ht).phases
    have q5 : (0 : ℚ) < Ω * B.channels[i].2.2.durations.length / B.channels[i].2.2.ni / B.channels[i].1.outPhases.sum * stepOf B.channels[i].1 := by
      positivity
    have := Int.floor_le ((σ B.channels[i].2.1.id a - σ B.channels[i].2.2.id b - B.channels[i].2.2.dur b) /
      (Ω * B.channels[i].2.2.durations.length / B.channels[i].2.2.ni / B.channels[i].1.outPhases.sum * stepOf B.channels[i].1))
    rw [le_div_iff₀ q5] at this
    unfold locOf SizingCtx.mu
    rw [dif_pos hi]
    dsimp only
    rw [Nat.add_sub_cancel, Nat.add_sub_cancel]
    linarith
  · have := hroom i hi a ha b hb hpos
    dsimp only
    rw [hlo, hmo]
    exact_mod_cast this

theorem assign_feasible {B : BaseGraph} (hB : BaseOK B) {Ω : ℚ} (hΩ : 0 < Ω) {rows : List LPRow}
    (hrows : periodicRows B Ω = some rows) {σ : Int → ℕ → ℚ} (hσ : ValidGen B σ) (hper : PeriodicSchedule B σ Ω) {F : ℕ → Int}
    (hF : ∀ i, 0 ≤ F i)
    (hroom : ∀ i (hi : i < B.channels.length), ∀ a < B.channels[i].2.1.durations.length, ∀ b < B.channels[i].2.2.durations.length,
      0 < min (rate B.channels[i].1.inPhases a) (rate B.channels[i].1.outPhases b) →
      cum (rate B.channels[i].1.inPhases) (a + 1) - cum (rate B.channels[i].1.outPhases) b - stepOf B.channels[i].1 ≤
        stepOf B.channels[i].1 * locOf B σ Ω i (a + 1) (b + 1) + F i) (ilp : Bool) :
    LPFeasible rows ilp (assignOf B σ Ω F) := by
  obtain ⟨rows', h', hspec⟩ := periodicRows_spec hB hΩ
  rw [hrows] at h'; cases h'
  have hst : ∀ t ∈ B.tasks, ∀ a, startOf freeStarts (assignOf B σ Ω F) t.id a = σ t.id a := by
    intro t ht a
    rw [free_startOf]
    show max 0 (σ t.id (a + 1 - 1)) = σ t.id a
    rw [Nat.add_sub_cancel]
    exact max_eq_right (hσ.nonneg t ht a)
  refine ⟨(hspec _).2 ⟨assign_pairs hB hΩ hσ hper (fun t ht a _ => hst t ht a) (fun _ => rfl) (fun _ _ _ => rfl) hroom, fun t ht => ?_⟩,
    fun t a => le_max_left _ _, fun i => by
    show (0 : ℚ) ≤ (F i : ℚ); exact_mod_cast hF i, fun _ i => ⟨F i, rfl⟩, fun _ i a b => ⟨_, rfl⟩⟩
  refine ⟨fun a _ => ?_, ?_⟩
  · rw [hst t ht, hst t ht]; exact hσ.noOverlap t ht a
  · rw [hst t ht, hst t ht]
    have h1 := hσ.noOverlap t ht (t.durations.length - 1)
    rw [Nat.sub_add_cancel (hB.tasks t ht).phases] at h1
    have h2 := hper t ht 0
    rw [zero_add] at h2
    linarith

/-- Free spaces that are enough for any schedule. -/
theorem exists_spaces (B : BaseGraph) (σ : Int → ℕ → ℚ) (Ω : ℚ) :
    ∃ F : ℕ → Int, (∀ i, 0 ≤ F i) ∧
      ∀ i (hi : i < B.channels.length), ∀ a < B.channels[i].2.1.durations.length, ∀ b < B.channels[i].2.2.durations.length,
      0 < min (rate B.channels[i].1.inPhases a) (rate B.channels[i].1.outPhases b) →
      cum (rate B.channels[i].1.inPhases) (a + 1) - cum (rate B.channels[i].1.outPhases) b - stepOf B.channels[i].1 ≤
        stepOf B.channels[i].1 * locOf B σ Ω i (a + 1) (b + 1) + F i := by
  set need : ℕ → ℕ → ℕ → Int := fun i a b => if h : i < B.channels.length then
    cum (rate B.channels[i].1.inPhases) (a + 1) - cum (rate B.channels[i].1.outPhases) b - stepOf B.channels[i].1 -
      stepOf B.channels[i].1 * locOf B σ Ω i (a + 1) (b + 1) else 0 with hneed
  set F : ℕ → Int := fun i => if h : i < B.channels.length then
    ∑ a ∈ range B.channels[i].2.1.durations.length, ∑ b ∈ range B.channels[i].2.2.durations.length, max 0 (need i a b) else 0 with hFd
  refine ⟨F, fun i => ?_, ?_⟩
  · rw [hFd]; dsimp only
    split
    · exact sum_nonneg fun a _ => sum_nonneg fun b _ => le_max_left _ _
    · exact le_rfl
  · intro i hi a ha b hb _
    have e1 : need i a b ≤ F i := by
      have : F i = ∑ a ∈ range B.channels[i].2.1.durations.length, ∑ b ∈ range B.channels[i].2.2.durations.length, max 0 (need i a b) := by
        rw [hFd]; dsimp only; rw [dif_pos hi]
      rw [this]
      refine le_trans (le_max_right 0 _) (le_trans ?_ (single_le_sum
        (f := fun a => ∑ b ∈ range B.channels[i].2.2.durations.length, max 0 (need i a b))
        (fun a _ => sum_nonneg fun b _ => le_max_left _ _) (mem_range.2 ha)))
      exact single_le_sum (f := fun b => max 0 (need i a b)) (fun b _ => le_max_left _ _) (mem_range.2 hb)
    rw [hneed] at e1; dsimp only at e1; rw [dif_pos hi] at e1
    linarith

/-- **C74** The linear program (and its integer version) has a solution exactly for the periods for which the graph has a
periodic schedule at all, with unlimited buffers. -/
theorem C74_feasible_iff {B : BaseGraph} (hB : BaseOK B) {Ω : ℚ} (hΩ : 0 < Ω) (ilp : Bool) :
    ∃ rows, periodicRows B Ω = some rows ∧
      ((∃ v, LPFeasible rows ilp v) ↔ ∃ σ, ValidGen B σ ∧ PeriodicSchedule B σ Ω) := by
  obtain ⟨rows, hrows, -⟩ := periodicRows_spec hB hΩ
  refine ⟨rows, hrows, ?_, ?_⟩
  · rintro ⟨v, hv⟩
    obtain ⟨sizes, -, -, σ, h1, h2, -⟩ := C73_sizes_suffice hB hΩ hrows hv
    exact ⟨σ, h1.valid, h2⟩
  · rintro ⟨σ, h1, h2⟩
    obtain ⟨F, hF, hroom⟩ := exists_spaces B σ Ω
    exact ⟨_, assign_feasible hB hΩ hrows h1 h2 hF hroom ilp⟩

/-! ### Optimality -/

/-- The total memory of given capacities, weighted by the token sizes. -/
def memory (B : BaseGraph) (tokenSizes : List Int) (w : Fin B.channels.length → Int) : Int :=
  ∑ i, w i * tokenSizes.getD i 0

/-- The objective of the linear program, without its constant part (periodic.cpp:131). -/
def objective (B : BaseGraph) (tokenSizes : List Int) (v : LPVar → ℚ) : ℚ :=
  ∑ i : Fin B.channels.length, v (.mo i) * (tokenSizes.getD i 0 : Int)

/-- `v` is an optimal solution. -/
structure LPOptimal (B : BaseGraph) (tokenSizes : List Int) (rows : List LPRow) (ilp : Bool) (v : LPVar → ℚ) : Prop where
  feasible : LPFeasible rows ilp v
  best : ∀ v', LPFeasible rows ilp v' → objective B tokenSizes v ≤ objective B tokenSizes v'

theorem totalSize_eq : ∀ {m : ℕ} {sizes tokenSizes : List Int}, sizes.length = m → tokenSizes.length = m →
    totalSize sizes tokenSizes = ∑ i : Fin m, sizes.getD i 0 * tokenSizes.getD i 0
  | 0, sizes, tokenSizes, h1, h2 => by
    rw [List.length_eq_zero_iff] at h1 h2; subst h1; subst h2; rfl
  | m + 1, a :: sizes, b :: tokenSizes, h1, h2 => by
    have ih := totalSize_eq (m := m) (sizes := sizes) (tokenSizes := tokenSizes) (by simpa using h1) (by simpa using h2)
    unfold totalSize at ih ⊢
    rw [List.zipWith_cons_cons, List.sum_cons, ih, Fin.sum_univ_succ]
    rfl

/-- In an integer solution the size of a buffer is its column plus the initial tokens. -/
theorem int_sizes {B : BaseGraph} (hB : BaseOK B) {Ω : ℚ} {rows : List LPRow} {v : LPVar → ℚ} {st : Starts}
    (hv : LPFeasible rows true v) (h1 : ∀ i (hi : i < B.channels.length), ∃ mop, cFloor B.channels[i].1.preload B.channels[i].1.fineGCD = some mop ∧
      ∀ a < B.channels[i].2.1.durations.length, ∀ b < B.channels[i].2.2.durations.length,
        SizePair ⟨st, i, B.channels[i], Ω, mop, stepOf B.channels[i].1⟩ v a b) {sizes : List Int}
    (hs : bufferSizes true v 0 B.channels = some sizes) (i : Fin B.channels.length) :
    ((sizes.getD i 0 - B.channels[i].1.preload : Int) : ℚ) = v (.mo i) := by
  obtain ⟨sizes', hsz, hlen, hget⟩ := bufferSizes_spec true v B.channels 0 (fun e he => (hB.channels e he).2.2)
  rw [hs] at hsz; cases hsz
  obtain ⟨i, hi⟩ := i
  obtain ⟨hsr, htg, hok⟩ := hB.channels _ (List.getElem_mem hi)
  obtain ⟨F, hF1, hF2, hF3, hF4⟩ := bufferSize_spec true v i hok
  have hi' : i < sizes.length := by rw [hlen]; exact hi
  have hF : sizes.getD i 0 - B.channels[i].1.preload = F := by
    have := hget i hi hi'
    rw [zero_add, hF1] at this
    rw [List.getD_eq_getElem _ _ hi', ← Option.some.inj this]; ring
  obtain ⟨z, hz⟩ := hv.moInt rfl i
  have hmo : readMo true (v (.mo i)) = z := by unfold readMo; rw [if_pos rfl, hz, round_intCast]
  show ((sizes.getD i 0 - B.channels[i].1.preload : Int) : ℚ) = v (.mo i)
  rw [hF, hz]
  rcases hF4 with h | ⟨a, b, ha, hb, hpos, h⟩
  · rw [h, hmo]
  · obtain ⟨mop, -, hp⟩ := h1 i hi
    have h2 := ((hp a ha b hb).2 hpos).2
    obtain ⟨y, hy⟩ := hv.locInt rfl i (a + 1) (b + 1)
    have hl : readLoc true (v (.loc i (a + 1) (b + 1))) = y := by unfold readLoc; rw [if_pos rfl, hy, round_intCast]
    dsimp only at h2
    rw [hy, hz] at h2
    have h3 : cum (rate B.channels[i].1.inPhases) (a + 1) - cum (rate B.channels[i].1.outPhases) b - stepOf B.channels[i].1 ≤
        stepOf B.channels[i].1 * y + z := by exact_mod_cast h2
    unfold locBound at h
    rw [hl] at h
    have h4 : F ≤ z := by rw [h]; linarith
    rw [hmo] at hF2
    rw [le_antisymm h4 hF2]

theorem capacity_ge_preload {B : BaseGraph} (hB : BaseOK B) {w : Fin B.channels.length → Int} {σ : Int → ℕ → ℚ}
    (h : BoundedSchedule B w σ) (i : Fin B.channels.length) : B.channels[i].1.preload ≤ w i := by
  obtain ⟨-, ht, -⟩ := hB.channels _ (List.getElem_mem i.2)
  obtain ⟨P, hP, hle⟩ := h.room i (-1) ∅ (by simp)
  have : P = ∅ := by
    rw [Finset.eq_empty_iff_forall_notMem]
    intro k hk
    have h1 : σ B.channels[i].2.2.id k + B.channels[i].2.2.dur k ≤ -1 := hP k hk
    have h2 := h.valid.nonneg _ ht k
    have h3 := h.valid.noOverlap _ ht k
    have h4 : 0 ≤ B.channels[i].2.2.dur k := phaseDur_nonneg (hB.tasks _ ht) k
    simp only [Fin.getElem_fin] at h1 h2 h3 h4
    linarith
  rw [this, sum_empty, sum_empty] at hle
  linarith

/-- The free spaces of a bounded periodic schedule. -/
theorem bounded_spaces {B : BaseGraph} (hB : BaseOK B) {Ω : ℚ} (hΩ : 0 < Ω) {w : Fin B.channels.length → Int} {σ : Int → ℕ → ℚ}
    (hσ : BoundedSchedule B w σ) (hper : PeriodicSchedule B σ Ω) :
    ∃ F : ℕ → Int, (∀ i, 0 ≤ F i) ∧ (∀ i (hi : i < B.channels.length), F i = w ⟨i, hi⟩ - B.channels[i].1.preload) ∧
      ∀ i (hi : i < B.channels.length), ∀ a < B.channels[i].2.1.durations.length, ∀ b < B.channels[i].2.2.durations.length,
      0 < min (rate B.channels[i].1.inPhases a) (rate B.channels[i].1.outPhases b) →
      cum (rate B.channels[i].1.inPhases) (a + 1) - cum (rate B.channels[i].1.outPhases) b - stepOf B.channels[i].1 ≤
        stepOf B.channels[i].1 * locOf B σ Ω i (a + 1) (b + 1) + F i := by
  set F : ℕ → Int := fun i => if h : i < B.channels.length then w ⟨i, h⟩ - B.channels[i].1.preload else 0 with hFd
  have hFi : ∀ i (hi : i < B.channels.length), F i = w ⟨i, hi⟩ - B.channels[i].1.preload := by
    intro i hi; rw [hFd]; dsimp only; rw [dif_pos hi]
  have hF0 : ∀ i, 0 ≤ F i := by
    intro i
    by_cases hi : i < B.channels.length
    · rw [hFi i hi]; have := capacity_ge_preload hB hσ ⟨i, hi⟩
      exact sub_nonneg.2 this
    · rw [hFd]; dsimp only; rw [dif_neg hi]
  refine ⟨F, hF0, hFi, ?_⟩
  · intro i hi a ha b hb _
    obtain ⟨hs, ht, hok⟩ := hB.channels _ (List.getElem_mem hi)
    have hms := sched_end_mono hB hs (hσ.valid.noOverlap _ hs)
    have hmt := sched_end_mono hB ht (hσ.valid.noOverlap _ ht)
    have hr := hσ.room ⟨i, hi⟩
    have g0 := stepOf_pos hok
    by_contra hlt
    rw [not_le] at hlt
    -- the next multiple of the step would also be needed
    have q1 : (0 : ℚ) < B.channels[i].1.outPhases.sum := by exact_mod_cast hok.outPos
    have q2 : (0 : ℚ) < B.channels[i].2.2.ni := by exact_mod_cast (hB.tasks _ ht).ni
    have q3 : (0 : ℚ) < stepOf B.channels[i].1 := by exact_mod_cast g0
    have q4 : (0 : ℚ) < B.channels[i].2.2.durations.length := by exact_mod_cast (hB.tasks _ ht).phases
    have q5 : (0 : ℚ) < Ω * B.channels[i].2.2.durations.length / B.channels[i].2.2.ni / B.channels[i].1.outPhases.sum * stepOf B.channels[i].1 := by
      positivity
    have hle : stepOf B.channels[i].1 * (locOf B σ Ω i (a + 1) (b + 1) + 1) ≤
        cum (rate B.channels[i].1.inPhases) (a + 1) - cum (rate B.channels[i].1.outPhases) b - F i - 1 := by
      have : stepOf B.channels[i].1 * (locOf B σ Ω i (a + 1) (b + 1) + 1) =
        stepOf B.channels[i].1 * locOf B σ Ω i (a + 1) (b + 1) + stepOf B.channels[i].1 := by ring
      rw [this]; omega
    have hr' : NeverShort (rate B.channels[i].1.outPhases) (rate B.channels[i].1.inPhases) (F i)
        (fun k => σ B.channels[i].2.2.id k + B.channels[i].2.2.dur k) (σ B.channels[i].2.1.id) := by
      rw [hFi i hi]; exact hr
    have key := pairs_of_room hok (hB.tasks _ hs).ni (hB.tasks _ ht).ni (hper _ hs) (hper _ ht) hms.1 hmt.2 (hF0 i)
      hr' a b (α := stepOf B.channels[i].1 * (locOf B σ Ω i (a + 1) (b + 1) + 1)) (Dvd.intro _ rfl) hle
    have hfl := Int.lt_floor_add_one ((σ B.channels[i].2.1.id a - σ B.channels[i].2.2.id b - B.channels[i].2.2.dur b) /
        (Ω * B.channels[i].2.2.durations.length / B.channels[i].2.2.ni / B.channels[i].1.outPhases.sum * stepOf B.channels[i].1))
    rw [div_lt_iff₀ q5] at hfl
    have hloc : locOf B σ Ω i (a + 1) (b + 1) = ⌊(σ B.channels[i].2.1.id a - σ B.channels[i].2.2.id b - B.channels[i].2.2.dur b) /
        (Ω * B.channels[i].2.2.durations.length / B.channels[i].2.2.ni / B.channels[i].1.outPhases.sum * stepOf B.channels[i].1)⌋ := by
      unfold locOf; rw [dif_pos hi]; dsimp only; rw [Nat.add_sub_cancel, Nat.add_sub_cancel]
    rw [← hloc] at hfl
    rw [Int.cast_mul, Int.cast_add, Int.cast_one] at key
    linarith

theorem objective_eq {B : BaseGraph} {F : ℕ → Int} {w : Fin B.channels.length → Int} (tokenSizes : List Int) {v : LPVar → ℚ}
    (hmo : ∀ i, v (.mo i) = F i) (hFi : ∀ i (hi : i < B.channels.length), F i = w ⟨i, hi⟩ - B.channels[i].1.preload) :
    objective B tokenSizes v = (memory B tokenSizes w - memory B tokenSizes fun i => B.channels[i].1.preload : Int) := by
  unfold objective memory
  rw [← sum_sub_distrib]
  push_cast
  refine sum_congr rfl fun i _ => ?_
  rw [hmo, hFi i i.2]
  push_cast
  simp only [Fin.eta, Fin.getElem_fin]
  ring

/-- The assignment of a bounded periodic schedule is a solution. -/
theorem bounded_feasible {B : BaseGraph} (hB : BaseOK B) {Ω : ℚ} (hΩ : 0 < Ω) {rows : List LPRow}
    (hrows : periodicRows B Ω = some rows) {w : Fin B.channels.length → Int} {σ : Int → ℕ → ℚ} (hσ : BoundedSchedule B w σ)
    (hper : PeriodicSchedule B σ Ω) (ilp : Bool) (tokenSizes : List Int) :
    ∃ v, LPFeasible rows ilp v ∧ objective B tokenSizes v =
      (memory B tokenSizes w - memory B tokenSizes fun i => B.channels[i].1.preload : Int) := by
  obtain ⟨F, hF0, hFi, hroom⟩ := bounded_spaces hB hΩ hσ hper
  exact ⟨assignOf B σ Ω F, assign_feasible hB hΩ hrows hσ.valid hper hF0 hroom ilp, objective_eq tokenSizes (fun _ => rfl) hFi⟩

theorem least_of_optimal {B : BaseGraph} (hB : BaseOK B) {Ω : ℚ} {rows : List LPRow} {st : Starts} {tokenSizes sizes : List Int}
    (hts : tokenSizes.length = B.channels.length) {v v' : LPVar → ℚ} (hv : LPOptimal B tokenSizes rows true v)
    (h1 : ∀ i (hi : i < B.channels.length), ∃ mop, cFloor B.channels[i].1.preload B.channels[i].1.fineGCD = some mop ∧
      ∀ a < B.channels[i].2.1.durations.length, ∀ b < B.channels[i].2.2.durations.length,
        SizePair ⟨st, i, B.channels[i], Ω, mop, stepOf B.channels[i].1⟩ v a b)
    (e1 : bufferSizes true v 0 B.channels = some sizes) (e2 : sizes.length = B.channels.length) {w : Fin B.channels.length → Int}
    (f1 : LPFeasible rows true v')
    (f2 : objective B tokenSizes v' = (memory B tokenSizes w - memory B tokenSizes fun i => B.channels[i].1.preload : Int)) :
    totalSize sizes tokenSizes ≤ memory B tokenSizes w := by
  have h3 := hv.best v' f1
  rw [f2] at h3
  have h4 : objective B tokenSizes v =
      ((totalSize sizes tokenSizes - memory B tokenSizes fun i => B.channels[i].1.preload : Int) : ℚ) := by
    rw [totalSize_eq e2 hts]
    unfold objective memory
    rw [← sum_sub_distrib]
    push_cast
    refine sum_congr rfl fun i _ => ?_
    rw [← int_sizes hB hv.feasible h1 e1 i]
    push_cast
    ring
  rw [h4] at h3
  have h5 : totalSize sizes tokenSizes - (memory B tokenSizes fun i => B.channels[i].1.preload) ≤
      memory B tokenSizes w - memory B tokenSizes fun i => B.channels[i].1.preload := by exact_mod_cast h3
  linarith

/-- **C75** The integer version is exact: from an optimal integer solution the function reports the least total memory for
which the graph has a periodic schedule with the requested period. -/
theorem C75_least_memory {B : BaseGraph} (hB : BaseOK B) {Ω : ℚ} (hΩ : 0 < Ω) {rows : List LPRow}
    (hrows : periodicRows B Ω = some rows) {tokenSizes : List Int} (hts : tokenSizes.length = B.channels.length)
    {v : LPVar → ℚ} (hv : LPOptimal B tokenSizes rows true v) :
    ∃ total, periodicResult B tokenSizes true false (some v) = some ⟨true, total, []⟩ ∧
      IsLeast {M | ∃ w σ, BoundedSchedule B w σ ∧ PeriodicSchedule B σ Ω ∧ M = memory B tokenSizes w} total := by
  obtain ⟨sizes, e1, e2, σ, e3, e4, -⟩ := C73_sizes_suffice hB hΩ hrows hv.feasible
  obtain ⟨rows', h', hspec⟩ := periodicRows_spec hB hΩ
  rw [hrows] at h'; cases h'
  refine ⟨totalSize sizes tokenSizes, ?_, ⟨_, σ, e3, e4, totalSize_eq e2 hts⟩, ?_⟩
  · unfold periodicResult; simp [e1]
  · rintro M ⟨w, σ', h1, h2, rfl⟩
    obtain ⟨v', f1, f2⟩ := bounded_feasible hB hΩ hrows h1 h2 true tokenSizes
    exact least_of_optimal hB hts hv ((hspec v).1 hv.feasible.rows).1 e1 e2 f1 f2

/-- Without integer columns the reported total is that of capacities that suffice (C73), and the optimum of the relaxed program,
plus the initial tokens, is a lower bound on the memory of any periodic schedule with that period. -/
theorem C75_relaxed_lower_bound {B : BaseGraph} (hB : BaseOK B) {Ω : ℚ} (hΩ : 0 < Ω) {rows : List LPRow}
    (hrows : periodicRows B Ω = some rows) {tokenSizes : List Int} {v : LPVar → ℚ} (hv : LPOptimal B tokenSizes rows false v)
    {w : Fin B.channels.length → Int} {σ : Int → ℕ → ℚ} (h : BoundedSchedule B w σ) (hp : PeriodicSchedule B σ Ω) :
    objective B tokenSizes v + (memory B tokenSizes fun i => B.channels[i].1.preload : Int) ≤ memory B tokenSizes w := by
  obtain ⟨v', f1, f2⟩ := bounded_feasible hB hΩ hrows h hp false tokenSizes
  have h3 := hv.best v' f1
  rw [f2] at h3
  push_cast at h3 ⊢
  linarith

/-- A periodic schedule with a positive period sustains that period, so the throughput with these capacities is at least its
inverse. -/
theorem periodic_sustains {B : BaseGraph} (hB : BaseOK B) {Ω : ℚ} (hΩ : 0 ≤ Ω) {σ : Int → ℕ → ℚ} (h : PeriodicSchedule B σ Ω) :
    Sustains B σ Ω := by
  intro t ht
  have hP := (hB.tasks t ht).phases
  refine ⟨∑ a ∈ range t.durations.length, |σ t.id a|, fun k => ?_⟩
  have e : ∀ q a, σ t.id (a + q * t.durations.length) = σ t.id a + Ω * (q * t.durations.length) / t.ni := by
    intro q a
    induction q with
    | zero => simp
    | succ q ih =>
      rw [Nat.succ_mul, ← add_assoc, h t ht, ih]; push_cast; ring
  have hk := Nat.mod_add_div' k t.durations.length
  have h1 := e (k / t.durations.length) (k % t.durations.length)
  rw [hk] at h1
  have h2 : |σ t.id (k % t.durations.length)| ≤ ∑ a ∈ range t.durations.length, |σ t.id a| :=
    single_le_sum (f := fun a => |σ t.id a|) (fun a _ => abs_nonneg _) (mem_range.2 (Nat.mod_lt _ hP))
  have h3 := le_abs_self (σ t.id (k % t.durations.length))
  have hni : (0 : ℚ) < t.ni := by exact_mod_cast (hB.tasks t ht).ni
  have h4 : Ω * ((k / t.durations.length : ℕ) * t.durations.length) / t.ni ≤ Ω * k / t.ni := by
    have : ((k / t.durations.length : ℕ) : ℚ) * t.durations.length ≤ k := by
      exact_mod_cast Nat.div_mul_le_self k _
    exact div_le_div_of_nonneg_right (mul_le_mul_of_nonneg_left this hΩ) hni.le
  rw [h1]
  linarith

/-- **C73, throughput** With the computed sizes as capacities, the graph sustains the requested period. -/
theorem C73_throughput {B : BaseGraph} (hB : BaseOK B) {Ω : ℚ} (hΩ : 0 < Ω) {rows : List LPRow}
    (hrows : periodicRows B Ω = some rows) {ilp : Bool} {v : LPVar → ℚ} (hv : LPFeasible rows ilp v) :
    ∃ sizes, bufferSizes ilp v 0 B.channels = some sizes ∧
      ∀ thr, HasThroughput B (fun i => sizes.getD i 0) thr → 1 / Ω ≤ thr := by
  obtain ⟨sizes, e1, -, σ, e3, e4, -⟩ := C73_sizes_suffice hB hΩ hrows hv
  refine ⟨sizes, e1, ?_⟩
  rintro thr (⟨hpos, hl⟩ | ⟨-, h⟩)
  · have := hl.2 ⟨σ, e3, periodic_sustains hB hΩ.le e4⟩
    rw [div_le_iff₀ hpos] at this
    rw [div_le_iff₀ hΩ]; linarith
  · exact absurd ⟨σ, e3⟩ h

/-- What a correct solver answers: an optimal solution, or nothing when there is no solution. -/
def SolverAnswer (B : BaseGraph) (tokenSizes : List Int) (rows : List LPRow) (ilp : Bool) (sol : Option (LPVar → ℚ)) : Prop :=
  match sol with
  | some v => LPOptimal B tokenSizes rows ilp v
  | none => ¬ ∃ v, LPFeasible rows ilp v

/-- **C76** (partial) A valid result with a non-zero size, from a correct solver, means that the period is possible. The full
property, that a valid result is reported only for possible periods, does not hold: see `C76_violated`. -/
theorem C76_valid_partial {B : BaseGraph} (hB : BaseOK B) {Ω : ℚ} (hΩ : 0 < Ω) {rows : List LPRow}
    (hrows : periodicRows B Ω = some rows) {tokenSizes : List Int} {ilp : Bool} {sol : Option (LPVar → ℚ)}
    (hsol : SolverAnswer B tokenSizes rows ilp sol) :
    ∃ total, periodicResult B tokenSizes ilp false sol = some ⟨true, total, []⟩ ∧
      ((¬ ∃ σ, ValidGen B σ ∧ PeriodicSchedule B σ Ω) → total = 0) := by
  cases sol with
  | none => exact ⟨0, rfl, fun _ => rfl⟩
  | some v =>
    have hf : LPFeasible rows ilp v := hsol.feasible
    obtain ⟨sizes, e1, e2, σ, e3, e4, -⟩ := C73_sizes_suffice hB hΩ hrows hf
    exact ⟨totalSize sizes tokenSizes, by unfold periodicResult; simp [e1], fun h => absurd ⟨σ, e3.valid, e4⟩ h⟩

namespace BufferExample

theorem rows5 : periodicRows G 5 = some [⟨[(.start 1 1, 1), (.start 0 1, -1)], 9 / 2⟩,
    ⟨[(.loc 0 1 1, -5 / 2), (.start 0 1, 1), (.start 1 1, -1)], 3⟩, ⟨[(.loc 0 1 1, 1), (.mo 0, 1)], 0⟩,
    ⟨[], -1 / 2⟩, ⟨[], -2⟩] := by decide +kernel

/-- A solution for the period 5: the second task starts at 9/2, and three places are enough. -/
def sol5 : LPVar → ℚ
  | .start 1 _ => 9 / 2
  | .mo 0 => 3
  | .loc 0 1 1 => -3
  | _ => 0

theorem sol5_feasible : LPFeasible [⟨[(.start 1 1, 1), (.start 0 1, -1)], 9 / 2⟩,
    ⟨[(.loc 0 1 1, -5 / 2), (.start 0 1, 1), (.start 1 1, -1)], 3⟩, ⟨[(.loc 0 1 1, 1), (.mo 0, 1)], 0⟩,
    ⟨[], -1 / 2⟩, ⟨[], -2⟩] true sol5 := by
  refine ⟨?_, ?_, ?_, ?_, ?_⟩
  · intro r hr
    simp only [List.mem_cons, List.not_mem_nil, or_false] at hr
    rcases hr with rfl | rfl | rfl | rfl | rfl <;> simp [LPRow.value, sol5] <;> norm_num
  · intro t a; unfold sol5; split <;> first | (norm_num; done) | (rename_i h; cases h)
  · intro i; unfold sol5; split <;> first | (norm_num; done) | (rename_i h; cases h)
  · intro _ i; unfold sol5; split
    · rename_i h; cases h
    · exact ⟨3, by norm_num⟩
    · exact ⟨-3, by norm_num⟩
    · exact ⟨0, by norm_num⟩
  · intro _ i a b; unfold sol5; split
    · rename_i h; cases h
    · rename_i h; cases h
    · exact ⟨-3, by norm_num⟩
    · exact ⟨0, by norm_num⟩

theorem sol5_optimal : LPOptimal G [4] [⟨[(.start 1 1, 1), (.start 0 1, -1)], 9 / 2⟩,
    ⟨[(.loc 0 1 1, -5 / 2), (.start 0 1, 1), (.start 1 1, -1)], 3⟩, ⟨[(.loc 0 1 1, 1), (.mo 0, 1)], 0⟩,
    ⟨[], -1 / 2⟩, ⟨[], -2⟩] true sol5 := by
  refine ⟨sol5_feasible, fun v hv => ?_⟩
  have h1 := hv.rows _ (List.mem_cons_self ..)
  have h2 := hv.rows _ (List.mem_cons_of_mem _ (List.mem_cons_self ..))
  have h3 := hv.rows _ (List.mem_cons_of_mem _ (List.mem_cons_of_mem _ (List.mem_cons_self ..)))
  simp only [LPRow.value, List.map_cons, List.map_nil, List.sum_cons, List.sum_nil] at h1 h2 h3
  show (∑ i : Fin 1, sol5 (.mo i) * _) ≤ ∑ i : Fin 1, v (.mo i) * _
  simp only [univ_unique, Fin.default_eq_zero, sum_singleton, sol5]
  norm_num
  linarith

end BufferExample

open BufferExample in
/-- C73 and C75 apply: for the period 5 and tokens of size 4 the reported total is 12, and it is the least memory. -/
example : periodicResult G [4] true false (some sol5) = some ⟨true, 12, []⟩ ∧
    IsLeast {M | ∃ w σ, BoundedSchedule G w σ ∧ PeriodicSchedule G σ 5 ∧ M = memory G [4] w} 12 := by
  obtain ⟨total, h1, h2⟩ := C75_least_memory G_ok (by norm_num) rows5 (tokenSizes := [4]) rfl sol5_optimal
  have h3 : periodicResult G [4] true false (some sol5) = some ⟨true, 12, []⟩ := by decide +kernel
  rw [h3] at h1
  injection h1 with h1
  injection h1 with _ h1 _
  subst h1
  exact ⟨h3, h2⟩

open BufferExample in
/-- C74 applies with both answers: the period 5 is possible, the period 3 is not, since the first task runs twice for 2. -/
example : (∃ σ, ValidGen G σ ∧ PeriodicSchedule G σ 5) ∧ ¬ ∃ σ, ValidGen G σ ∧ PeriodicSchedule G σ 3 := by
  obtain ⟨rows, h1, h2⟩ := C74_feasible_iff G_ok (Ω := 5) (by norm_num) true
  obtain ⟨rows', h3, h4⟩ := C74_feasible_iff G_ok (Ω := 3) (by norm_num) true
  constructor
  · refine h2.1 ⟨sol5, ?_⟩
    rw [rows5] at h1; cases h1
    exact sol5_feasible
  · rw [← h4]
    rintro ⟨v, hv⟩
    have h5 : periodicRows G 3 = some [⟨[(.start 1 1, 1), (.start 0 1, -1)], 7 / 2⟩,
      ⟨[(.loc 0 1 1, -3 / 2), (.start 0 1, 1), (.start 1 1, -1)], 3⟩, ⟨[(.loc 0 1 1, 1), (.mo 0, 1)], 0⟩,
      ⟨[], 1 / 2⟩, ⟨[], 0⟩] := by decide +kernel
    rw [h5] at h3; cases h3
    have := hv.rows ⟨[], 1 / 2⟩ (by simp)
    simp only [LPRow.value, List.map_nil, List.sum_nil] at this
    norm_num at this

/-- **C76 is violated.** For an impossible period a correct solver answers that there is no solution, and the function reports a
valid result, of size 0 (`return 0`, periodic.cpp:390, converts to a valid result). -/
theorem C76_violated : ∃ (B : BaseGraph) (Ω : ℚ) (rows : List LPRow) (sol : Option (LPVar → ℚ)),
    BaseOK B ∧ 0 < Ω ∧ periodicRows B Ω = some rows ∧ SolverAnswer B [4] rows true sol ∧
    (¬ ∃ σ, ValidGen B σ ∧ PeriodicSchedule B σ Ω) ∧ periodicResult B [4] true false sol = some ⟨true, 0, []⟩ := by
  obtain ⟨rows', h3, h4⟩ := C74_feasible_iff BufferExample.G_ok (Ω := 3) (by norm_num) true
  have h : ¬ ∃ v, LPFeasible rows' true v := by
    rintro ⟨v, hv⟩
    have h5 : periodicRows BufferExample.G 3 = some [⟨[(.start 1 1, 1), (.start 0 1, -1)], 7 / 2⟩,
      ⟨[(.loc 0 1 1, -3 / 2), (.start 0 1, 1), (.start 1 1, -1)], 3⟩, ⟨[(.loc 0 1 1, 1), (.mo 0, 1)], 0⟩,
      ⟨[], 1 / 2⟩, ⟨[], 0⟩] := by decide +kernel
    rw [h5] at h3; cases h3
    have := hv.rows ⟨[], 1 / 2⟩ (by simp)
    simp only [LPRow.value, List.map_nil, List.sum_nil] at this
    norm_num at this
  exact ⟨BufferExample.G, 3, rows', none, BufferExample.G_ok, by norm_num, h3, h, fun hs => h (h4.2 hs), rfl⟩

end Kiter
