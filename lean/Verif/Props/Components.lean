/-
C105: the throughput of a graph is decided by its components; in a graph without circuits, by its busiest task.
-/
import Verif.Props.Hierarchy

set_option autoImplicit false

namespace Kiter

/-- Busy time of a task in one graph iteration: number of rounds over its phases, times the duration of a round. -/
def load (t : KTask) : ℚ := reps t * t.durations.sum

/-- The tasks of rank `r` and the channels between them. Repetition counts are those of the whole graph. -/
def BaseGraph.part (B : BaseGraph) (rank : Int → ℕ) (r : ℕ) : BaseGraph :=
  ⟨B.tasks.filter fun t => decide (rank t.id = r), B.channels.filter fun c => decide (rank c.2.1.id = r ∧ rank c.2.2.id = r)⟩

section
variable {B : BaseGraph} {rank : Int → ℕ}

theorem mem_part_tasks {r : ℕ} {t : KTask} : t ∈ (B.part rank r).tasks ↔ t ∈ B.tasks ∧ rank t.id = r := by
  simp [BaseGraph.part]

theorem mem_part_channels {r : ℕ} {c : BChannel} :
    c ∈ (B.part rank r).channels ↔ c ∈ B.channels ∧ rank c.2.1.id = r ∧ rank c.2.2.id = r := by
  simp [BaseGraph.part]

theorem part_ok (hB : BaseOK B) (r : ℕ) : BaseOK (B.part rank r) := by
  refine ⟨fun s hs t ht => hB.ids s (mem_part_tasks.mp hs).1 t (mem_part_tasks.mp ht).1, fun t ht => hB.tasks t (mem_part_tasks.mp ht).1,
    fun t ht => hB.multiple t (mem_part_tasks.mp ht).1, fun c hc => ?_,
    fun c hc e he => hB.channelIds c (mem_part_channels.mp hc).1 e (mem_part_channels.mp he).1⟩
  obtain ⟨h1, h2, h3⟩ := mem_part_channels.mp hc
  obtain ⟨a, b, c⟩ := hB.channels _ h1
  exact ⟨mem_part_tasks.mpr ⟨a, h2⟩, mem_part_tasks.mpr ⟨b, h3⟩, c⟩

theorem kperiods_iff (hB : BaseOK B) {K : Int → ℕ} (hK : ∀ i, 0 < K i) {cs : List EvConstraint} (hcs : eventGraph (B.withK K) = some cs) (Ω : ℚ) :
    Ω ∈ KPeriods B K ↔ 0 ≤ Ω ∧ ∃ S, ∀ c ∈ cs, Satisfies S Ω c := by
  refine and_congr_right fun h0 => exists_congr fun S => ?_
  obtain ⟨cs', h', e⟩ := C15_C16_graph_iff (withK_ok hB (K := K) (fun t _ => hK _)) S h0
  rw [hcs] at h'; cases h'
  exact e.symm

/-- A finite number of values has a bound. -/
theorem exists_bound {α : Type} (f : α → ℚ) (l : List α) : ∃ C, 0 ≤ C ∧ ∀ a ∈ l, f a ≤ C := by
  induction l with
  | nil => exact ⟨0, le_rfl, by simp⟩
  | cons a l ih =>
    obtain ⟨C, h0, h⟩ := ih
    refine ⟨max C (f a), le_max_of_le_left h0, fun b hb => ?_⟩
    rcases List.mem_cons.mp hb with rfl | hb
    · exact le_max_right _ _
    · exact (h b hb).trans (le_max_left _ _)

/-- **C105** When no channel leads to a lower rank, a period is possible for the whole graph exactly when it is possible for the tasks
of each rank alone, for every vector. -/
theorem C105_components (hB : BaseOK B) (hrank : ∀ c ∈ B.channels, rank c.2.1.id ≤ rank c.2.2.id) {K : Int → ℕ} (hK : ∀ i, 0 < K i) (Ω : ℚ) :
    Ω ∈ KPeriods B K ↔ 0 ≤ Ω ∧ ∀ r, Ω ∈ KPeriods (B.part rank r) K := by
  constructor
  · rintro ⟨h0, S, h1, h2⟩
    refine ⟨h0, fun r => ⟨h0, S, fun tk htk => ?_, fun c hc => ?_⟩⟩
    · obtain ⟨t, ht, rfl⟩ := List.mem_map.mp htk
      exact h1 _ (List.mem_map.mpr ⟨t, (mem_part_tasks.mp ht).1, rfl⟩)
    · obtain ⟨e, he, rfl⟩ := List.mem_map.mp hc
      exact h2 _ (List.mem_map.mpr ⟨e, (mem_part_channels.mp he).1, rfl⟩)
  · rintro ⟨h0, h⟩
    obtain ⟨cs, hcs⟩ := eventGraph_total (withK_ok hB (K := K) (fun t _ => hK _))
    rw [kperiods_iff hB hK hcs]
    refine ⟨h0, ?_⟩
    choose S hS using fun r => (h r).2
    have hsat : ∀ r cs', eventGraph ((B.part rank r).withK K) = some cs' → ∀ c ∈ cs', Satisfies (S r) Ω c := by
      intro r cs' hcs'
      obtain ⟨cs2, h', e⟩ := C15_C16_graph_iff (withK_ok (part_ok hB r) (K := K) (fun t _ => hK _)) (S r) h0
      rw [hcs'] at h'; cases h'
      exact e.mpr (hS r)
    set S0 : Event → ℚ := fun e => S (rank e.task) e with hS0
    obtain ⟨C, hC0, hC⟩ := exists_bound (fun c : EvConstraint => S0 c.src + c.d - Ω * c.w - S0 c.dst) cs
    refine ⟨fun e => S0 e + rank e.task * C, fun c hc => ?_⟩
    unfold Satisfies
    have hcase : (rank c.src.task = rank c.dst.task ∧ S0 c.src + c.d - Ω * c.w ≤ S0 c.dst) ∨ rank c.src.task < rank c.dst.task := by
      rcases (eventGraph_mem hcs c).mp hc with ⟨t, ht, x, hx, hcx⟩ | ⟨e, he, x, hx, hcx⟩
      · left
        obtain ⟨x', hx', h⟩ := selfLoop_ends (hB.tasks t ht) (hK t.id)
        rw [hx] at hx'; cases hx'
        have h1 := ((mem_oldEvents (hB.tasks t ht).noInit).mp (h c hcx).1).1
        have h2 := ((mem_oldEvents (hB.tasks t ht).noInit).mp (h c hcx).2.1).1
        refine ⟨by rw [h1, h2], ?_⟩
        obtain ⟨cs', hcs'⟩ := eventGraph_total (withK_ok (part_ok (rank := rank) hB (rank t.id)) (K := K) (fun t _ => hK _))
        have := hsat _ cs' hcs' c ((eventGraph_mem hcs' c).mpr (Or.inl ⟨t, mem_part_tasks.mpr ⟨ht, rfl⟩, x, hx, hcx⟩))
        simp only [hS0, h1, h2]
        exact this
      · obtain ⟨hs, ht, hch⟩ := hB.channels e he
        obtain ⟨x', hx', h⟩ := channel_ends hB he (Ki := K e.2.1.id) (Kj := K e.2.2.id) (hK _)
        rw [hx] at hx'; cases hx'
        have h1 := ((mem_oldEvents (hB.tasks _ hs).noInit).mp (h c hcx).1).1
        have h2 := ((mem_oldEvents (hB.tasks _ ht).noInit).mp (h c hcx).2.1).1
        rw [h1, h2]
        rcases (hrank e he).lt_or_eq with hlt | heq
        · exact Or.inr hlt
        · left
          refine ⟨heq, ?_⟩
          obtain ⟨cs', hcs'⟩ := eventGraph_total (withK_ok (part_ok (rank := rank) hB (rank e.2.1.id)) (K := K) (fun t _ => hK _))
          have := hsat _ cs' hcs' c ((eventGraph_mem hcs' c).mpr (Or.inr ⟨e, mem_part_channels.mpr ⟨he, rfl, heq.symm⟩, x, hx, hcx⟩))
          simp only [hS0, h1, h2, ← heq]
          exact this
    rcases hcase with ⟨h1, h2⟩ | hlt
    · simp only [h1]
      linarith
    · have h1 := hC c hc
      have h2 : ((rank c.src.task : ℚ) + 1) * C ≤ rank c.dst.task * C := mul_le_mul_of_nonneg_right (by exact_mod_cast hlt) hC0
      dsimp only
      linarith

/-! ### The busiest task -/

theorem sum_dur (t : KTask) : ∀ n, (∑ i ∈ Finset.range (n * t.durations.length), t.dur i) = n * t.durations.sum := by
  have h1 : (∑ i ∈ Finset.range t.durations.length, t.dur i) = t.durations.sum := by
    have : t.durations.sum = ∑ i : Fin t.durations.length, t.durations[i] := by
      rw [← List.sum_ofFn]; simp
    rw [this, Finset.sum_range]
    refine Finset.sum_congr rfl fun i _ => ?_
    unfold KTask.dur
    rw [Nat.mod_eq_of_lt i.2, List.getD_eq_getElem _ _ i.2]
    rfl
  intro n
  induction n with
  | zero => simp
  | succ n ih =>
    rw [Nat.succ_mul, Finset.sum_range_add, ih]
    have : ∀ x, t.dur (n * t.durations.length + x) = t.dur x := fun x => by unfold KTask.dur; rw [Nat.mul_add_mod_self_right]
    simp only [this, h1]
    push_cast
    ring

/-- **C105** No schedule is faster than its busiest task: the period is at least the busy time of every task in a graph iteration. -/
theorem C105_busiest_task (hB : BaseOK B) {Ω : ℚ} (hΩ : Ω ∈ SustainablePeriods B) {t : KTask} (ht : t ∈ B.tasks) : load t ≤ Ω := by
  obtain ⟨σ, hσ, hs⟩ := hΩ
  obtain ⟨C, hC⟩ := hs t ht
  obtain ⟨hr, hni⟩ := reps_spec hB ht
  have hP := (hB.tasks t ht).phases
  have hstart : ∀ k : ℕ, (∑ i ∈ Finset.range k, t.dur i) ≤ σ t.id k := by
    intro k
    induction k with
    | zero => simpa using hσ.nonneg t ht 0
    | succ k ih =>
      rw [Finset.sum_range_succ]
      have := hσ.noOverlap t ht k
      linarith
  have key : ∀ n : ℕ, (n : ℚ) * (load t - Ω) ≤ C := by
    intro n
    have h1 := hstart ((n * reps t) * t.durations.length)
    have h2 := hC ((n * reps t) * t.durations.length)
    rw [sum_dur] at h1
    have h3 : Ω * (((n * reps t) * t.durations.length : ℕ) : ℚ) / t.ni = Ω * n := by
      have e : (t.ni : ℚ) = t.durations.length * reps t := by exact_mod_cast hni
      have h4 : (reps t : ℚ) ≠ 0 := by exact_mod_cast hr.ne'
      have h5 : (t.durations.length : ℚ) ≠ 0 := by exact_mod_cast hP.ne'
      rw [e]
      push_cast
      field_simp
    rw [h3] at h2
    unfold load
    push_cast at h1
    linarith
  by_contra hlt
  have hpos : 0 < load t - Ω := by linarith [not_le.mp hlt]
  obtain ⟨n, hn⟩ := exists_nat_gt (C / (load t - Ω))
  rw [div_lt_iff₀ hpos] at hn
  exact absurd (key n) (not_le.mpr hn)

/-- Tasks one after the other, without channels. -/
theorem single_tasks (hB : BaseOK B) (hno : B.channels = []) {Ω : ℚ} (h0 : 0 ≤ Ω) (hΩ : ∀ t ∈ B.tasks, load t ≤ Ω) :
    Ω ∈ KPeriods B fun _ => 1 := by
  refine ⟨h0, fun e => ((B.find e.task).map fun t => ∑ i ∈ Finset.range (e.phase - 1).toNat, t.dur i).getD 0, fun tk htk k => ?_, ?_⟩
  · obtain ⟨t, ht, rfl⟩ := List.mem_map.mp htk
    have hP := (hB.tasks t ht).phases
    obtain ⟨hr, hni⟩ := reps_spec hB ht
    have e : ((t.durations.length : ℚ) * 1) / t.ni = 1 / reps t := by
      have e : (t.ni : ℚ) = t.durations.length * reps t := by exact_mod_cast hni
      have h5 : (t.durations.length : ℚ) ≠ 0 := by exact_mod_cast hP.ne'
      rw [e]
      have h4 : (reps t : ℚ) ≠ 0 := by exact_mod_cast hr.ne'
      field_simp
    unfold execEnd execStart
    simp only [find_eq hB ht, Option.map_some, Option.getD_some, one_mul, Nat.cast_one, add_sub_cancel_right, Int.toNat_natCast]
    rw [mul_div_assoc, e]
    have hdur : t.dur k = t.dur (k % t.durations.length) := by unfold KTask.dur; rw [Nat.mod_mod]
    have hstep : (∑ i ∈ Finset.range (k % t.durations.length), t.dur i) + t.dur k = ∑ i ∈ Finset.range (k % t.durations.length + 1), t.dur i := by
      rw [Finset.sum_range_succ, hdur]
    by_cases hw : k % t.durations.length + 1 = t.durations.length
    · have h1 : (k + 1) % t.durations.length = 0 := by
        rw [Nat.add_mod]
        by_cases h1 : t.durations.length = 1
        · rw [h1]; omega
        · rw [Nat.mod_eq_of_lt (by omega : 1 < t.durations.length), hw, Nat.mod_self]
      have h2 : (k + 1) / t.durations.length = k / t.durations.length + 1 := by
        have := Nat.div_add_mod k t.durations.length
        have := Nat.div_add_mod (k + 1) t.durations.length
        rw [h1] at this
        have h3 : t.durations.length * ((k + 1) / t.durations.length) = t.durations.length * (k / t.durations.length + 1) := by
          rw [Nat.mul_add]; omega
        exact Nat.eq_of_mul_eq_mul_left hP h3
      rw [h1, h2]
      have h3 := hΩ t ht
      have h4 := sum_dur t 1
      rw [one_mul] at h4
      rw [hw, h4] at hstep
      unfold load at h3
      have hr' : (0 : ℚ) < reps t := by exact_mod_cast hr
      have h5 : t.durations.sum ≤ Ω * (1 / reps t) := by
        rw [mul_one_div, le_div_iff₀ hr']; linarith
      simp only [Finset.range_zero, Finset.sum_empty]
      push_cast at hstep ⊢
      linarith
    · have hlt : k % t.durations.length + 1 < t.durations.length := by have := Nat.mod_lt k hP; omega
      have h1 : (k + 1) % t.durations.length = k % t.durations.length + 1 := by
        rw [Nat.add_mod, Nat.mod_eq_of_lt (by omega : 1 < t.durations.length), Nat.mod_eq_of_lt hlt]
      have h2 : (k + 1) / t.durations.length = k / t.durations.length := by
        have a := Nat.div_add_mod k t.durations.length
        have b := Nat.div_add_mod (k + 1) t.durations.length
        rw [h1] at b
        have h3 : t.durations.length * ((k + 1) / t.durations.length) = t.durations.length * (k / t.durations.length) := by omega
        exact Nat.eq_of_mul_eq_mul_left hP h3
      rw [h1, h2]
      linarith
  · intro c hc
    simp only [BaseGraph.withK, hno, List.map_nil, List.not_mem_nil] at hc


/-- **C105** Without circuits, only the busy times count: for every vector the possible periods are those at least as long as the busy
time of every task. -/
theorem C105_feed_forward (hB : BaseOK B) (hrank : ∀ c ∈ B.channels, rank c.2.1.id < rank c.2.2.id) {Ω : ℚ} (h0 : 0 ≤ Ω) :
    (∀ K : Int → ℕ, (∀ i, 0 < K i) → (Ω ∈ KPeriods B K ↔ ∀ t ∈ B.tasks, load t ≤ Ω)) ∧ (Ω ∈ SustainablePeriods B ↔ ∀ t ∈ B.tasks, load t ≤ Ω) := by
  have hone : ∀ i : Int, 0 < (fun _ : Int => 1) i := fun _ => Nat.one_pos
  have h1 : (∀ t ∈ B.tasks, load t ≤ Ω) → Ω ∈ KPeriods B fun _ => 1 := by
    intro h
    refine (C105_components hB (rank := rank) (fun c hc => (hrank c hc).le) hone Ω).mpr ⟨h0, fun r => single_tasks (part_ok hB r) ?_ h0 fun t ht => h t (mem_part_tasks.mp ht).1⟩
    refine List.eq_nil_iff_forall_not_mem.mpr fun c hc => ?_
    obtain ⟨a, b, c'⟩ := mem_part_channels.mp hc
    have := hrank c a
    omega
  refine ⟨fun K hK => ⟨fun h t ht => C105_busiest_task hB (kperiods_sustainable hB hK h) ht, fun h => ?_⟩,
    fun h t ht => C105_busiest_task hB h ht, fun h => kperiods_sustainable hB hone (h1 h)⟩
  exact kperiods_mono hB hone (fun t _ => one_dvd _) (h1 h)

theorem load_pos (hB : BaseOK B) (hpos : ∀ t ∈ B.tasks, ∀ d ∈ t.durations, 0 < d) {t : KTask} (ht : t ∈ B.tasks) : 0 < load t := by
  have hr := (reps_spec hB ht).1
  have hP := (hB.tasks t ht).phases
  exact mul_pos (by exact_mod_cast hr) (List.sum_pos _ (hpos t ht) (by intro h; rw [h] at hP; simp at hP))

/-- The longest busy time. -/
theorem busiest_exists (f : KTask → ℚ) (hT : B.tasks ≠ []) : ∃ t ∈ B.tasks, ∀ u ∈ B.tasks, f u ≤ f t := by
  obtain ⟨a, ha⟩ := List.exists_mem_of_ne_nil _ hT
  obtain ⟨t, ht, h⟩ := Set.exists_max_image {t | t ∈ B.tasks} f (List.finite_toSet _) ⟨a, ha⟩
  exact ⟨t, ht, h⟩

section
variable {mcrp : List EvConstraint → Option (ℚ × List EvConstraint)} {lp : List SVar → List SRow → Option (SVar → ℚ)}

/-- **C105** Without circuits every exact command reports the throughput of the busiest task; so do the commands with a fixed vector,
and those that use the linear program. In particular no such graph is found deadlocked. -/
theorem C105_feed_forward_answers (hB : BaseOK B) (hpos : ∀ t ∈ B.tasks, ∀ d ∈ t.durations, 0 < d) (hT : B.tasks ≠ [])
    (hids : (B.tasks.map KTask.id).Nodup) (hs : Solvers B mcrp lp) (hrank : ∀ c ∈ B.channels, rank c.2.1.id < rank c.2.2.id) {a : ℚ}
    (ha : ExactAnswer B mcrp lp a ∨ ∃ K : Int → ℕ, (∀ i, 0 < K i) ∧
      ((∃ cc, kSchedule mcrp B K = some (a, cc)) ∨ ∃ s, lpSchedule lp B K = some s ∧ 1 / s.period = a)) :
    0 < a ∧ (∃ t ∈ B.tasks, a = 1 / load t) ∧ ∀ t ∈ B.tasks, a ≤ 1 / load t := by
  obtain ⟨t, ht, hmax⟩ := busiest_exists load hT
  have hl := load_pos hB hpos ht
  have hone : ∀ i : Int, 0 < (fun _ : Int => 1) i := fun _ => Nat.one_pos
  have hff := fun {Ω : ℚ} (h0 : 0 ≤ Ω) => C105_feed_forward hB hrank h0
  have hmem := (hff hl.le).1
  suffices h : a = 1 / load t by
    rw [h]
    exact ⟨one_div_pos.mpr hl, ⟨t, ht, rfl⟩, fun u hu => one_div_le_one_div_of_le (load_pos hB hpos hu) (hmax u hu)⟩
  have hsf : ∀ K, (∀ i, 0 < K i) → SolvesFor B K mcrp := fun K hK cs th p hcs h => hs.events K cs th p hK ⟨cs, hcs, fun _ => Iff.rfl⟩ h
  have hle : ∀ {Ω : ℚ}, Ω ∈ SustainablePeriods B → load t ≤ Ω := fun h => C105_busiest_task hB h ht
  rcases ha with ha | ⟨K, hK, ⟨cc, ha⟩ | ⟨s, ha, rfl⟩⟩
  · obtain ⟨h1, h2⟩ := exact_reports hB hpos hT hids hs ha
    have hsus : load t ∈ SustainablePeriods B := (hff hl.le).2.mpr hmax
    have ha0 : 0 < a := by
      by_contra hn
      obtain ⟨σ, hσ, -⟩ := hsus
      exact h2 (not_lt.mp hn) ⟨σ, hσ⟩
    have := le_antisymm ((h1 ha0).2 hsus) (hle (h1 ha0).1)
    rw [← this, one_div_one_div]
  · obtain ⟨h1, h2⟩ := C82_fixed_vector hB hK (hsf K hK) ha
    have hm := (hmem K hK).mpr hmax
    have ha0 : 0 < a := by
      by_contra hn
      rw [h2 (not_lt.mp hn)] at hm
      exact hm
    have := le_antisymm ((h1 ha0).1.2 hm) (hle (h1 ha0).2)
    rw [← this, one_div_one_div]
  · obtain ⟨s', h', hc⟩ := C83_lp_optimal hB hT hK (hs.rows K · hK)
    rw [ha] at h'; cases h'
    have hm := (hmem K hK).mpr hmax
    rcases hc with hc | ⟨he, -⟩
    · rw [le_antisymm (hc.2 hm) (hle (kperiods_sustainable hB hK hc.1))]
    · rw [he] at hm
      exact hm.elim

/-- Delays of the constraints are durations. -/
theorem event_dur_nonneg (hB : BaseOK B) {K : Int → ℕ} (hK : ∀ i, 0 < K i) {cs : List EvConstraint} (hcs : eventGraph (B.withK K) = some cs)
    {c : EvConstraint} (hc : c ∈ cs) : 0 ≤ c.d := by
  rcases (eventGraph_mem hcs c).mp hc with ⟨t, ht, x, hx, hcx⟩ | ⟨e, he, x, hx, hcx⟩
  · have t1 := hB.tasks t ht
    obtain ⟨r, hr, hmem⟩ := selfLoop_spec t (K t.id) t1.phases (hK _) t1.noInit t1.ni.ne'
    rw [hr] at hx; cases hx
    rcases (hmem c).mp hcx with ⟨x, hx, rfl⟩ | ⟨_, rfl⟩
    · exact mul_nonneg (by split <;> norm_num) (dur_nonneg t1.phases t1.durNonneg _)
    · exact dur_nonneg t1.phases t1.durNonneg _
  · obtain ⟨h1, h2, h3⟩ := hB.channels e he
    have t1 := hB.tasks _ h1
    have t2 := hB.tasks _ h2
    have hP : 0 < e.1.inPhases.length := by rw [← h3.srcPhases]; exact t1.phases
    have hQ : 0 < e.1.outPhases.length := by rw [← h3.dstPhases]; exact t2.phases
    obtain ⟨_, _, _, _, r, hr, hmem⟩ := channel_spec e.2.1 e.2.2 e.1 (K e.2.1.id) (K e.2.2.id) h3.noInInit h3.noOutInit
        hP hQ h3.srcPhases (hK _) h3.inPos t1.ni.ne' h3.gcdPos h3.preload
    rw [hr] at hx; cases hx
    obtain ⟨m, hm, n, hn, α, _, rfl⟩ := (hmem c).mp hcx
    exact dur_nonneg t1.phases t1.durNonneg _

/-- Slower periods stay possible. -/
theorem kperiods_slower (hB : BaseOK B) {K : Int → ℕ} (hK : ∀ i, 0 < K i) {Ω Ω' : ℚ} (hΩ : Ω ∈ KPeriods B K) (h0 : 0 < Ω) (h : Ω ≤ Ω') :
    Ω' ∈ KPeriods B K := by
  obtain ⟨cs, hcs⟩ := eventGraph_total (withK_ok hB (K := K) (fun t _ => hK _))
  obtain ⟨-, S, hS⟩ := (kperiods_iff hB hK hcs Ω).mp hΩ
  refine (kperiods_iff hB hK hcs Ω').mpr ⟨h0.le.trans h, fun e => Ω' / Ω * S e, fun c hc => ?_⟩
  have hl : 1 ≤ Ω' / Ω := (one_le_div h0).mpr h
  have hd : 0 ≤ c.d := event_dur_nonneg hB hK hcs hc
  have h1 : Ω' / Ω * (S c.src + c.d - Ω * c.w) ≤ Ω' / Ω * S c.dst := mul_le_mul_of_nonneg_left (hS c hc) (by linarith)
  have h2 : Ω' / Ω * (Ω * c.w) = Ω' * c.w := by field_simp
  have h3 : c.d ≤ Ω' / Ω * c.d := by nlinarith
  unfold Satisfies
  rw [mul_sub, mul_add, h2] at h1
  linarith

/-- What the solver says about a graph with positive durations, for a vector with which the periodic schedules are the best ones. -/
theorem part_verdict (hB : BaseOK B) (hpos : ∀ t ∈ B.tasks, ∀ d ∈ t.durations, 0 < d) (hT : B.tasks ≠ []) {K : Int → ℕ} (hK : ∀ i, 0 < K i)
    (hr : ∀ t ∈ B.tasks, reps t ∣ K t.id) :
    (∃ Ω, 0 < Ω ∧ IsLeast (KPeriods B K) Ω ∧ IsLeast (SustainablePeriods B) Ω) ∨ (KPeriods B K = ∅ ∧ ¬ ∃ σ, ValidGen B σ) := by
  obtain ⟨cs, hcs⟩ := eventGraph_total (withK_ok hB (K := K) (fun t _ => hK _))
  obtain ⟨q, hq⟩ := (exhaustive_event_pos hB hpos hK ⟨cs, hcs, fun _ => Iff.rfl⟩).2 hT
  have hk : kSchedule exhaustive B K = some (q.1, criticalEdges B q.2) := by
    unfold kSchedule
    rw [hcs]
    simp [hq]
  have hs : SolvesFor B K exhaustive := fun cs th p hcs h => (exhaustive_event_pos hB hpos hK ⟨cs, hcs, fun _ => Iff.rfl⟩).1 th p h
  obtain ⟨a, b⟩ := C82_fixed_vector hB hK hs hk
  obtain ⟨c, d⟩ := full_vector hB hK hr hs hk
  by_cases h : 0 < q.1
  · exact Or.inl ⟨1 / q.1, one_div_pos.mpr h, (a h).1, c h⟩
  · exact Or.inr ⟨b (not_lt.mp h), d (not_lt.mp h)⟩

/-- **C105** An exact command reports the throughput of the slowest component, and a deadlock exactly when a component deadlocks. -/
theorem C105_slowest_component (hB : BaseOK B) (hpos : ∀ t ∈ B.tasks, ∀ d ∈ t.durations, 0 < d) (hT : B.tasks ≠ [])
    (hids : (B.tasks.map KTask.id).Nodup) (hs : Solvers B mcrp lp) (hrank : ∀ c ∈ B.channels, rank c.2.1.id ≤ rank c.2.2.id) {a : ℚ}
    (ha : ExactAnswer B mcrp lp a) :
    (0 < a → (∃ t ∈ B.tasks, IsLeast (SustainablePeriods (B.part rank (rank t.id))) (1 / a)) ∧ ∀ r, 1 / a ∈ SustainablePeriods (B.part rank r)) ∧
      (a ≤ 0 ↔ ∃ r, ¬ ∃ σ, ValidGen (B.part rank r) σ) := by
  have hK := nVector_pos hB
  have hR := exact_reports hB hpos hT hids hs ha
  have hcomp := fun Ω => C105_components hB hrank hK Ω
  have hpart : ∀ r, (B.part rank r).tasks ≠ [] →
      (∃ Ω, 0 < Ω ∧ IsLeast (KPeriods (B.part rank r) (nVector B)) Ω ∧ IsLeast (SustainablePeriods (B.part rank r)) Ω) ∨
        (KPeriods (B.part rank r) (nVector B) = ∅ ∧ ¬ ∃ σ, ValidGen (B.part rank r) σ) := fun r hr =>
    part_verdict (part_ok hB r) (fun t ht => hpos t (mem_part_tasks.mp ht).1) hr hK fun t ht => reps_dvd_nVector hB (mem_part_tasks.mp ht).1
  have hempty : ∀ r, (B.part rank r).tasks = [] → ∀ Ω, 0 ≤ Ω → Ω ∈ KPeriods (B.part rank r) (nVector B) := fun r hr Ω h0 => by
    have hno : (B.part rank r).channels = [] := List.eq_nil_iff_forall_not_mem.mpr fun c hc => by
      have := ((part_ok (rank := rank) hB r).channels c hc).1
      rw [hr] at this
      simp at this
    exact kperiods_mono (part_ok hB r) (fun _ => Nat.one_pos) (fun t _ => one_dvd _) (single_tasks (part_ok hB r) hno h0 (by simp [hr]))
  have hwhole : ∀ Ω, 0 < Ω → IsLeast (KPeriods B (nVector B)) Ω → IsLeast (SustainablePeriods B) Ω := by
    intro Ω _ hΩ
    rcases part_verdict hB hpos hT hK (fun t ht => reps_dvd_nVector hB ht) with ⟨Ω', -, h1, h2⟩ | ⟨h, -⟩
    · rwa [hΩ.unique h1]
    · have := hΩ.1
      rw [h] at this
      exact this.elim
  -- a common period of all components
  have hall : (∀ r, ∃ σ, ValidGen (B.part rank r) σ) →
      ∃ t ∈ B.tasks, ∃ Ω, 0 < Ω ∧ IsLeast (SustainablePeriods (B.part rank (rank t.id))) Ω ∧ IsLeast (KPeriods B (nVector B)) Ω := by
    intro hv
    have hper : ∀ t ∈ B.tasks, ∃ Ω, 0 < Ω ∧ IsLeast (KPeriods (B.part rank (rank t.id)) (nVector B)) Ω ∧
        IsLeast (SustainablePeriods (B.part rank (rank t.id))) Ω := fun t ht => by
      rcases hpart (rank t.id) (List.ne_nil_of_mem (mem_part_tasks.mpr ⟨ht, rfl⟩)) with h | ⟨-, h⟩
      · exact h
      · exact absurd (hv _) h
    choose! f hf using hper
    obtain ⟨t, ht, hmax⟩ := busiest_exists f hT
    refine ⟨t, ht, f t, (hf t ht).1, (hf t ht).2.2, (hcomp _).mpr ⟨(hf t ht).1.le, fun r => ?_⟩, fun Ω hΩ => ?_⟩
    · by_cases hr : (B.part rank r).tasks = []
      · exact hempty r hr _ (hf t ht).1.le
      · obtain ⟨u, hu⟩ := List.exists_mem_of_ne_nil _ hr
        obtain ⟨hu1, rfl⟩ := mem_part_tasks.mp hu
        exact kperiods_slower (part_ok hB _) hK (hf u hu1).2.1.1 (hf u hu1).1 (hmax u hu1)
    · exact (hf t ht).2.1.2 (((hcomp Ω).mp hΩ).2 (rank t.id))
  refine ⟨fun h0 => ?_, fun h => ?_, ?_⟩
  · have hL := hR.1 h0
    have hin : 1 / a ∈ KPeriods B (nVector B) := by
      rcases part_verdict hB hpos hT hK (fun t ht => reps_dvd_nVector hB ht) with ⟨Ω', -, h1, h2⟩ | ⟨-, h⟩
      · rw [hL.unique h2]; exact h1.1
      · obtain ⟨σ, hσ, -⟩ := hL.1
        exact absurd ⟨σ, hσ⟩ h
    have hsus : ∀ r, 1 / a ∈ SustainablePeriods (B.part rank r) := fun r => kperiods_sustainable (part_ok hB r) hK (((hcomp _).mp hin).2 r)
    refine ⟨?_, hsus⟩
    obtain ⟨t, ht, Ω, hΩ, h1, h2⟩ := hall fun r => ⟨_, (hsus r).choose_spec.1⟩
    refine ⟨t, ht, ?_⟩
    rw [hL.unique (hwhole Ω hΩ h2)]
    exact h1
  · by_contra hn
    push Not at hn
    obtain ⟨t, ht, Ω, hΩ, -, h2⟩ := hall hn
    obtain ⟨σ, hσ, -⟩ := (hwhole Ω hΩ h2).1
    exact hR.2 h ⟨σ, hσ⟩
  · rintro ⟨r, hr⟩
    by_contra hn
    have hL := hR.1 (not_le.mp hn)
    rcases part_verdict hB hpos hT hK (fun t ht => reps_dvd_nVector hB ht) with ⟨Ω', -, h1, h2⟩ | ⟨-, h⟩
    · obtain ⟨σ, hσ, -⟩ := kperiods_sustainable (part_ok hB r) hK (((hcomp _).mp h1.1).2 r)
      exact hr ⟨σ, hσ⟩
    · obtain ⟨σ, hσ, -⟩ := hL.1
      exact h ⟨σ, hσ⟩

end

end

/-! ### A circuit that feeds another task -/

namespace CompareExample

/-- The circuit `G1`, of period 10, and a task of duration `d` that takes what one of its tasks makes. -/
def G4 (d : ℚ) : BaseGraph := ⟨[X 1 3, Y 2 4, Y 3 d],
  [(xy 1, X 1 3, Y 2 4), (yx 2 2, Y 2 4, X 1 3), (⟨3, [1], [1], [], [], 0, 1⟩, Y 2 4, Y 3 d)]⟩

def side (i : Int) : ℕ := if i = 3 then 1 else 0

theorem G4_ok {d : ℚ} (hd : 0 ≤ d) : BaseOK (G4 d) := by
  refine ⟨by simp [G4, X, Y], ?_, by simp [G4, X, Y], ?_, by simp [G4, xy, yx]⟩
  · simp only [G4, List.mem_cons, List.not_mem_nil, or_false, forall_eq_or_imp, forall_eq]
    exact ⟨X_ok (by norm_num), Y_ok (by norm_num), Y_ok hd⟩
  · simp only [G4, List.mem_cons, List.not_mem_nil, or_false, forall_eq_or_imp, forall_eq]
    exact ⟨⟨by simp, by simp, xy_ok (p := 0) le_rfl⟩, ⟨by simp, by simp, yx_ok (by norm_num)⟩, by simp, by simp,
      rfl, rfl, rfl, rfl, by simp, by simp, by simp, by simp, by simp, by simp, by simp, by simp, by simp [Y]⟩

theorem G4_parts (d : ℚ) : (G4 d).part side 0 = G1 ∧ (G4 d).part side 1 = ⟨[Y 3 d], []⟩ ∧ ∀ r, (G4 d).part side (r + 2) = ⟨[], []⟩ := by
  refine ⟨by simp [BaseGraph.part, G4, side, X, Y, G1], by simp [BaseGraph.part, G4, side, X, Y], fun r => ?_⟩
  simp [BaseGraph.part, G4, side, X, Y]

theorem G1_least : IsLeast (SustainablePeriods G1) 10 := by
  obtain ⟨-, -, h3, -⟩ := hierarchy_run
  obtain ⟨⟨th, cc⟩, e, h⟩ := Option.map_eq_some_iff.mp h3
  have := (exact_reports G1_ok G1_pos (by simp [G1]) (by decide) G1_solvers (.nPeriodic _ _ e)).1 (by dsimp only at h; rw [h]; norm_num)
  dsimp only at h
  rwa [h, one_div_one_div] at this

/-- The exact commands report the slower of the two: the circuit or the task. -/
theorem G4_answer {d a : ℚ} (hd : 0 < d) {mcrp lp} (hs : Solvers (G4 d) mcrp lp) (ha : ExactAnswer (G4 d) mcrp lp a) : 1 / a = max 10 d := by
  obtain ⟨p0, p1, p2⟩ := G4_parts d
  have hload : load (Y 3 d) = d := by
    have : reps (Y 3 d) = 1 := by simp [reps, Y]
    unfold load
    rw [this]
    simp [Y]
  have hff : ∀ {Ω : ℚ}, 0 ≤ Ω → (Ω ∈ SustainablePeriods ((G4 d).part side 1) ↔ d ≤ Ω) := fun h0 => by
    have := (C105_feed_forward (rank := side) (part_ok (rank := side) (G4_ok hd.le) 1) (by rw [p1]; simp) h0).2
    rw [this, p1]
    simp [hload]
  obtain ⟨h1, h2⟩ := C105_slowest_component (G4_ok hd.le) (by simp [G4, X, Y, hd]) (by simp [G4]) (by simp [G4, X, Y]) hs (rank := side)
    (by simp [G4, side, X, Y]) ha
  have ha0 : 0 < a := by
    by_contra hn
    obtain ⟨r, hr⟩ := h2.mp (not_lt.mp hn)
    rcases r with _ | _ | r
    · rw [p0] at hr
      exact hr ⟨_, G1_least.1.choose_spec.1⟩
    · exact hr ⟨_, ((hff hd.le).mpr le_rfl).choose_spec.1⟩
    · rw [p2] at hr
      exact hr ⟨fun _ _ => 0, ⟨by simp, by simp, by simp⟩⟩
  obtain ⟨⟨t, ht, hL⟩, hall⟩ := h1 ha0
  have hp := one_div_pos.mpr ha0
  have hA := hall 0
  rw [p0] at hA
  have hA := G1_least.2 hA
  have hB := (hff hp.le).mp (hall 1)
  refine le_antisymm ?_ (max_le hA hB)
  have : side t.id = 0 ∨ side t.id = 1 := by unfold side; split <;> simp
  rcases this with h | h <;> rw [h] at hL
  · rw [p0] at hL
    rw [hL.unique G1_least]
    exact le_max_left _ _
  · exact (hL.2 ((hff hd.le).mpr le_rfl)).trans (le_max_right _ _)

/-- There is such an answer: 1/10 when the task is fast, 1/25 when it needs 25. -/
example : (∃ a, ExactAnswer (G4 25) exhaustive bestSolution a) ∧ (∀ a, ExactAnswer (G4 25) exhaustive bestSolution a → a = 1 / 25) ∧
    ∀ a, ExactAnswer (G4 5) exhaustive bestSolution a → a = 1 / 10 := by
  have hs := fun {d : ℚ} (hd : 0 < d) => C104_solvers_exist (G4_ok hd.le) (by simp [G4, X, Y, hd]) (by simp [G4])
  refine ⟨?_, fun a ha => ?_, fun a ha => ?_⟩
  · have hB := G4_ok (d := 25) (by norm_num)
    obtain ⟨cs, hcs⟩ := eventGraph_total (withK_ok hB (K := nVector (G4 25)) (fun t _ => nVector_pos hB _))
    obtain ⟨q, hq⟩ := (exhaustive_event_pos hB (by simp [G4, X, Y]) (nVector_pos hB) ⟨cs, hcs, fun _ => Iff.rfl⟩).2 (by simp [G4])
    exact ⟨q.1, .nPeriodic _ (criticalEdges (G4 25) q.2) (by unfold kSchedule; rw [hcs]; simp [hq])⟩
  · have := G4_answer (by norm_num) (hs (by norm_num)) ha
    rw [← one_div_one_div a, this]; norm_num
  · have := G4_answer (by norm_num) (hs (by norm_num)) ha
    rw [← one_div_one_div a, this]; norm_num

end CompareExample

end Kiter
