/-
C92: the schedules of the periodic scheduling commands.
-/
import Verif.Model.KSchedule
import Verif.Props.KIterHoward
import Verif.Props.FixedK
import Verif.Props.SPSchedule

set_option autoImplicit false

namespace Kiter

open Finset

section
variable {B : BaseGraph}

/-- The loop of the scheduling command is that of the throughput computation. -/
theorem kschedLoop_eq (solve : List EvConstraint → Option (ℚ × List EvConstraint)) (B : BaseGraph) (fuel : ℕ) :
    ∀ (it : ℕ) (K : Int → ℕ) (cs : List EvConstraint) (cc : List BChannel) (th : ℚ),
      (kschedLoop solve B fuel it K cs cc th).map (fun o => o.map Prod.fst) = kiterLoop solve B fuel it K cs cc th := by
  induction fuel with
  | zero => intro it K cs cc th; rfl
  | succ fuel ih =>
    intro it K cs cc th
    unfold kschedLoop kiterLoop
    simp only [Option.bind_eq_bind]
    cases updateEventGraph B K cc cs with
    | none => rfl
    | some u =>
      cases u with
      | none => rfl
      | some kc =>
        simp only [Option.bind_some]
        cases solve kc.2 with
        | none => rfl
        | some r =>
          simp only [Option.bind_some]
          split
          · rfl
          · exact ih _ _ _ _ _

theorem ksched_eq (solve : List EvConstraint → Option (ℚ × List EvConstraint)) (B : BaseGraph) (fuel : ℕ) :
    (ksched solve B fuel).map (fun o => o.map Prod.fst) = kiter solve B fuel := by
  unfold ksched kiter
  simp only [Option.bind_eq_bind]
  cases eventGraph (B.withK fun _ => 1) with
  | none => rfl
  | some cs =>
    simp only [Option.bind_some]
    cases solve cs with
    | none => rfl
    | some r =>
      simp only [Option.bind_some]
      split
      · rfl
      · exact kschedLoop_eq _ _ _ _ _ _ _ _

/-- A K-periodic schedule, execution by execution. -/
theorem valid_execStart {K : Int → ℕ} {S : Event → ℚ} {Ω : ℚ} :
    ValidSchedule (B.withK K) S Ω ↔ ValidStarts B fun t k => execStart S Ω t (K t.id) k := by
  constructor
  · rintro ⟨h1, h2⟩
    refine ⟨fun t ht k => h1 (t, K t.id) (List.mem_map.mpr ⟨t, ht, rfl⟩) k, fun c hc => ?_⟩
    exact h2 (c.1, (c.2.1, K c.2.1.id), (c.2.2, K c.2.2.id)) (List.mem_map.mpr ⟨c, hc, rfl⟩)
  · intro h
    refine ⟨fun tk htk => ?_, fun c hc => ?_⟩
    · obtain ⟨t, ht, rfl⟩ := List.mem_map.mp htk
      exact h.noOverlap t ht
    · obtain ⟨d, hd, rfl⟩ := List.mem_map.mp hc
      exact h.channels d hd

/-- The starts of a task in a schedule with one entry per task, in order. -/
theorem listed_get (hB : BaseOK B) {l : List TaskSchedule} (hl : l.length = B.tasks.length) {F : KTask → ℕ → ℚ}
    (hid : ∀ i (hi : i < B.tasks.length) (hi' : i < l.length), l[i].id = B.tasks[i].id ∧ ∀ k, l[i].start k = F B.tasks[i] k)
    {t : KTask} (ht : t ∈ B.tasks) (k : ℕ) : listedStart l t k = F t k := by
  obtain ⟨i, hi, rfl⟩ := List.mem_iff_getElem.mp ht
  obtain ⟨s, hs⟩ : ∃ s, l.find? (fun s => decide (s.id = B.tasks[i].id)) = some s := by
    rw [← Option.isSome_iff_exists, List.find?_isSome]
    exact ⟨_, List.getElem_mem (by omega : i < l.length), by simp [(hid i hi (by omega)).1]⟩
  unfold listedStart
  rw [hs, Option.map_some, Option.getD_some]
  obtain ⟨j, hj, rfl⟩ := List.mem_iff_getElem.mp (List.mem_of_find?_eq_some hs)
  have h0 := List.find?_some hs
  simp only [decide_eq_true_eq] at h0
  obtain ⟨h1, h2⟩ := hid j (by omega) hj
  have h3 := hB.ids _ (List.getElem_mem (by omega : j < B.tasks.length)) _ (List.getElem_mem hi) (by rw [← h1, h0])
  rw [h2, h3]

/-- What a list of task schedules for the vector `K` and the graph period `Ω` should be: one entry per task, in order, with `K` times
the number of phases starts, of which the infinite expansion is valid, has the graph period `Ω`, is not negative, has a start
at 0 and is the earliest of all valid K-periodic schedules of that period with non-negative starts. -/
structure PeriodicList (B : BaseGraph) (K : Int → ℕ) (Ω : ℚ) (l : List TaskSchedule) : Prop where
  ids : l.map TaskSchedule.id = B.tasks.map KTask.id
  count : l.map (fun s => s.starts.length) = B.tasks.map fun t => K t.id * t.durations.length
  valid : ValidStarts B (listedStart l)
  pace : ∀ t ∈ B.tasks, ∀ k, listedStart l t (k + K t.id * t.durations.length) =
    listedStart l t k + Ω * (t.durations.length * K t.id) / t.ni
  nonneg : ∀ t ∈ B.tasks, ∀ k, 0 ≤ listedStart l t k
  zero : B.tasks ≠ [] → ∃ t ∈ B.tasks, ∃ k, listedStart l t k = 0
  earliest : ∀ X, ValidSchedule (B.withK K) X Ω → (∀ t ∈ B.tasks, ∀ k, 0 ≤ execStart X Ω t (K t.id) k) →
    ∀ t ∈ B.tasks, ∀ k, listedStart l t k ≤ execStart X Ω t (K t.id) k

theorem mem_withK_events (hB : BaseOK B) {K : Int → ℕ} {e : Event} :
    e ∈ graphEvents (B.withK K) ↔ ∃ t ∈ B.tasks, ∃ x < K t.id * t.durations.length, e = evAt t x := by
  constructor
  · intro he
    unfold graphEvents at he
    rw [List.mem_flatMap] at he
    obtain ⟨tk, htk, he⟩ := he
    obtain ⟨t, ht, rfl⟩ := List.mem_map.mp htk
    have hok := hB.tasks t ht
    rw [hok.noInit] at he
    simp only [List.length_nil, List.range_zero, List.map_nil, List.nil_append, List.mem_flatMap, List.mem_map,
      List.mem_range] at he
    obtain ⟨j, hj, i, hi, rfl⟩ := he
    refine ⟨t, ht, j * t.durations.length + i, ?_, ?_⟩
    · calc j * t.durations.length + i < (j + 1) * t.durations.length := by rw [Nat.add_mul]; omega
        _ ≤ _ := Nat.mul_le_mul_right _ hj
    · unfold evAt
      rw [Nat.add_comm, Nat.add_mul_mod_self_right, Nat.mod_eq_of_lt hi, Nat.add_mul_div_right _ _ hok.phases,
        Nat.div_eq_of_lt hi, Nat.zero_add]
  · rintro ⟨t, ht, x, hx, rfl⟩
    exact evAt_mem (tk := (t, K t.id)) (List.mem_map.mpr ⟨t, ht, rfl⟩) (hB.tasks t ht).phases hx

/-- **C50**, on a graph with a vector: for a period that some K-periodic schedule has, the list is as it should be. -/
theorem periodic_list (hB : BaseOK B) {K : Int → ℕ} (hK : ∀ t ∈ B.tasks, 0 < K t.id) {th : ℚ} (hth : 0 < th)
    (hX : ∃ X, ValidSchedule (B.withK K) X (1 / th)) :
    ∃ l, period2scheduling (B.withK K) th = some l ∧ PeriodicList B K (1 / th) l := by
  have hg := withK_ok hB hK
  have hΩ : (0 : ℚ) < 1 / th := by positivity
  obtain ⟨cs, l, hcs, hl, hlen, hent, hval⟩ := C50_period2scheduling hg hth
  set S := (computeStartingTime (graphEvents (B.withK K)) cs (some (1 / th))).2 with hS
  have hlen' : l.length = B.tasks.length := by rw [hlen]; simp [BaseGraph.withK]
  have hget : ∀ i (hi : i < B.tasks.length) (hi' : i < l.length), l[i].id = B.tasks[i].id ∧
      l[i].starts.length = K B.tasks[i].id * B.tasks[i].durations.length ∧
      ∀ k, l[i].start k = execStart S (1 / th) B.tasks[i] (K B.tasks[i].id) k := by
    intro i hi hi'
    have := hent i (by simpa [BaseGraph.withK] using hi) hi'
    simpa [BaseGraph.withK] using this
  have hlist : ∀ t ∈ B.tasks, ∀ k, listedStart l t k = execStart S (1 / th) t (K t.id) k := fun t ht k =>
    listed_get hB hlen' (F := fun t k => execStart S (1 / th) t (K t.id) k)
      (fun i hi hi' => ⟨(hget i hi hi').1, (hget i hi hi').2.2⟩) ht k
  have hkey : ∀ X, Feasible cs (1 / th) X ↔ ValidSchedule (B.withK K) X (1 / th) := by
    intro X
    obtain ⟨cs', h', e⟩ := C15_C16_graph_iff hg X hΩ.le
    rw [hcs] at h'; cases h'
    exact e
  obtain ⟨-, -, a3⟩ := C21_starting_times (graphEvents (B.withK K)) cs (1 / th) (eventGraph_events hg hcs)
  obtain ⟨n1, n2, n3⟩ := a3 ((hkey S).mpr (hval hX))
  have hperiod : ∀ t ∈ B.tasks, (0 : ℚ) ≤ 1 / th * (t.durations.length * K t.id) / t.ni := by
    intro t ht
    have hn : (0 : ℚ) < t.ni := by exact_mod_cast (hB.tasks t ht).ni
    positivity
  -- a bound on the first executions carries over to all
  have hall : ∀ (X : Event → ℚ) (t : KTask), t ∈ B.tasks → ∀ k,
      execStart X (1 / th) t (K t.id) k = X (evAt t (k % (K t.id * t.durations.length))) +
        ((k / (K t.id * t.durations.length) : ℕ) : ℚ) * (1 / th * (t.durations.length * K t.id) / t.ni) := by
    intro X t ht k
    have hpos : 0 < K t.id * t.durations.length := Nat.mul_pos (hK t ht) (hB.tasks t ht).phases
    unfold execStart evAt
    congr 2
    rw [Nat.mod_mul_left_mod, Nat.mul_comm (K t.id), Nat.mod_mul_right_div_self]
  refine ⟨l, hl, ?_, ?_, ?_, ?_, ?_, ?_, ?_⟩
  · apply List.ext_getElem (by simp [hlen'])
    intro i h1 h2
    simp only [List.getElem_map]
    exact (hget i (by simpa using h2) (by simpa using h1)).1
  · apply List.ext_getElem (by simp [hlen'])
    intro i h1 h2
    simp only [List.getElem_map]
    exact (hget i (by simpa using h2) (by simpa using h1)).2.1
  · exact (validStarts_congr hB hlist).mpr (valid_execStart.mp (hval hX))
  · intro t ht k
    rw [hlist t ht, hlist t ht]
    exact execStart_period (hB.tasks t ht).phases (hK t ht) k
  · intro t ht k
    rw [hlist t ht, hall S t ht]
    have h1 := n1 _ ((mem_withK_events hB).mpr ⟨t, ht, k % (K t.id * t.durations.length),
      Nat.mod_lt _ (Nat.mul_pos (hK t ht) (hB.tasks t ht).phases), rfl⟩)
    have h2 := hperiod t ht
    positivity
  · intro hne
    obtain ⟨t, ht⟩ := List.exists_mem_of_ne_nil _ hne
    obtain ⟨e, he, h0⟩ := n2 (List.ne_nil_of_mem ((mem_withK_events hB).mpr ⟨t, ht, 0,
      Nat.mul_pos (hK t ht) (hB.tasks t ht).phases, rfl⟩))
    obtain ⟨t, ht, x, hx, rfl⟩ := (mem_withK_events hB).mp he
    exact ⟨t, ht, x, by rw [hlist t ht, execStart_first hx]; exact h0⟩
  · intro X hX hX0 t ht k
    rw [hlist t ht, hall S t ht, hall X t ht]
    have h1 := n3 X ((hkey X).mpr hX) (fun e he => by
      obtain ⟨t, ht, x, hx, rfl⟩ := (mem_withK_events hB).mp he
      have := hX0 t ht x
      rwa [execStart_first hx] at this) _ ((mem_withK_events hB).mpr ⟨t, ht, k % (K t.id * t.durations.length),
      Nat.mod_lt _ (Nat.mul_pos (hK t ht) (hB.tasks t ht).phases), rfl⟩)
    linarith

/-- **C92** The schedule of the K-periodic scheduling command, when its period is positive: it is as it should be for the final
vector, and its period is the least that any valid schedule, periodic or not, sustains. A period that is not
positive comes with an empty schedule, and the graph has no valid infinite schedule. -/
theorem C92_kperiodic (hB : BaseOK B) {solve : List EvConstraint → Option (ℚ × List EvConstraint)}
    (hsolve : ∀ K cs th p, ((∀ i, 0 < K i) ∧ ∀ t ∈ B.tasks, K t.id ∣ reps t) →
      (∃ cs0, eventGraph (B.withK K) = some cs0 ∧ ∀ c, c ∈ cs ↔ c ∈ cs0) → solve cs = some (th, p) → CycleAnswer cs th p)
    {fuel : ℕ} (hfuel : primeBound B < fuel) {r : SPResult} {K : Int → ℕ} (hr : kpScheduling solve B fuel = some (some (r, K))) :
    r.omega ≠ 0 ∧
    (0 < r.omega → PeriodicList B K r.omega r.tasks ∧ IsLeast (SustainablePeriods B) r.omega ∧ ∀ t ∈ B.tasks, K t.id ∣ reps t) ∧
    (r.omega < 0 → r.tasks = [] ∧ ¬ ∃ σ, ValidGen B σ) := by
  unfold kpScheduling at hr
  obtain ⟨o, ho, hr⟩ := Option.bind_eq_some_iff.mp hr
  cases o with
  | none => simp at hr
  | some kc =>
    obtain ⟨k, cc⟩ := kc
    obtain ⟨l, hl, hr⟩ := Option.map_eq_some_iff.mp hr
    cases hr
    have hk : kiter solve B fuel = some (some k) := by rw [← ksched_eq, ho]; rfl
    obtain ⟨v1, v2⟩ := C52_kiter_verdict hB solve hsolve fuel k hk
    have hdvd := ((C20_terminates hB solve fuel hfuel).2.1 k hk).1
    have hKpos : ∀ t ∈ B.tasks, 0 < k.K t.id := fun t ht => Nat.pos_of_dvd_of_pos (hdvd t ht) (reps_spec hB ht).1
    have hth : k.throughput ≠ 0 := by
      intro h0
      unfold period2scheduling at hl
      rw [if_pos h0] at hl
      simp at hl
    dsimp only
    refine ⟨one_div_ne_zero hth, fun hp => ?_, fun hn => ?_⟩
    · have hth' : 0 < k.throughput := one_div_pos.mp hp
      obtain ⟨w1, w2⟩ := v1 hth'
      obtain ⟨l', h1, h2⟩ := periodic_list hB hKpos hth' w2
      rw [hl] at h1; cases h1
      exact ⟨h2, w1, hdvd⟩
    · have hth' : k.throughput < 0 := one_div_neg.mp hn
      refine ⟨?_, v2 hth'.le⟩
      unfold period2scheduling at hl
      rw [if_neg hth] at hl
      simp only [Option.bind_eq_bind] at hl
      obtain ⟨cs, -, hl⟩ := Option.bind_eq_some_iff.mp hl
      rw [if_pos hn.le] at hl
      simpa using hl.symm

/-- **C92** If the solver always answers and the graph has a valid infinite schedule, the K-periodic scheduling command
returns a schedule, of positive period. -/
theorem C92_returns (hB : BaseOK B) {solve : List EvConstraint → Option (ℚ × List EvConstraint)}
    (hsolve : ∀ K cs th p, ((∀ i, 0 < K i) ∧ ∀ t ∈ B.tasks, K t.id ∣ reps t) →
      (∃ cs0, eventGraph (B.withK K) = some cs0 ∧ ∀ c, c ∈ cs ↔ c ∈ cs0) → solve cs = some (th, p) → CycleAnswer cs th p)
    (hans : ∀ K cs, ((∀ i, 0 < K i) ∧ ∀ t ∈ B.tasks, K t.id ∣ reps t) →
      (∃ cs0, eventGraph (B.withK K) = some cs0 ∧ ∀ c, c ∈ cs ↔ c ∈ cs0) → solve cs ≠ none) {fuel : ℕ} (hfuel : primeBound B < fuel) (hlive : ∃ σ, ValidGen B σ) :
    ∃ r K, kpScheduling solve B fuel = some (some (r, K)) ∧ 0 < r.omega := by
  obtain ⟨c1, c2, c3⟩ := C20_terminates hB solve fuel hfuel
  have c3 := c3 hans
  cases hk : kiter solve B fuel with
  | none => exact absurd hk c3
  | some o =>
    cases o with
    | none => exact absurd hk c1
    | some k =>
      obtain ⟨v1, v2⟩ := C52_kiter_verdict hB solve hsolve fuel k hk
      have hth : 0 < k.throughput := by
        by_contra h
        exact v2 (not_lt.mp h) hlive
      have hKpos : ∀ t ∈ B.tasks, 0 < k.K t.id := fun t ht => Nat.pos_of_dvd_of_pos ((c2 k hk).1 t ht) (reps_spec hB ht).1
      obtain ⟨l, h1, -⟩ := periodic_list hB hKpos hth (v1 hth).2
      have he := ksched_eq solve B fuel
      rw [hk] at he
      obtain ⟨o, ho, h2⟩ := Option.map_eq_some_iff.mp he
      obtain ⟨⟨k', cc⟩, rfl, h3⟩ := Option.map_eq_some_iff.mp h2
      obtain rfl : k' = k := h3
      refine ⟨⟨1 / k'.throughput, l, cc⟩, k'.K, ?_, by positivity⟩
      unfold kpScheduling
      rw [ho, Option.bind_some]
      dsimp only
      rw [h1]
      rfl

/-- In the vector of ones, the events of a task are its phases, in order. -/
theorem one_events (hB : BaseOK B) (hids : (B.tasks.map KTask.id).Nodup) {t : KTask} (ht : t ∈ B.tasks) :
    (graphEvents (B.withK fun _ => 1)).filter (fun e => decide (e.task = t.id)) =
      (List.range (t.initDurations.length + t.durations.length)).map fun (p : ℕ) =>
        (⟨t.id, (p : Int) + 1 - t.initDurations.length, 1⟩ : Event) := by
  have hno := (hB.tasks t ht).noInit
  have hnoall : ∀ s ∈ B.tasks, s.initDurations = [] := fun s hs => (hB.tasks s hs).noInit
  unfold graphEvents BaseGraph.withK
  dsimp only
  revert ht hids hnoall
  generalize B.tasks = l
  intro hids ht hnoall
  induction l with
  | nil => simp at ht
  | cons a l ih =>
    rw [List.map_cons, List.flatMap_cons, List.filter_append]
    rw [List.map_cons, List.nodup_cons] at hids
    have hself : ∀ b : KTask, b.initDurations = [] → (((List.range b.initDurations.length).map fun (i : Nat) => (⟨b.id, -(i : Int), 1⟩ : Event)) ++
        (List.range 1).flatMap fun (j : Nat) =>
          (List.range b.durations.length).map fun (i : Nat) => (⟨b.id, (i : Int) + 1, (j : Int) + 1⟩ : Event)) =
        (List.range b.durations.length).map fun (i : Nat) => (⟨b.id, (i : Int) + 1, 1⟩ : Event) := by
      intro b hb
      rw [hb]; simp
    rw [hself a (hnoall a (by simp))]
    rcases List.mem_cons.mp ht with rfl | ht
    · have h2 : (List.filter (fun e : Event => decide (e.task = t.id)) (List.flatMap (fun tk : KTask × ℕ =>
          ((List.range tk.1.initDurations.length).map fun (i : Nat) => (⟨tk.1.id, -(i : Int), 1⟩ : Event)) ++
          (List.range tk.2).flatMap fun (j : Nat) =>
            (List.range tk.1.durations.length).map fun (i : Nat) => (⟨tk.1.id, (i : Int) + 1, (j : Int) + 1⟩ : Event))
          (l.map fun t => (t, 1)))) = [] := by
        rw [List.filter_eq_nil_iff]
        intro e he
        rw [List.mem_flatMap] at he
        obtain ⟨tk, htk, he⟩ := he
        obtain ⟨s, hs, rfl⟩ := List.mem_map.mp htk
        have hne : s.id ≠ t.id := fun h => hids.1 (List.mem_map.mpr ⟨s, hs, h⟩)
        simp only [List.mem_append, List.mem_map, List.mem_flatMap] at he
        rcases he with ⟨i, -, rfl⟩ | ⟨j, -, i, -, rfl⟩ <;> simpa using hne
      rw [h2, List.append_nil, hno, List.filter_eq_self.mpr]
      · simp
      · intro e he
        obtain ⟨i, -, rfl⟩ := List.mem_map.mp he
        simp
    · have h1 : List.filter (fun e : Event => decide (e.task = t.id))
          ((List.range a.durations.length).map fun (i : Nat) => (⟨a.id, (i : Int) + 1, 1⟩ : Event)) = [] := by
        rw [List.filter_eq_nil_iff]
        intro e he
        obtain ⟨i, -, rfl⟩ := List.mem_map.mp he
        have hne : a.id ≠ t.id := fun h => hids.1 (List.mem_map.mpr ⟨t, ht, h.symm⟩)
        simpa using hne
      rw [h1, List.nil_append]
      exact ih hids.2 ht fun s hs => hnoall s (by simp [hs])

/-- The list of the 1-periodic scheduling is that of `period2scheduling`. -/
theorem oneScheduling_eq (hB : BaseOK B) (hids : (B.tasks.map KTask.id).Nodup)
    {solve : List EvConstraint → Option (ℚ × List EvConstraint)} {cs : List EvConstraint}
    (hcs : eventGraph (B.withK fun _ => 1) = some cs) {th : ℚ} {p : List EvConstraint} (hs : solve cs = some (th, p)) (hth : 0 < th) :
    oneScheduling solve B = (period2scheduling (B.withK fun _ => 1) th).map fun l => ⟨1 / th, l, criticalEdges B p⟩ := by
  unfold oneScheduling period2scheduling
  rw [if_neg hth.ne']
  simp only [hcs, Option.bind_eq_bind, Option.bind_some, hs]
  rw [if_neg hth.ne', if_neg (not_le.mpr (one_div_pos.mpr hth))]
  set S := (computeStartingTime (graphEvents (B.withK fun _ => 1)) cs (some (1 / th))).2 with hS
  let F : KTask → TaskSchedule := fun t => ⟨t.id, (((1 : ℕ) : ℚ) * t.durations.length * (1 / th)) / t.ni,
        ((graphEvents (B.withK fun _ => 1)).filter fun e => decide (e.task = t.id)).map S⟩
  rw [mapM_some _ F B.tasks fun t ht => by rw [if_neg (hB.tasks t ht).ni.ne']]
  have hmap : (B.withK fun _ => 1).tasks.mapM (fun tk : KTask × ℕ =>
        if tk.1.ni = 0 then none
        else (List.mapM (eventStart (graphEvents (B.withK fun _ => 1)) S) ((List.range tk.2).flatMap fun (k : Nat) =>
            (List.range (tk.1.initDurations.length + tk.1.durations.length)).map fun (p : Nat) =>
              (⟨tk.1.id, (p : Int) + 1 - tk.1.initDurations.length, (k : Int) + 1⟩ : Event))).bind fun starts =>
          pure (⟨tk.1.id, ((tk.2 : ℚ) * tk.1.durations.length * (1 / th)) / tk.1.ni, starts⟩ : TaskSchedule)) =
      some ((B.withK fun _ => 1).tasks.map fun tk => F tk.1) := by
    apply mapM_some
    intro tk htk
    obtain ⟨t, ht, rfl⟩ := List.mem_map.mp htk
    rw [if_neg (hB.tasks t ht).ni.ne']
    have he : ((List.range 1).flatMap fun (k : Nat) =>
            (List.range (t.initDurations.length + t.durations.length)).map fun (p : Nat) =>
              (⟨t.id, (p : Int) + 1 - t.initDurations.length, (k : Int) + 1⟩ : Event)) =
        (graphEvents (B.withK fun _ => 1)).filter fun e => decide (e.task = t.id) := by
      rw [one_events hB hids ht]; simp
    dsimp only
    rw [he, mapM_some _ S]
    · rfl
    · intro e he
      unfold eventStart
      rw [if_pos (List.mem_filter.mp he).1]
  rw [hmap]
  simp [BaseGraph.withK, F]

/-- **C92** The schedule of the 1-periodic scheduling command, for an exact answer of the solver: it is as it should be for the vector
of ones, and its period is the least of all 1-periodic schedules. -/
theorem C92_one_periodic (hB : BaseOK B) (hids : (B.tasks.map KTask.id).Nodup)
    {solve : List EvConstraint → Option (ℚ × List EvConstraint)} {cs : List EvConstraint}
    (hcs : eventGraph (B.withK fun _ => 1) = some cs) {th : ℚ} {p : List EvConstraint} (hs : solve cs = some (th, p))
    (hp : CycleAnswer cs th p) :
    (0 < th → ∃ r, oneScheduling solve B = some r ∧ r.omega = 1 / th ∧ PeriodicList B (fun _ => 1) r.omega r.tasks ∧
      IsLeast (KPeriods B fun _ => 1) r.omega) ∧ (th ≤ 0 → KPeriods B (fun _ => 1) = ∅) := by
  have hgf : GraphFor B (fun _ => 1) cs := ⟨cs, hcs, fun _ => Iff.rfl⟩
  have h1 : ∀ i : Int, 0 < (fun _ : Int => 1) i := fun _ => Nat.one_pos
  refine ⟨fun hth => ?_, fun hth => ?_⟩
  · obtain ⟨l, hl, hpl⟩ := periodic_list hB (fun _ _ => Nat.one_pos) hth (attained_schedule hB h1 hgf hth hp.best)
    refine ⟨⟨1 / th, l, criticalEdges B p⟩, ?_, rfl, hpl, ⟨by positivity, attained_schedule hB h1 hgf hth hp.best⟩, fun Ω hΩ => ?_⟩
    · rw [oneScheduling_eq hB hids hcs hs hth, hl]; rfl
    · dsimp only
      rw [div_le_iff₀ hth]
      exact kperiod_bound hB h1 hgf hp hΩ
  · rw [Set.eq_empty_iff_forall_notMem]
    intro Ω hΩ
    have := kperiod_bound hB h1 hgf hp hΩ
    have h2 : Ω * th ≤ 0 := mul_nonpos_of_nonneg_of_nonpos hΩ.1 hth
    linarith

/-- **C92 with C65** The same with kiter's own cycle ratio solver, on graphs with positive durations, for a machine precision
that is fine enough for the numbers of the graph. -/
theorem C92_with_solver (hB : BaseOK B) (hpos : ∀ t ∈ B.tasks, ∀ d ∈ t.durations, 0 < d) (L : ℕ) :
    ∃ ε₀ : ℚ, 0 < ε₀ ∧ ∀ (eps huge : ℚ) (vertices : List EvConstraint → List Event), 0 < eps → eps ≤ ε₀ →
      (∀ K cs, ((∀ i, 0 < K i) ∧ ∀ t ∈ B.tasks, K t.id ∣ reps t) →
        (∃ cs0, eventGraph (B.withK K) = some cs0 ∧ ∀ c, c ∈ cs ↔ c ∈ cs0) →
        Howard.WF ⟨vertices cs, cs⟩ ∧ (vertices cs).length ≤ L) →
      ∀ (fuel : ℕ) (r : SPResult) (K : Int → ℕ), primeBound B < fuel →
        kpScheduling (Howard.solver eps huge vertices) B fuel = some (some (r, K)) → 0 < r.omega →
        PeriodicList B K r.omega r.tasks ∧ IsLeast (SustainablePeriods B) r.omega := by
  refine ⟨fineEps B L, fineEps_pos hB L, fun eps huge vertices h0 h1 hv fuel r K hfuel hr hp => ?_⟩
  have h := (C92_kperiodic hB (fun K cs th p hK hcs hs => by
    obtain ⟨a, b⟩ := hv K cs hK hcs
    exact solver_answer hB hpos h0 h1 hK.1 hcs a b hs) hfuel hr).2.1 hp
  exact ⟨h.1, h.2.1⟩

end

namespace KScheduleExample
open KIterExample

/-- The commands on the graph of the K-Iter example: the K-periodic schedule has period 7, with three starts per period for
`B`; the 1-periodic one has period 15/2. -/
theorem run : ((kpScheduling (certified cands) G 10).map fun o => o.map fun r => (r.1.omega, r.1.tasks, r.1.critical.map fun c => c.1.id)) =
      some (some (7, [⟨0, 7, [0, 1]⟩, ⟨1, 7, [1, 4, 6]⟩], [1, 2])) ∧
    (oneScheduling (certified cands) G).map (fun r => (r.omega, r.tasks, r.critical.map fun c => c.1.id)) =
      some (15 / 2, [⟨0, 15 / 2, [0, 1]⟩, ⟨1, 5 / 2, [3 / 2]⟩], [1, 2]) := by
  decide +kernel

/-- The hypotheses of `C92_kperiodic` hold for this graph. -/
example : ∃ r K, kpScheduling (certified cands) G 10 = some (some (r, K)) ∧ r.tasks = [⟨0, 7, [0, 1]⟩, ⟨1, 7, [1, 4, 6]⟩] ∧
    PeriodicList G K 7 r.tasks ∧ IsLeast (SustainablePeriods G) 7 := by
  have hfuel : primeBound G < 10 := by
    have h3 : Nat.primeFactorsList 3 = [3] := Nat.primeFactorsList_prime Nat.prime_three
    have hA : reps A = 1 := by decide
    have hB : reps KIterExample.B = 3 := by decide
    simp [primeBound, G, hA, hB, h3]
  obtain ⟨o, ho, h⟩ := Option.map_eq_some_iff.mp run.1
  obtain ⟨⟨r, K⟩, rfl, h⟩ := Option.map_eq_some_iff.mp h
  have ho' : r.omega = 7 := congrArg (fun x => x.1) (Option.some.inj h)
  have ht' : r.tasks = [⟨0, 7, [0, 1]⟩, ⟨1, 7, [1, 4, 6]⟩] := congrArg (fun x => x.2.1) (Option.some.inj h)
  have h7 := (C92_kperiodic G_ok (fun _ cs th p _ _ h => (certified_exact _ cs th p h).answer) hfuel ho).2.1 (by rw [ho']; norm_num)
  rw [ho'] at h7
  exact ⟨r, K, ho, ht', h7.1, h7.2.1⟩

/-- The hypotheses of `C92_one_periodic` hold for this graph. -/
example : ∃ r, oneScheduling (certified cands) G = some r ∧ PeriodicList G (fun _ => 1) r.omega r.tasks ∧
    IsLeast (KPeriods G fun _ => 1) r.omega := by
  obtain ⟨cs, hcs⟩ := eventGraph_total (withK_ok G_ok (K := fun _ => 1) (fun _ _ => Nat.one_pos))
  have hs : ((eventGraph (G.withK fun _ => 1)).bind (certified cands)).map Prod.fst = some (2 / 15) := by decide +kernel
  rw [hcs, Option.bind_some] at hs
  obtain ⟨⟨th, p⟩, hs, h⟩ := Option.map_eq_some_iff.mp hs
  obtain ⟨r, h1, -, h2, h3⟩ := (C92_one_periodic G_ok (by decide +kernel) hcs hs (certified_exact _ _ _ _ hs).answer).1
    (by rw [show th = 2 / 15 from h]; norm_num)
  exact ⟨r, h1, h2, h3⟩

/-- **C92**, counterexample. On the graph without initial tokens, for which no schedule of any kind exists, the 1-periodic
scheduling command returns one of period -15, where the two phases of the first task start in the wrong order. -/
theorem C92_negative_period :
    (oneScheduling (Howard.solver (1 / 10 ^ 19) (10 ^ 300) fun _ => graphEvents (dead.withK fun _ => 1)) dead).map
      (fun r => (r.omega, r.tasks)) = some (-15, [⟨0, -15, [11, 0]⟩, ⟨1, -5, [8]⟩]) := by decide +kernel

end KScheduleExample

end Kiter
