/-
C102: what the command BufferlessKPeriodicScheduling prints, with and without its parameters `stop_at_first` and
`get_previous`.
-/
import Verif.Model.BufferlessK
import Verif.Props.KSchedule
import Verif.Props.Untimed

set_option autoImplicit false

namespace Kiter

section
variable {B : BaseGraph}

/-- The best value for a vector: its inverse is the least period of the schedules with that vector, or there is none. -/
theorem best_for (hB : BaseOK B) {K : Int → ℕ} (hK : ∀ i, 0 < K i) {cs : List EvConstraint} (hcs : GraphFor B K cs) {th : ℚ}
    {p : List EvConstraint} (hp : CycleAnswer cs th p) :
    (0 < th → IsLeast (KPeriods B K) (1 / th)) ∧ (th ≤ 0 → KPeriods B K = ∅) := by
  refine ⟨fun hth => ⟨⟨by positivity, attained_schedule hB hK hcs hth hp.best⟩, fun Ω hΩ => ?_⟩, fun hth => ?_⟩
  · rw [div_le_iff₀ hth]; exact kperiod_bound hB hK hcs hp hΩ
  · rw [Set.eq_empty_iff_forall_notMem]
    intro Ω hΩ
    have := kperiod_bound hB hK hcs hp hΩ
    have h2 : Ω * th ≤ 0 := mul_nonpos_of_nonneg_of_nonpos hΩ.1 hth
    linarith

/-- What is known of a vector and a value after the loop. -/
structure BlOutcome (B : BaseGraph) (stop prev : Bool) (K : Int → ℕ) (th : ℚ) : Prop where
  ok : KOk B K
  best : 0 < th → IsLeast (KPeriods B K) (1 / th)
  least : stop = false → prev = false → 0 < th → IsLeast (SustainablePeriods B) (1 / th)
  dead : stop = false → prev = false → th ≤ 0 → ¬ ∃ σ, ValidGen B σ

theorem blLoop_step {solve : List EvConstraint → Option (ℚ × List EvConstraint)} {stop prev : Bool} {fuel : ℕ} {K K' : Int → ℕ}
    {ch : Bool} {cc : List BChannel} {th : ℚ} {cs' : List EvConstraint} (hu : updateVectorWithLocalNi K cc = some (K', ch))
    (hc : eventGraph (B.withK K') = some cs') : blLoop solve B stop prev (fuel + 1) K cc th =
      (solve cs').bind fun r =>
        if sameset (criticalEdges B r.2) cc || (stop && decide (0 < th)) then
          if decide (th < r.1) && !prev then some (some (K', r.1)) else if prev then some (some (K, th)) else some (some (K', th))
        else blLoop solve B stop prev fuel K' (criticalEdges B r.2) r.1 := by
  show (updateVectorWithLocalNi K cc).bind _ = _
  rw [hu, Option.bind_some]
  show (eventGraph (B.withK K')).bind _ = _
  rw [hc, Option.bind_some]

theorem blLoop_outcome (hB : BaseOK B) {solve : List EvConstraint → Option (ℚ × List EvConstraint)}
    (hsolve : ∀ K cs th p, KOk B K → GraphFor B K cs → solve cs = some (th, p) → CycleAnswer cs th p) {stop prev : Bool}
    (fuel : ℕ) (K : Int → ℕ) (hK : KOk B K) (cs : List EvConstraint) (hcs : GraphFor B K cs) (th : ℚ) (p : List EvConstraint)
    (hp : CycleAnswer cs th p) (r : (Int → ℕ) × ℚ)
    (hr : blLoop solve B stop prev fuel K (criticalEdges B p) th = some (some r)) : BlOutcome B stop prev r.1 r.2 := by
  induction fuel generalizing K cs th p with
  | zero => simp [blLoop] at hr
  | succ fuel ih =>
    obtain ⟨g, K', ch, u1, u2, u3, -, u4, u5, u6, u7, -, -⟩ := updateVector_spec hB (criticalEdges B p) (criticalEdges_sub B p) K hK
    obtain ⟨cs', hcs'⟩ := eventGraph_total (withK_ok hB (K := K') (fun t _ => u4.1 _))
    have hgf : GraphFor B K' cs' := ⟨cs', hcs', fun _ => Iff.rfl⟩
    rw [blLoop_step u1 hcs'] at hr
    obtain ⟨q, hs, hr⟩ := Option.bind_eq_some_iff.mp hr
    have hq : CycleAnswer cs' q.1 q.2 := hsolve K' cs' q.1 q.2 u4 hgf hs
    split at hr
    · rename_i hend
      have b := best_for hB hK.1 hcs hp
      have b' := best_for hB u4.1 hgf hq
      have hmono : 0 < th → th ≤ q.1 := by
        intro hth
        have := kperiod_bound hB u4.1 hgf hq (kperiods_mono hB hK.1 (fun t _ => u5 t.id) (b.1 hth).1)
        rw [div_mul_eq_mul_div, one_mul, le_div_iff₀ hth, one_mul] at this
        exact this
      have hverdict : stop = false → (0 < q.1 → IsLeast (SustainablePeriods B) (1 / q.1)) ∧ (q.1 ≤ 0 → ¬ ∃ σ, ValidGen B σ) := by
        rintro rfl
        rw [Bool.false_and, Bool.or_false] at hend
        have hsub := sameset_sub hB (criticalEdges_sub B q.2) (criticalEdges_sub B p) hend
        have v := verdict hB u4.1 hgf hq (G := g) (fun hne => u2 (by
          obtain ⟨e, he⟩ := List.exists_mem_of_ne_nil _ hne
          exact List.ne_nil_of_mem (hsub e he))) fun e he => ⟨u3 e (hsub e he), u6 e (hsub e he)⟩
        exact ⟨fun h => (v.1 h).1, v.2⟩
      split at hr
      · cases hr
        exact ⟨u4, b'.1, fun hs _ => (hverdict hs).1, fun hs _ => (hverdict hs).2⟩
      · rename_i hle
        split at hr
        · rename_i hprev
          cases hr
          exact ⟨hK, b.1, fun _ h => by simp [h] at hprev, fun _ h => by simp [h] at hprev⟩
        · rename_i hprev
          cases hr
          have hpf : prev = false := by simpa using hprev
          have hle : q.1 ≤ th := by
            rw [hpf] at hle
            simpa using hle
          have heq : 0 < th → th = q.1 := fun h => le_antisymm (hmono h) hle
          refine ⟨u4, fun h => ?_, fun hs _ h => ?_, fun hs _ h => (hverdict hs).2 (hle.trans h)⟩
          · dsimp only at h ⊢
            have e := heq h
            rw [e] at h ⊢; exact b'.1 h
          · dsimp only at h ⊢
            have e := heq h
            rw [e] at h ⊢; exact (hverdict hs).1 h
    · exact ih K' u4 cs' hgf q.1 q.2 hq hr

theorem blThroughput_outcome (hB : BaseOK B) {solve : List EvConstraint → Option (ℚ × List EvConstraint)}
    (hsolve : ∀ K cs th p, KOk B K → GraphFor B K cs → solve cs = some (th, p) → CycleAnswer cs th p) {stop prev : Bool}
    {fuel : ℕ} {r : (Int → ℕ) × ℚ} (hr : blThroughput solve B stop prev fuel = some (some r)) :
    BlOutcome B stop prev r.1 r.2 := by
  obtain ⟨cs, hcs⟩ := eventGraph_total (withK_ok hB (K := fun _ => 1) (fun _ _ => Nat.one_pos))
  have hgf : GraphFor B (fun _ => 1) cs := ⟨cs, hcs, fun _ => Iff.rfl⟩
  unfold blThroughput at hr
  rw [hcs, Option.bind_some] at hr
  obtain ⟨q, hs, hr⟩ := Option.bind_eq_some_iff.mp hr
  have hq : CycleAnswer cs q.1 q.2 := hsolve _ cs q.1 q.2 kOk_one hgf hs
  split at hr
  · exact blLoop_outcome hB hsolve fuel _ kOk_one cs hgf q.1 q.2 hq r hr
  · rename_i hc
    cases hr
    have hv : stop = false → (0 < q.1 → IsLeast (SustainablePeriods B) (1 / q.1)) ∧ (q.1 ≤ 0 → ¬ ∃ σ, ValidGen B σ) := by
      rintro rfl
      have hnil : criticalEdges B q.2 = [] := by simpa using hc
      have v := verdict hB (fun _ => Nat.one_pos) hgf hq (G := 0) (fun h => absurd hnil h) (by rw [hnil]; simp)
      exact ⟨fun h => (v.1 h).1, v.2⟩
    exact ⟨kOk_one, (best_for hB (fun _ => Nat.one_pos) hgf hq).1, fun hs _ => (hv hs).1, fun hs _ => (hv hs).2⟩

theorem sameset_self (a : List BChannel) : sameset a a = true := by
  unfold sameset
  simp only [Bool.and_eq_true, List.all_eq_true, List.any_eq_true]
  exact ⟨by simp, fun x hx => ⟨x, hx, by simp⟩⟩

theorem blLoop_terminates (hB : BaseOK B) {solve : List EvConstraint → Option (ℚ × List EvConstraint)} {stop prev : Bool}
    (fuel : ℕ) (K : Int → ℕ) (hK : KOk B K) (cs : List EvConstraint) (hcs : eventGraph (B.withK K) = some cs) (th : ℚ)
    (p : List EvConstraint) (hs : solve cs = some (th, p)) (hfuel : primeBound B < fuel + primeRank B K) :
    blLoop solve B stop prev fuel K (criticalEdges B p) th ≠ some none ∧
      ((∀ K cs, KOk B K → GraphFor B K cs → solve cs ≠ none) → blLoop solve B stop prev fuel K (criticalEdges B p) th ≠ none) := by
  induction fuel generalizing K cs th p with
  | zero => have := rank_le_bound hB hK; omega
  | succ fuel ih =>
    obtain ⟨g, K', ch, u1, -, -, -, u4, -, -, u7, -, -⟩ := updateVector_spec hB (criticalEdges B p) (criticalEdges_sub B p) K hK
    obtain ⟨cs', hcs'⟩ := eventGraph_total (withK_ok hB (K := K') (fun t _ => u4.1 _))
    rw [blLoop_step u1 hcs']
    cases hq : solve cs' with
    | none => exact ⟨by simp, fun h => absurd hq (h K' cs' u4 ⟨cs', hcs', fun _ => Iff.rfl⟩)⟩
    | some q =>
      rw [Option.bind_some]
      have hend : ∀ {x y z : (Int → ℕ) × ℚ} {c d : Prop} [Decidable c] [Decidable d],
          (if c then some (some x) else if d then some (some y) else some (some z)) ≠ some none ∧
          (if c then some (some x) else if d then some (some y) else some (some z)) ≠ none := by
        intro x y z c d _ _
        split
        · simp
        · split <;> simp
      by_cases hsame : (sameset (criticalEdges B q.2) (criticalEdges B p) || (stop && decide (0 < th))) = true
      · rw [if_pos hsame]
        exact ⟨hend.1, fun _ => hend.2⟩
      · rw [if_neg hsame]
        cases ch with
        | true =>
          obtain ⟨-, hlt⟩ := rank_lt hB hK (criticalEdges_sub B p) u1
          exact ih K' u4 cs' hcs' q.1 q.2 hq (by omega)
        | false =>
          exfalso
          apply hsame
          have hKK : K' = K := by
            funext i
            by_contra hne
            have := u7.mpr ⟨i, hne⟩
            simp at this
          rw [hKK, hcs] at hcs'
          cases hcs'
          rw [hs] at hq
          cases hq
          rw [sameset_self]; rfl

/-- The events of a task in the event graph: its phases, iteration after iteration. -/
theorem task_events (hB : BaseOK B) (hids : (B.tasks.map KTask.id).Nodup) (K : Int → ℕ) {t : KTask} (ht : t ∈ B.tasks) :
    (graphEvents (B.withK K)).filter (fun e => decide (e.task = t.id)) =
      (List.range (K t.id)).flatMap fun (j : ℕ) => (List.range (t.initDurations.length + t.durations.length)).map fun (p : ℕ) =>
        (⟨t.id, (p : Int) + 1 - t.initDurations.length, (j : Int) + 1⟩ : Event) := by
  have hnoall : ∀ s ∈ B.tasks, s.initDurations = [] := fun s hs => (hB.tasks s hs).noInit
  unfold graphEvents BaseGraph.withK
  dsimp only
  revert ht hids hnoall
  generalize B.tasks = l
  intro hids ht hnoall
  let E : KTask → List Event := fun b => (List.range (K b.id)).flatMap fun (j : Nat) =>
          (List.range b.durations.length).map fun (i : Nat) => (⟨b.id, (i : Int) + 1, (j : Int) + 1⟩ : Event)
  have hE : ∀ b : KTask, ∀ e ∈ E b, e.task = b.id := by
    intro b e he
    simp only [E, List.mem_flatMap, List.mem_map] at he
    obtain ⟨j, -, i, -, rfl⟩ := he
    rfl
  have hself : ∀ b : KTask, b.initDurations = [] → (((List.range b.initDurations.length).map fun (i : Nat) => (⟨b.id, -(i : Int), 1⟩ : Event)) ++
        (List.range (K b.id)).flatMap fun (j : Nat) =>
          (List.range b.durations.length).map fun (i : Nat) => (⟨b.id, (i : Int) + 1, (j : Int) + 1⟩ : Event)) = E b := by
    intro b hb
    rw [hb]; simp [E]
  have hgoal : ((List.range (K t.id)).flatMap fun (j : ℕ) => (List.range (t.initDurations.length + t.durations.length)).map fun (p : ℕ) =>
        (⟨t.id, (p : Int) + 1 - t.initDurations.length, (j : Int) + 1⟩ : Event)) = E t := by
    rw [hnoall t ht]; simp [E]
  rw [hgoal]
  clear hgoal
  induction l with
  | nil => simp at ht
  | cons a l ih =>
    rw [List.map_cons, List.flatMap_cons, List.filter_append]
    rw [List.map_cons, List.nodup_cons] at hids
    rw [hself a (hnoall a (by simp))]
    rcases List.mem_cons.mp ht with rfl | ht
    · have h2 : (List.filter (fun e : Event => decide (e.task = t.id)) (List.flatMap (fun tk : KTask × ℕ =>
          ((List.range tk.1.initDurations.length).map fun (i : Nat) => (⟨tk.1.id, -(i : Int), 1⟩ : Event)) ++
          (List.range tk.2).flatMap fun (j : Nat) =>
            (List.range tk.1.durations.length).map fun (i : Nat) => (⟨tk.1.id, (i : Int) + 1, (j : Int) + 1⟩ : Event))
          (l.map fun t => (t, K t.id)))) = [] := by
        rw [List.filter_eq_nil_iff]
        intro e he
        rw [List.mem_flatMap] at he
        obtain ⟨tk, htk, he⟩ := he
        obtain ⟨s, hs, rfl⟩ := List.mem_map.mp htk
        have hne : s.id ≠ t.id := fun h => hids.1 (List.mem_map.mpr ⟨s, hs, h⟩)
        simp only [List.mem_append, List.mem_map, List.mem_flatMap] at he
        rcases he with ⟨i, -, rfl⟩ | ⟨j, -, i, -, rfl⟩ <;> simpa using hne
      rw [h2, List.append_nil, List.filter_eq_self.mpr]
      intro e he
      simpa using hE t e he
    · have h1 : List.filter (fun e : Event => decide (e.task = t.id)) (E a) = [] := by
        rw [List.filter_eq_nil_iff]
        intro e he
        have hne : a.id ≠ t.id := fun h => hids.1 (List.mem_map.mpr ⟨t, ht, h.symm⟩)
        rw [hE a e he]
        simpa using hne
      rw [h1, List.nil_append]
      exact ih hids.2 ht fun s hs => hnoall s (by simp [hs])

/-- For a positive throughput the schedule is that of `period2scheduling`. -/
theorem blSchedule_eq (hB : BaseOK B) (hids : (B.tasks.map KTask.id).Nodup) (K : Int → ℕ) {th : ℚ} (hth : 0 < th) :
    blSchedule B K th = period2scheduling (B.withK K) th := by
  unfold blSchedule period2scheduling
  rw [if_neg hth.ne', if_neg hth.ne']
  simp only [Option.bind_eq_bind]
  cases hcs : eventGraph (B.withK K) with
  | none => rfl
  | some cs =>
    rw [Option.bind_some, Option.bind_some, if_neg (not_le.mpr (one_div_pos.mpr hth))]
    set S := (computeStartingTime (graphEvents (B.withK K)) cs (some (1 / th))).2 with hS
    let F : KTask → TaskSchedule := fun t => ⟨t.id, ((K t.id : ℚ) * t.durations.length * (1 / th)) / t.ni,
          ((graphEvents (B.withK K)).filter fun e => decide (e.task = t.id)).map S⟩
    rw [mapM_some _ F B.tasks fun t ht => by rw [if_neg (hB.tasks t ht).ni.ne']]
    have hmap : (B.withK K).tasks.mapM (fun tk : KTask × ℕ =>
          if tk.1.ni = 0 then none
          else (List.mapM (eventStart (graphEvents (B.withK K)) S) ((List.range tk.2).flatMap fun (k : Nat) =>
              (List.range (tk.1.initDurations.length + tk.1.durations.length)).map fun (p : Nat) =>
                (⟨tk.1.id, (p : Int) + 1 - tk.1.initDurations.length, (k : Int) + 1⟩ : Event))).bind fun starts =>
            pure (⟨tk.1.id, ((tk.2 : ℚ) * tk.1.durations.length * (1 / th)) / tk.1.ni, starts⟩ : TaskSchedule)) =
        some ((B.withK K).tasks.map fun tk => F tk.1) := by
      apply mapM_some
      intro tk htk
      obtain ⟨t, ht, rfl⟩ := List.mem_map.mp htk
      rw [if_neg (hB.tasks t ht).ni.ne']
      dsimp only
      rw [← task_events hB hids K ht, mapM_some _ S]
      · rfl
      · intro e he
        unfold eventStart
        rw [if_pos (List.mem_filter.mp he).1]
    rw [hmap]
    simp [BaseGraph.withK, F]

/-- What is printed when it is positive: a schedule as it should be for the vector, whose period is the least for the vector. -/
theorem blScheduling_some (hB : BaseOK B) (hids : (B.tasks.map KTask.id).Nodup)
    {solve : List EvConstraint → Option (ℚ × List EvConstraint)}
    (hsolve : ∀ K cs th p, KOk B K → GraphFor B K cs → solve cs = some (th, p) → CycleAnswer cs th p) {stop prev : Bool}
    {fuel : ℕ} {th : ℚ} {K : Int → ℕ} {l : List TaskSchedule}
    (hr : blScheduling solve B stop prev fuel = some (some (th, K, l))) :
    BlOutcome B stop prev K th ∧ (0 < th → PeriodicList B K (1 / th) l) := by
  unfold blScheduling at hr
  obtain ⟨o, ho, hr⟩ := Option.bind_eq_some_iff.mp hr
  cases o with
  | none => simp at hr
  | some r =>
    dsimp only at hr
    obtain ⟨l', hl, h⟩ := Option.map_eq_some_iff.mp hr
    cases h
    have out := blThroughput_outcome hB hsolve ho
    refine ⟨out, fun hth => ?_⟩
    rw [blSchedule_eq hB hids _ hth] at hl
    obtain ⟨l2, h1, h2⟩ := periodic_list hB (K := r.1) (fun t _ => out.ok.1 t.id) hth (out.best hth).1.2
    rw [hl] at h1; cases h1
    exact h2

/-- **C102** Without options, the command prints the best throughput of the graph: when it is positive, its inverse is the least
period of all valid schedules, periodic or not, and the starting times printed are a valid schedule with that period, the
earliest one for its vector. Otherwise the graph has no valid infinite schedule. -/
theorem C102_without_options (hB : BaseOK B) (hids : (B.tasks.map KTask.id).Nodup)
    {solve : List EvConstraint → Option (ℚ × List EvConstraint)}
    (hsolve : ∀ K cs th p, ((∀ i, 0 < K i) ∧ ∀ t ∈ B.tasks, K t.id ∣ reps t) →
      (∃ cs0, eventGraph (B.withK K) = some cs0 ∧ ∀ c, c ∈ cs ↔ c ∈ cs0) → solve cs = some (th, p) → CycleAnswer cs th p)
    {fuel : ℕ} {th : ℚ} {K : Int → ℕ} {l : List TaskSchedule}
    (hr : blScheduling solve B false false fuel = some (some (th, K, l))) :
    (0 < th → IsLeast (SustainablePeriods B) (1 / th) ∧ PeriodicList B K (1 / th) l) ∧ (th ≤ 0 → ¬ ∃ σ, ValidGen B σ) := by
  obtain ⟨out, h⟩ := blScheduling_some hB hids hsolve hr
  exact ⟨fun hth => ⟨out.least rfl rfl hth, h hth⟩, out.dead rfl rfl⟩

/-- **C102** Whatever the options, a positive throughput comes with a valid schedule that has it, and no schedule with the same vector is
faster. -/
theorem C102_any_options (hB : BaseOK B) (hids : (B.tasks.map KTask.id).Nodup)
    {solve : List EvConstraint → Option (ℚ × List EvConstraint)}
    (hsolve : ∀ K cs th p, ((∀ i, 0 < K i) ∧ ∀ t ∈ B.tasks, K t.id ∣ reps t) →
      (∃ cs0, eventGraph (B.withK K) = some cs0 ∧ ∀ c, c ∈ cs ↔ c ∈ cs0) → solve cs = some (th, p) → CycleAnswer cs th p)
    {stop prev : Bool} {fuel : ℕ} {th : ℚ} {K : Int → ℕ} {l : List TaskSchedule}
    (hr : blScheduling solve B stop prev fuel = some (some (th, K, l))) (hth : 0 < th) :
    PeriodicList B K (1 / th) l ∧ IsLeast (KPeriods B K) (1 / th) ∧ ∀ t ∈ B.tasks, K t.id ∣ reps t := by
  obtain ⟨out, h⟩ := blScheduling_some hB hids hsolve hr
  exact ⟨h hth, out.best hth, out.ok.2⟩

/-- **C102** The command ends, whatever the options and the answers of the solver: the number of rounds is at most the number
of prime factors of the iteration counts plus one. -/
theorem C102_terminates (hB : BaseOK B) (solve : List EvConstraint → Option (ℚ × List EvConstraint)) (stop prev : Bool) {fuel : ℕ}
    (hfuel : primeBound B < fuel) : blScheduling solve B stop prev fuel ≠ some none := by
  obtain ⟨cs, hcs⟩ := eventGraph_total (withK_ok hB (K := fun _ => 1) (fun _ _ => Nat.one_pos))
  have h : blThroughput solve B stop prev fuel ≠ some none := by
    unfold blThroughput
    rw [hcs, Option.bind_some]
    cases hs : solve cs with
    | none => simp
    | some q =>
      rw [Option.bind_some]
      split
      · exact (blLoop_terminates hB fuel _ kOk_one cs hcs q.1 q.2 hs (by omega)).1
      · simp
  unfold blScheduling
  cases ho : blThroughput solve B stop prev fuel with
  | none => simp
  | some o =>
    cases o with
    | none => exact absurd ho h
    | some r => simp

/-- **C102** On a graph with a valid infinite schedule, the command without options prints a schedule, if the solver always answers. -/
theorem C102_returns (hB : BaseOK B) (hids : (B.tasks.map KTask.id).Nodup)
    {solve : List EvConstraint → Option (ℚ × List EvConstraint)}
    (hsolve : ∀ K cs th p, ((∀ i, 0 < K i) ∧ ∀ t ∈ B.tasks, K t.id ∣ reps t) →
      (∃ cs0, eventGraph (B.withK K) = some cs0 ∧ ∀ c, c ∈ cs ↔ c ∈ cs0) → solve cs = some (th, p) → CycleAnswer cs th p)
    (hans : ∀ K cs, ((∀ i, 0 < K i) ∧ ∀ t ∈ B.tasks, K t.id ∣ reps t) →
      (∃ cs0, eventGraph (B.withK K) = some cs0 ∧ ∀ c, c ∈ cs ↔ c ∈ cs0) → solve cs ≠ none) {fuel : ℕ} (hfuel : primeBound B < fuel) (hlive : ∃ σ, ValidGen B σ) :
    ∃ th K l, blScheduling solve B false false fuel = some (some (th, K, l)) ∧ 0 < th := by
  obtain ⟨cs, hcs⟩ := eventGraph_total (withK_ok hB (K := fun _ => 1) (fun _ _ => Nat.one_pos))
  have h : ∃ r, blThroughput solve B false false fuel = some (some r) := by
    unfold blThroughput
    rw [hcs, Option.bind_some]
    cases hs : solve cs with
    | none => exact absurd hs (hans _ cs kOk_one ⟨cs, hcs, fun _ => Iff.rfl⟩)
    | some q =>
      rw [Option.bind_some]
      split
      · obtain ⟨a, b⟩ := blLoop_terminates hB (stop := false) (prev := false) fuel _ kOk_one cs hcs q.1 q.2 hs (by omega)
        cases ho : blLoop solve B false false fuel (fun _ => 1) (criticalEdges B q.2) q.1 with
        | none => exact absurd ho (b hans)
        | some o =>
          cases o with
          | none => exact absurd ho a
          | some r => exact ⟨r, rfl⟩
      · exact ⟨_, rfl⟩
  obtain ⟨r, hr⟩ := h
  have out := blThroughput_outcome hB hsolve hr
  have hth : 0 < r.2 := by
    by_contra hn
    exact out.dead rfl rfl (not_lt.mp hn) hlive
  obtain ⟨l, h1, -⟩ := periodic_list hB (K := r.1) (fun t _ => out.ok.1 t.id) hth (out.best hth).1.2
  refine ⟨r.2, r.1, l, ?_, hth⟩
  unfold blScheduling
  rw [hr, Option.bind_some]
  dsimp only
  rw [blSchedule_eq hB hids _ hth, h1]
  rfl

/-- **C102** With `stop_at_first`, the command gives up when no 1-periodic schedule exists: whatever the graph, what it then prints is
not positive. -/
theorem C102_stop_at_first_gives_up (hB : BaseOK B) {solve : List EvConstraint → Option (ℚ × List EvConstraint)}
    (hsolve : ∀ K cs th p, ((∀ i, 0 < K i) ∧ ∀ t ∈ B.tasks, K t.id ∣ reps t) →
      (∃ cs0, eventGraph (B.withK K) = some cs0 ∧ ∀ c, c ∈ cs ↔ c ∈ cs0) → solve cs = some (th, p) → CycleAnswer cs th p)
    {prev : Bool} {fuel : ℕ} {th : ℚ} {K : Int → ℕ} {l : List TaskSchedule}
    (hr : blScheduling solve B true prev fuel = some (some (th, K, l))) (hno : KPeriods B (fun _ => 1) = ∅) : th ≤ 0 := by
  obtain ⟨cs, hcs⟩ := eventGraph_total (withK_ok hB (K := fun _ => 1) (fun _ _ => Nat.one_pos))
  have hgf : GraphFor B (fun _ => 1) cs := ⟨cs, hcs, fun _ => Iff.rfl⟩
  unfold blScheduling blThroughput at hr
  rw [hcs, Option.bind_some] at hr
  cases hs : solve cs with
  | none => rw [hs] at hr; simp at hr
  | some q =>
    have hq : CycleAnswer cs q.1 q.2 := hsolve _ cs q.1 q.2 kOk_one hgf hs
    have hle : q.1 ≤ 0 := by
      by_contra h
      have := ((best_for hB (fun _ => Nat.one_pos) hgf hq).1 (not_le.mp h)).1
      rw [hno] at this
      exact this
    rw [hs, Option.bind_some, if_neg (by simp [not_lt.mpr hle]), Option.bind_some] at hr
    dsimp only at hr
    obtain ⟨l', -, h⟩ := Option.map_eq_some_iff.mp hr
    cases h
    exact hle

end

namespace BufferlessKExample
open KIterExample

/-- The command on the graph of the K-Iter example, with and without `get_previous`. -/
theorem run : ((blScheduling (certified cands) G false false 10).map fun o => o.map fun r => (r.1, r.2.2, [r.2.1 0, r.2.1 1])) =
      some (some (1 / 7, [⟨0, 7, [0, 1]⟩, ⟨1, 7, [1, 4, 6]⟩], [1, 3])) ∧
    ((blScheduling (certified cands) G false true 10).map fun o => o.map fun r => (r.1, r.2.2, [r.2.1 0, r.2.1 1])) =
      some (some (2 / 15, [⟨0, 15 / 2, [0, 1]⟩, ⟨1, 5 / 2, [3 / 2]⟩], [1, 1])) := by
  decide +kernel

/-- The hypotheses of `C102_without_options` hold for this graph. -/
example : ∃ K, blScheduling (certified cands) G false false 10 = some (some (1 / 7, K, [⟨0, 7, [0, 1]⟩, ⟨1, 7, [1, 4, 6]⟩])) ∧
    IsLeast (SustainablePeriods G) 7 ∧ PeriodicList G K 7 [⟨0, 7, [0, 1]⟩, ⟨1, 7, [1, 4, 6]⟩] := by
  obtain ⟨o, ho, h⟩ := Option.map_eq_some_iff.mp run.1
  obtain ⟨⟨th, K, l⟩, rfl, h⟩ := Option.map_eq_some_iff.mp h
  simp only [Option.map_some, Option.some.injEq, Prod.mk.injEq] at h
  obtain ⟨rfl, rfl, -⟩ := h
  have := (C102_without_options G_ok (by decide +kernel) (fun _ cs th p _ _ h => (certified_exact _ cs th p h).answer) ho).1 (by norm_num)
  norm_num at this
  exact ⟨K, ho, this.1, this.2⟩

/-- **C102**, counterexample. With `get_previous` the value printed as maximum throughput is not the maximum. -/
theorem C102_get_previous_not_maximal : ∃ K l, blScheduling (certified cands) G false true 10 = some (some (2 / 15, K, l)) ∧
    IsLeast (SustainablePeriods G) 7 ∧ (7 : ℚ) < 1 / (2 / 15) := by
  obtain ⟨o, ho, h⟩ := Option.map_eq_some_iff.mp run.2
  obtain ⟨⟨th, K, l⟩, rfl, h⟩ := Option.map_eq_some_iff.mp h
  simp only [Option.map_some, Option.some.injEq, Prod.mk.injEq] at h
  obtain ⟨rfl, -, -⟩ := h
  obtain ⟨o, ho', h⟩ := Option.map_eq_some_iff.mp run.1
  obtain ⟨⟨th', K', l'⟩, rfl, h⟩ := Option.map_eq_some_iff.mp h
  simp only [Option.map_some, Option.some.injEq, Prod.mk.injEq] at h
  obtain ⟨rfl, -, -⟩ := h
  have := (C102_without_options G_ok (by decide +kernel) (fun _ cs th p _ _ h => (certified_exact _ cs th p h).answer) ho').1 (by norm_num)
  norm_num at this
  exact ⟨K, l, ho, this.1, by norm_num⟩

/-- A circuit of three tasks that never deadlocks, although no 1-periodic schedule exists. -/
def T1 : KTask := ⟨1, [1], [], 1, 2⟩
def T2 : KTask := ⟨2, [1], [], 1, 3⟩
def T3 : KTask := ⟨3, [1], [], 1, 5⟩
def ring : BaseGraph := ⟨[T1, T2, T3], [(⟨1, [3], [2], [], [], 0, 1⟩, T1, T2), (⟨2, [5], [3], [], [], 1, 1⟩, T2, T3),
  (⟨3, [2], [5], [], [], 6, 1⟩, T3, T1)]⟩

theorem ring_ok : BaseOK ring := by
  constructor
  · simp [ring, T1, T2, T3]
  · intro t ht; simp only [ring, List.mem_cons, List.not_mem_nil, or_false] at ht
    rcases ht with rfl | rfl | rfl <;> exact ⟨by decide, rfl, by decide, by decide, by decide, by decide⟩
  · simp [ring, T1, T2, T3]
  · intro c hc; simp only [ring, List.mem_cons, List.not_mem_nil, or_false] at hc
    rcases hc with rfl | rfl | rfl <;> exact ⟨by simp [ring], by simp [ring], rfl, rfl, rfl, rfl, by decide, by decide, by decide,
      by decide, by decide, by decide, by decide, by decide, by decide⟩
  · simp [ring]

theorem ring_live : ∃ σ, ValidGen ring σ :=
  (C94_live ring_ok ⟨by decide, by decide⟩ (by decide) (by decide)).mp ⟨10, true, by decide +kernel⟩

theorem ring_no_periodic : KPeriods ring (fun _ => 1) = ∅ := by
  rw [Set.eq_empty_iff_forall_notMem]
  rintro Ω ⟨h0, S, hS⟩
  obtain ⟨cs, hcs, e⟩ := C15_C16_graph_iff (withK_ok ring_ok (K := fun _ => 1) (fun _ _ => Nat.one_pos)) S h0
  have hf := e.mpr hS
  have hmem : ∀ c ∈ ([⟨⟨1, 1, 1⟩, ⟨2, 1, 1⟩, -1 / 6, 1, 1⟩, ⟨⟨2, 1, 1⟩, ⟨3, 1, 1⟩, -1 / 15, 1, 2⟩,
      ⟨⟨3, 1, 1⟩, ⟨1, 1, 1⟩, 1 / 5, 1, 3⟩] : List EvConstraint), c ∈ cs := by
    have h : (eventGraph (ring.withK fun _ => 1)).map (fun cs => ([⟨⟨1, 1, 1⟩, ⟨2, 1, 1⟩, -1 / 6, 1, 1⟩, ⟨⟨2, 1, 1⟩, ⟨3, 1, 1⟩, -1 / 15, 1, 2⟩,
      ⟨⟨3, 1, 1⟩, ⟨1, 1, 1⟩, 1 / 5, 1, 3⟩] : List EvConstraint).all fun c => decide (c ∈ cs)) = some true := by decide +kernel
    rw [hcs] at h
    simpa using h
  have a := hf _ (hmem ⟨⟨1, 1, 1⟩, ⟨2, 1, 1⟩, -1 / 6, 1, 1⟩ (by simp))
  have b := hf _ (hmem ⟨⟨2, 1, 1⟩, ⟨3, 1, 1⟩, -1 / 15, 1, 2⟩ (by simp))
  have c := hf _ (hmem ⟨⟨3, 1, 1⟩, ⟨1, 1, 1⟩, 1 / 5, 1, 3⟩ (by simp))
  unfold Satisfies at a b c
  dsimp only at a b c
  linarith

/-- **C102**, counterexample. A graph with valid infinite schedules for which `stop_at_first` makes the command print a throughput that
is not positive, whatever correct solver it uses. Without it, the throughput printed is positive. -/
theorem C102_stop_at_first_misses : BaseOK ring ∧ (∃ σ, ValidGen ring σ) ∧
    ∀ solve : List EvConstraint → Option (ℚ × List EvConstraint),
      (∀ K cs th p, ((∀ i, 0 < K i) ∧ ∀ t ∈ ring.tasks, K t.id ∣ reps t) →
        (∃ cs0, eventGraph (ring.withK K) = some cs0 ∧ ∀ c, c ∈ cs ↔ c ∈ cs0) → solve cs = some (th, p) → CycleAnswer cs th p) →
      ∀ prev fuel th K l, (blScheduling solve ring true prev fuel = some (some (th, K, l)) → th ≤ 0) ∧
        (blScheduling solve ring false false fuel = some (some (th, K, l)) → 0 < th) := by
  refine ⟨ring_ok, ring_live, fun solve hs prev fuel th K l => ⟨fun h => C102_stop_at_first_gives_up ring_ok hs h ring_no_periodic,
    fun h => ?_⟩⟩
  by_contra hn
  exact (C102_without_options ring_ok (by decide) hs h).2 (not_lt.mp hn) ring_live

end BufferlessKExample

end Kiter
