/-
C137: the commands `PeriodicSizing` and `SPeriodicSizing`. The least memory of a period (`LeastMemory`), periodic schedules
(`PeriodicSchedule`) and correct answers of the solvers (`SolvesFor`, `SolverAnswer`) are the notions of C73-C76, C82 and C93.
-/
import Verif.Model.PeriodicCommand
import Verif.Props.PeriodicFront
import Verif.Props.BufferlessK
import Verif.Props.StrictSizing

set_option autoImplicit false

namespace Kiter.PSize

variable {B : BaseGraph}

/-- A schedule of the event graph with one start per phase is a periodic schedule. -/
theorem kperiod_periodic (hB : BaseOK B) {Ω : ℚ} (h : Ω ∈ KPeriods B (constVector 1)) :
    ∃ σ, ValidGen B σ ∧ PeriodicSchedule B σ Ω := by
  obtain ⟨-, S, hS⟩ := h
  have hv := valid_execStart.mp hS
  set σ : KTask → ℕ → ℚ := fun t k => execStart S Ω t (constVector 1 t.id) k with hσ
  obtain ⟨M, hM⟩ : ∃ M : ℚ, ∀ t ∈ B.tasks, 0 ≤ σ t 0 + M := by
    have : ∀ l : List KTask, ∃ M : ℚ, ∀ t ∈ l, 0 ≤ σ t 0 + M := by
      intro l
      induction l with
      | nil => exact ⟨0, by simp⟩
      | cons a l ih =>
        obtain ⟨M, hM⟩ := ih
        refine ⟨max M (-σ a 0), fun t ht => ?_⟩
        rcases List.mem_cons.mp ht with rfl | ht
        · have := le_max_right M (-σ t 0); linarith
        · have := hM t ht
          have := le_max_left M (-σ a 0); linarith
    exact this B.tasks
  set τ : Int → ℕ → ℚ := fun i k => ((B.find i).map fun t => σ t k + M).getD 0 with hτ
  have hτe : ∀ t ∈ B.tasks, ∀ k, τ t.id k = σ t k + M := by
    intro t ht k; rw [hτ]; simp only [find_eq hB ht, Option.map_some, Option.getD_some]
  refine ⟨τ, ⟨fun t ht k => ?_, fun t ht k => ?_, fun c hc => ?_⟩, fun t ht k => ?_⟩
  · rw [hτe t ht]
    have := starts_mono hB hv ht (Nat.zero_le k)
    have := hM t ht
    linarith
  · rw [hτe t ht, hτe t ht]
    have := hv.noOverlap t ht k
    linarith
  · obtain ⟨s1, s2, -⟩ := hB.channels c hc
    have := hv.channels c hc
    have e1 : τ c.2.2.id = fun k => σ c.2.2 k + M := funext (hτe _ s2)
    have e2 : (fun k => τ c.2.1.id k + c.2.1.dur k) = fun k => (σ c.2.1 k + c.2.1.dur k) + M := by
      funext k; rw [hτe _ s1]; ring
    rw [e1, e2]
    exact neverShort_shift this M
  · rw [hτe t ht, hτe t ht]
    have := execStart_period (S := S) (Ω := Ω) (t := t) (K := 1) (hB.tasks t ht).phases Nat.one_pos k
    rw [one_mul, Nat.cast_one, mul_one] at this
    show execStart S Ω t 1 (k + t.durations.length) + M = execStart S Ω t 1 k + M + _
    rw [this]; ring

/-- The periods of periodic schedules: those of at least `1 / th`. -/
theorem possible_iff (hB : BaseOK B) {mcr : List EvConstraint → Option (ℚ × List EvConstraint)} (hm : SolvesFor B (constVector 1) mcr)
    {th : ℚ} {cc : List BChannel} (hk : kSchedule mcr B (constVector 1) = some (th, cc)) {Ω : ℚ} (hΩ : 0 < Ω) :
    (∃ σ, ValidGen B σ ∧ PeriodicSchedule B σ Ω) ↔ 0 < th ∧ 1 / th ≤ Ω := by
  obtain ⟨h1, h2⟩ := C82_fixed_vector hB (K := constVector 1) (fun _ => Nat.one_pos) hm hk
  constructor
  · rintro ⟨σ, a, b⟩
    have h := periodic_kperiod hB hΩ.le a b
    by_cases hth : 0 < th
    · exact ⟨hth, (h1 hth).1.2 h⟩
    · have := h2 (not_lt.mp hth)
      change Ω ∈ KPeriods B (constVector 1) at h
      rw [this] at h
      exact absurd h (Set.notMem_empty _)
  · rintro ⟨hth, hle⟩
    obtain ⟨σ, a, b⟩ := kperiod_periodic hB (h1 hth).1.1
    have h0 : 0 < 1 / th := one_div_pos.2 hth
    obtain ⟨rows, hrows, hiff⟩ := C74_feasible_iff hB h0 true
    obtain ⟨v, hv⟩ := hiff.2 ⟨σ, a, b⟩
    obtain ⟨sizes, -, -, σ', c, d, -⟩ := C73_sizes_suffice hB h0 hrows hv
    obtain ⟨σ'', e, f⟩ := slower hB h0 hle c d
    exact ⟨σ'', e.valid, f⟩

/-- **C137** (partial) `PeriodicSizing` with a positive period and the integer program, for solvers that answer correctly. If the graph
has a periodic schedule with that period, the command prints the least total memory of such a schedule, and its sum with twice the
number of tasks. If it has none although slower periods are possible, an assertion fails. Missing: the command without `PERIOD`
(`C137_default_counterexample`), and graphs without any periodic schedule (`C137_impossible_counterexample`). -/
theorem _root_.Kiter.C137_given_partial (hB : BaseOK B) {tokenSizes : List Int} (hts : tokenSizes.length = B.channels.length)
    {mcr : List EvConstraint → Option (ℚ × List EvConstraint)} (hm : SolvesFor B (constVector 1) mcr) (ha : kSchedule mcr B (constVector 1) ≠ none)
    {lp : List LPRow → Option (LPVar → ℚ)} {Ω : ℚ} (hΩ : 0 < Ω)
    (hl : ∀ rows, periodicRows B Ω = some rows → SolverAnswer B tokenSizes rows true (lp rows)) :
    ((∃ σ, ValidGen B σ ∧ PeriodicSchedule B σ Ω) → ∃ M, LeastMemory B tokenSizes Ω M ∧
      periodicCommand mcr lp B tokenSizes (some Ω) true false = some (.size M (M + 2 * B.tasks.length))) ∧
    ((¬ ∃ σ, ValidGen B σ ∧ PeriodicSchedule B σ Ω) → (∃ P σ, 0 < P ∧ ValidGen B σ ∧ PeriodicSchedule B σ P) →
      periodicCommand mcr lp B tokenSizes (some Ω) true false = none) := by
  obtain ⟨⟨th, cc⟩, hk⟩ := Option.ne_none_iff_exists'.mp ha
  have hp := possible_iff hB hm hk hΩ
  constructor
  · intro h
    obtain ⟨hth, hle⟩ := hp.1 h
    obtain ⟨rows, hrows, hiff⟩ := C74_feasible_iff hB hΩ true
    have hs := hl rows hrows
    have hc : choosePeriod (some Ω) th = some Ω := by
      unfold choosePeriod
      simp only [Option.getD_some]
      rw [if_neg hth.ne', if_pos hle, if_neg hΩ.ne']
    cases hv : lp rows with
    | none =>
      rw [hv] at hs
      exact absurd (hiff.2 h) hs
    | some v =>
      rw [hv] at hs
      obtain ⟨M, h4, h5⟩ := C75_least_memory hB hΩ hrows hts hs
      refine ⟨M, h5, ?_⟩
      unfold periodicCommand
      simp only [hk, hc, hrows, hv, h4, Option.bind_eq_bind, Option.bind_some, Option.pure_def]
      rw [if_pos trivial]
  · rintro h ⟨P, σ, hP, a, b⟩
    obtain ⟨hth, -⟩ := (possible_iff hB hm hk hP).1 ⟨σ, a, b⟩
    have hlt : ¬ 1 / th ≤ Ω := fun hle => h (hp.2 ⟨hth, hle⟩)
    unfold periodicCommand
    simp only [hk, Option.bind_eq_bind, Option.bind_some]
    unfold choosePeriod
    simp only [Option.getD_some]
    rw [if_neg hth.ne', if_neg hlt]
    rfl

/-- Without `PERIOD` the choice of the period fails, or gives a period that is not positive. -/
theorem choose_default (th : ℚ) : choosePeriod none th = none ∨ ∃ P, choosePeriod none th = some P ∧ P ≤ 0 := by
  unfold choosePeriod
  simp only [Option.getD_none]
  split
  · exact .inl rfl
  · split
    · rename_i h
      exact .inr ⟨1 / th, by simp, h⟩
    · exact .inl rfl

/-- **C137, counterexample.** Without the parameter `PERIOD`, an assertion fails in both commands, for every graph and whatever the
solvers answer: the smallest period is never used. -/
theorem _root_.Kiter.C137_default_counterexample (mcr : List EvConstraint → Option (ℚ × List EvConstraint))
    (lp : List LPRow → Option (LPVar → ℚ)) (B : BaseGraph) (tokenSizes : List Int) (ilp genOnly : Bool) :
    periodicCommand mcr lp B tokenSizes none ilp genOnly = none ∧ strictCommand mcr lp B tokenSizes none ilp genOnly = none := by
  unfold periodicCommand strictCommand
  cases hk : kSchedule mcr B (constVector 1) with
  | none => exact ⟨rfl, rfl⟩
  | some r =>
    simp only [Option.bind_eq_bind, Option.bind_some]
    rcases choose_default r.1 with h | ⟨P, h, hP⟩
    · rw [h]; exact ⟨rfl, rfl⟩
    · rw [h]
      simp only [Option.bind_some]
      rw [if_pos hP]
      have : periodicRows B P = none := by
        unfold periodicRows
        rw [if_pos hP]
        rfl
      rw [this]
      exact ⟨rfl, rfl⟩

/-- **C137, counterexample.** `No solution` is never printed, for any graph, parameters and answers of the solvers. -/
theorem _root_.Kiter.C137_no_solution_counterexample (mcr : List EvConstraint → Option (ℚ × List EvConstraint))
    (lp : List LPRow → Option (LPVar → ℚ)) (B : BaseGraph) (tokenSizes : List Int) (given : Option ℚ) (ilp genOnly : Bool) :
    periodicCommand mcr lp B tokenSizes given ilp genOnly ≠ some .noSolution := by
  intro h
  unfold periodicCommand at h
  simp only [Option.bind_eq_bind, Option.bind_eq_some_iff] at h
  obtain ⟨r, -, P, -, rows, -, res, h1, h2⟩ := h
  have hv : res.valid = true := by
    unfold periodicResult at h1
    split at h1
    · cases h1; rfl
    · split at h1
      · cases h1; rfl
      · simp only [Option.bind_eq_bind, Option.bind_eq_some_iff, Option.pure_def, Option.some.injEq] at h1
        obtain ⟨sizes, -, rfl⟩ := h1
        rfl
  rw [if_pos hv] at h2
  cases h2

open BufferlessKExample

/-- What correct solvers report for the circuit of three tasks: a negative throughput. -/
theorem ring_negative {mcr : List EvConstraint → Option (ℚ × List EvConstraint)} (hm : SolvesFor ring (constVector 1) mcr)
    {th : ℚ} {cc : List BChannel} (hk : kSchedule mcr ring (constVector 1) = some (th, cc)) : th < 0 := by
  obtain ⟨cs, p, ⟨cs0, h0, hmem⟩, hp, -⟩ := kSchedule_some ring_ok (K := constVector 1) (fun _ => Nat.one_pos) hm hk
  have h : (eventGraph (ring.withK (constVector 1))).map (fun cs => ([⟨⟨1, 1, 1⟩, ⟨2, 1, 1⟩, -1 / 6, 1, 1⟩, ⟨⟨2, 1, 1⟩, ⟨3, 1, 1⟩, -1 / 15, 1, 2⟩,
      ⟨⟨3, 1, 1⟩, ⟨1, 1, 1⟩, 1 / 5, 1, 3⟩] : List EvConstraint).all fun c => decide (c ∈ cs)) = some true := by decide +kernel
  rw [h0] at h
  have h' : ∀ c ∈ ([⟨⟨1, 1, 1⟩, ⟨2, 1, 1⟩, -1 / 6, 1, 1⟩, ⟨⟨2, 1, 1⟩, ⟨3, 1, 1⟩, -1 / 15, 1, 2⟩,
      ⟨⟨3, 1, 1⟩, ⟨1, 1, 1⟩, 1 / 5, 1, 3⟩] : List EvConstraint), c ∈ cs := by
    intro c hc
    have := List.all_eq_true.mp (Option.some.inj h) c hc
    exact (hmem c).mpr (by simpa using this)
  have := hp.best ⟨1, 1, 1⟩ [⟨⟨1, 1, 1⟩, ⟨2, 1, 1⟩, -1 / 6, 1, 1⟩, ⟨⟨2, 1, 1⟩, ⟨3, 1, 1⟩, -1 / 15, 1, 2⟩,
      ⟨⟨3, 1, 1⟩, ⟨1, 1, 1⟩, 1 / 5, 1, 3⟩] (by
    simp only [IsWalk]
    exact ⟨h' _ (by simp), trivial, h' _ (by simp), trivial, h' _ (by simp), trivial, trivial⟩)
  simp only [totalD, totalW, List.map_cons, List.map_nil, List.sum_cons, List.sum_nil] at this
  norm_num at this
  linarith

/-- **C137, counterexample.** A graph that runs forever but has no periodic schedule, for any period: whatever positive period is given,
and for all solvers that answer correctly, the command prints the size 0. -/
theorem _root_.Kiter.C137_impossible_counterexample : BaseOK ring ∧ (∃ σ, ValidGen ring σ) ∧
    (∀ Ω, 0 < Ω → ¬ ∃ σ, ValidGen ring σ ∧ PeriodicSchedule ring σ Ω) ∧
    ∀ mcr lp tokenSizes, SolvesFor ring (constVector 1) mcr → kSchedule mcr ring (constVector 1) ≠ none → ∀ Ω, 0 < Ω →
      (∀ rows, periodicRows ring Ω = some rows → SolverAnswer ring tokenSizes rows true (lp rows)) →
      periodicCommand mcr lp ring tokenSizes (some Ω) true false = some (.size 0 6) := by
  have hno : ∀ Ω, 0 < Ω → ¬ ∃ σ, ValidGen ring σ ∧ PeriodicSchedule ring σ Ω := by
    rintro Ω hΩ ⟨σ, a, b⟩
    have := periodic_kperiod ring_ok hΩ.le a b
    rw [ring_no_periodic] at this
    exact this
  refine ⟨ring_ok, ring_live, hno, fun mcr lp tokenSizes hm ha Ω hΩ hl => ?_⟩
  obtain ⟨⟨th, cc⟩, hk⟩ := Option.ne_none_iff_exists'.mp ha
  have hth := ring_negative hm hk
  obtain ⟨rows, hrows, hiff⟩ := C74_feasible_iff ring_ok hΩ true
  have hs := hl rows hrows
  have hc : choosePeriod (some Ω) th = some Ω := by
    unfold choosePeriod
    simp only [Option.getD_some]
    rw [if_neg hth.ne, if_pos ((one_div_neg.2 hth).le.trans hΩ.le), if_neg hΩ.ne']
  cases hv : lp rows with
  | some v =>
    rw [hv] at hs
    exact absurd (hiff.1 ⟨v, hs.feasible⟩) (hno Ω hΩ)
  | none =>
    unfold periodicCommand
    simp only [hk, hc, hrows, hv, Option.bind_eq_bind, Option.bind_some, periodicResult]
    rfl

/-! ### The command for strictly periodic schedules -/

/-- When the generator of offsets succeeds, the command prints the total of the sizing function, valid or not. -/
theorem strict_eq {mcr : List EvConstraint → Option (ℚ × List EvConstraint)} {lp : List LPRow → Option (LPVar → ℚ)}
    {tokenSizes : List Int} {given : Option ℚ} {ilp genOnly : Bool} {th : ℚ} {cc : List BChannel} {Ω : ℚ} {o : Offsets} {r : SizingResult}
    (hk : kSchedule mcr B (constVector 1) = some (th, cc)) (hc : choosePeriod given th = some Ω) (hΩ : 0 < Ω)
    (ho : strictOffsets B Ω = some (some o)) (hr : strictSizing lp B tokenSizes Ω ilp genOnly = some r) :
    strictCommand mcr lp B tokenSizes given ilp genOnly = some (.size r.total (r.total + 2 * B.tasks.length)) := by
  unfold strictSizing at hr
  rw [ho] at hr
  simp only [Option.bind_eq_bind, Option.bind_some] at hr
  unfold strictOffsets at ho
  rw [if_neg (not_le.2 hΩ)] at ho
  simp only [Option.bind_eq_bind, Option.bind_eq_some_iff] at ho
  obtain ⟨s, hs, ho⟩ := ho
  split at ho
  · simp only [Option.bind_eq_some_iff, Option.pure_def, Option.some.injEq] at ho
    obtain ⟨u, hu, rfl⟩ := ho
    obtain ⟨rows, h1, h2⟩ := Option.bind_eq_some_iff.mp hr
    unfold strictCommand
    simp only [hk, hc, Option.bind_eq_bind, Option.bind_some]
    rw [if_neg (not_le.2 hΩ)]
    simp only [hs, hu, h1, h2, Option.bind_some, Option.pure_def]
  · cases ho

/-- **C137** (partial) `SPeriodicSizing` with a positive period and the integer program, for solvers that answer correctly: if the graph
has a strictly periodic schedule with that period, the command prints the least total memory of such a schedule. Missing: the default
period and periods without such a schedule, as for the other command. -/
theorem _root_.Kiter.C137_strict_partial (hB : BaseOK B) {tokenSizes : List Int} (hts : tokenSizes.length = B.channels.length)
    {mcr : List EvConstraint → Option (ℚ × List EvConstraint)} (hm : SolvesFor B (constVector 1) mcr) (ha : kSchedule mcr B (constVector 1) ≠ none)
    {lp : List LPRow → Option (LPVar → ℚ)} {Ω : ℚ} (hΩ : 0 < Ω)
    (hl : ∀ o rows, strictOffsets B Ω = some (some o) → fixedRows B o.get Ω = some rows → SolverAnswer B tokenSizes rows true (lp rows))
    (hex : ∃ σ, ValidGen B σ ∧ StrictlyPeriodic B Ω σ) :
    ∃ M, IsLeast {M | ∃ w σ, BoundedSchedule B w σ ∧ StrictlyPeriodic B Ω σ ∧ M = memory B tokenSizes w} M ∧
      strictCommand mcr lp B tokenSizes (some Ω) true false = some (.size M (M + 2 * B.tasks.length)) := by
  obtain ⟨⟨th, cc⟩, hk⟩ := Option.ne_none_iff_exists'.mp ha
  obtain ⟨σ, a, b⟩ := hex
  have hp : PeriodicSchedule B σ Ω := by
    intro t ht k
    obtain ⟨x, -, hx⟩ := b t ht
    rw [hx, hx]
    push_cast
    ring
  obtain ⟨hth, hle⟩ := (possible_iff hB hm hk hΩ).1 ⟨σ, a, hp⟩
  have hc : choosePeriod (some Ω) th = some Ω := by
    unfold choosePeriod
    simp only [Option.getD_some]
    rw [if_neg hth.ne', if_pos hle, if_neg hΩ.ne']
  obtain ⟨r, r1, r2, r3⟩ := C78_strict_sizing hB hΩ (fun t ht _ => strict_dur a b ht 0) hts hl
  obtain ⟨s, s1, s2, -⟩ := C78_strict_offsets hB hΩ
  have hsome := s2.2 fun t ht _ k _ => strict_dur a b ht k
  obtain ⟨o, rfl⟩ := Option.isSome_iff_exists.mp hsome
  exact ⟨r.total, (r3 (r2.2 ⟨σ, a, b⟩)).2, strict_eq hk hc hΩ s1 r1⟩

/-- **C137, counterexample.** On the graph without periodic schedules the other command prints the size 0 as well, although the result
it prints is marked as not valid. -/
theorem _root_.Kiter.C137_strict_impossible_counterexample : ∀ mcr lp, SolvesFor ring (constVector 1) mcr →
    kSchedule mcr ring (constVector 1) ≠ none → ∀ Ω, 5 ≤ Ω →
    (∀ o rows, strictOffsets ring Ω = some (some o) → fixedRows ring o.get Ω = some rows → SolverAnswer ring [1, 1, 1] rows true (lp rows)) →
    (¬ ∃ σ, ValidGen ring σ ∧ StrictlyPeriodic ring Ω σ) ∧
    strictSizing lp ring [1, 1, 1] Ω true false = some ⟨false, 0, []⟩ ∧
    strictCommand mcr lp ring [1, 1, 1] (some Ω) true false = some (.size 0 6) := by
  intro mcr lp hm ha Ω h5 hl
  have hΩ : 0 < Ω := by linarith
  obtain ⟨⟨th, cc⟩, hk⟩ := Option.ne_none_iff_exists'.mp ha
  have hth := ring_negative hm hk
  have hc : choosePeriod (some Ω) th = some Ω := by
    unfold choosePeriod
    simp only [Option.getD_some]
    rw [if_neg hth.ne, if_pos ((one_div_neg.2 hth).le.trans hΩ.le), if_neg hΩ.ne']
  have hno : ¬ ∃ σ, ValidGen ring σ ∧ StrictlyPeriodic ring Ω σ := by
    rintro ⟨σ, a, b⟩
    refine C137_impossible_counterexample.2.2.1 Ω hΩ ⟨σ, a, fun t ht k => ?_⟩
    obtain ⟨x, -, hx⟩ := b t ht
    rw [hx, hx]
    push_cast
    ring
  have hone : ∀ t ∈ ring.tasks, t.durations.length = 1 → t.dur 0 ≤ Ω / t.ni := by
    intro t ht _
    simp only [ring, List.mem_cons, List.not_mem_nil, or_false] at ht
    rcases ht with rfl | rfl | rfl <;> (rw [le_div_iff₀ (by norm_num [T1, T2, T3])]; norm_num [T1, T2, T3, KTask.dur]; linarith)
  obtain ⟨r, r1, r2, -⟩ := C78_strict_sizing ring_ok hΩ hone (tokenSizes := [1, 1, 1]) rfl hl
  obtain ⟨s, s1, s2, -⟩ := C78_strict_offsets ring_ok hΩ
  have hsome := s2.2 fun t ht h1 => by
    simp only [ring, List.mem_cons, List.not_mem_nil, or_false] at ht
    rcases ht with rfl | rfl | rfl <;> simp [T1, T2, T3] at h1
  obtain ⟨o, rfl⟩ := Option.isSome_iff_exists.mp hsome
  have hr : r = ⟨false, 0, []⟩ := by
    have hv : ¬ r.valid = true := fun h => hno (r2.1 h)
    unfold strictSizing at r1
    rw [s1] at r1
    simp only [Option.bind_eq_bind, Option.bind_some] at r1
    obtain ⟨rows, h1, h2⟩ := Option.bind_eq_some_iff.mp r1
    unfold fixedResult at h2
    rw [if_neg (by decide)] at h2
    split at h2
    · cases h2; rfl
    · simp only [Option.bind_eq_bind, Option.bind_eq_some_iff, Option.pure_def, Option.some.injEq] at h2
      obtain ⟨sizes, -, rfl⟩ := h2
      exact absurd rfl hv
  subst hr
  exact ⟨hno, r1, strict_eq hk hc hΩ s1 r1⟩

/-! ### The hypotheses are met -/

open Howard in
/-- The solver of the commands answers for this graph, with -1/90. -/
theorem ring_run : (kSchedule (solver (1 / 10 ^ 19) (10 ^ 300) endpoints) ring (constVector 1)).map (fun r => r.1) = some (-1 / 90) := by
  decide +kernel

open Howard in
/-- Its answers are correct for the graphs of the two examples. -/
theorem solves {B : BaseGraph} (hB : BaseOK B) (hpos : ∀ t ∈ B.tasks, ∀ d ∈ t.durations, 0 < d) (he : 1 / 10 ^ 19 ≤ fineEps B 3)
    (hL : ((eventGraph (B.withK (constVector 1))).map fun cs => (endpoints cs).length).getD 0 ≤ 3) :
    SolvesFor B (constVector 1) (solver (1 / 10 ^ 19) (10 ^ 300) endpoints) := by
  intro cs th p hcs hs
  refine solver_answer (L := 3) hB hpos (by norm_num) he (fun _ => Nat.one_pos) ⟨cs, hcs, fun _ => Iff.rfl⟩
    ⟨List.nodup_dedup _, fun e he => ?_⟩ (by rw [hcs] at hL; exact hL) hs
  constructor <;> exact List.mem_dedup.mpr (List.mem_flatMap.mpr ⟨e, he, by simp⟩)

open Howard in
/-- `C137_impossible_counterexample` applies to the solver of the commands. -/
example : SolvesFor ring (constVector 1) (solver (1 / 10 ^ 19) (10 ^ 300) endpoints) ∧
    kSchedule (solver (1 / 10 ^ 19) (10 ^ 300) endpoints) ring (constVector 1) ≠ none :=
  ⟨solves ring_ok (by decide +kernel) (by decide +kernel) (by decide +kernel), fun h => by have := ring_run; rw [h] at this; cases this⟩

/-- And to a solver that finds no solution, which is the correct answer for it. -/
example : ∀ rows, periodicRows ring 7 = some rows → SolverAnswer ring [1, 1, 1] rows true none := by
  intro rows h hf
  obtain ⟨rows', h1, h2⟩ := C74_feasible_iff ring_ok (Ω := 7) (by norm_num) true
  rw [h1] at h; cases h
  exact C137_impossible_counterexample.2.2.1 7 (by norm_num) (h2.1 hf)

open Howard OffsetExample in
/-- `C137_strict_partial` applies: a task with two phases, the period 5, tokens of size 4. -/
example : strictCommand (solver (1 / 10 ^ 19) (10 ^ 300) endpoints) (fun _ => some sol5) G [4] (some 5) true false = some (.size 12 16) ∧
    IsLeast {M | ∃ w σ, BoundedSchedule G w σ ∧ StrictlyPeriodic G 5 σ ∧ M = memory G [4] w} 12 := by
  have hr : strictCommand (solver (1 / 10 ^ 19) (10 ^ 300) endpoints) (fun _ => some sol5) G [4] (some 5) true false = some (.size 12 16) := by
    decide +kernel
  obtain ⟨M, a, b⟩ := C137_strict_partial G_ok (Ω := 5) (tokenSizes := [4]) rfl
    (solves G_ok (by decide +kernel) (by decide +kernel) (by decide +kernel)) (by decide +kernel) (lp := fun _ => some sol5) (by norm_num)
    (fun o rows ho hr => by
      rw [strict5] at ho; cases ho
      have : fixedRows G (Offsets.get [(0, [0, 5 / 2]), (1, [0])]) 5 = some rows5 := by decide +kernel
      rw [this] at hr; cases hr
      exact sol5_optimal) strict_exists
  rw [hr] at b
  cases b
  exact ⟨hr, a⟩

open Howard BufferExample in
/-- `C137_given_partial` applies: with the period 5 and tokens of size 4 the command prints 12, the least memory, and 12 + 2 * 2. With
3, below the smallest period 4, an assertion fails. -/
example : LeastMemory G [4] 5 12 ∧
    periodicCommand (solver (1 / 10 ^ 19) (10 ^ 300) endpoints) (fun _ => some sol5) G [4] (some 5) true false = some (.size 12 16) ∧
    periodicCommand (solver (1 / 10 ^ 19) (10 ^ 300) endpoints) (fun _ => none) G [4] (some 3) true false = none := by
  have hm := solves G_ok (by decide +kernel) (by decide +kernel) (by decide +kernel)
  have hk : kSchedule (solver (1 / 10 ^ 19) (10 ^ 300) endpoints) G (constVector 1) ≠ none := by decide +kernel
  have hl : ∀ rows, periodicRows G 5 = some rows → SolverAnswer G [4] rows true (some sol5) := by
    intro rows h
    rw [rows5] at h; cases h
    exact sol5_optimal
  have hr : periodicCommand (solver (1 / 10 ^ 19) (10 ^ 300) endpoints) (fun _ => some sol5) G [4] (some 5) true false = some (.size 12 16) := by
    decide +kernel
  obtain ⟨rows, h1, h2⟩ := C74_feasible_iff G_ok (Ω := 5) (by norm_num) true
  have h3 := h2.1 ⟨sol5, by rw [rows5] at h1; cases h1; exact sol5_feasible⟩
  obtain ⟨M, a, b⟩ := (C137_given_partial G_ok (tokenSizes := [4]) rfl hm hk (lp := fun _ => some sol5) (by norm_num) hl).1 h3
  rw [hr] at b
  cases b
  exact ⟨a, hr, by decide +kernel⟩

/-- The default fails although a solver answers: the throughput of the graph is 1/4. -/
example : choosePeriod none (1 / 4) = none ∧ choosePeriod (some 4) (1 / 4) = some 4 ∧ choosePeriod (some 3) (1 / 4) = none := by
  decide +kernel

end Kiter.PSize
