/-
C89: the strictly periodic scheduling returns a valid schedule of the least period, each task as early as possible; its
critical channels are those of the circuit, plus any channel that happens to carry the id of a critical task.
-/
import Verif.Model.SPSchedule
import Verif.Props.StrictlyPeriodic
import Verif.Props.KIterHoward

set_option autoImplicit false

namespace Kiter

section
variable {B : BaseGraph}

/-- The infinite schedule a list of task schedules describes: the entry of a task is the first with its id. -/
def listedStart (l : List TaskSchedule) (t : KTask) (k : ℕ) : ℚ :=
  ((l.find? fun s => decide (s.id = t.id)).map fun s => s.start k).getD 0

theorem spSchedule_eq (hB : BaseOK B) {solve : List EvConstraint → Option (ℚ × List EvConstraint)} {cs : List EvConstraint}
    (hcs : generateSP B false = some cs) {th : ℚ} {p : List EvConstraint} (hs : solve cs = some (th, p)) (hth : th ≠ 0) :
    spSchedule solve B = some ⟨1 / th, B.tasks.map fun t => ⟨t.id, 1 / th / t.ni,
      [(computeStartingTime (spEvents B) cs (some (1 / th))).2 ⟨t.id, 1, 1⟩]⟩, criticalEdges B p⟩ := by
  unfold spSchedule
  rw [hcs]
  simp only [Option.bind_eq_bind, Option.bind_some]
  rw [hs]
  simp only [Option.bind_some]
  rw [if_neg hth]
  rw [mapM_some _ (fun t : KTask => (⟨t.id, 1 / th / t.ni,
      [(computeStartingTime (spEvents B) cs (some (1 / th))).2 ⟨t.id, 1, 1⟩]⟩ : TaskSchedule)) B.tasks ?_]
  · rfl
  · intro t ht
    rw [if_neg (hB.tasks t ht).ni.ne']
    have hm : (⟨t.id, 1, 1⟩ : Event) ∈ spEvents B := List.mem_map.mpr ⟨t, ht, rfl⟩
    unfold eventStart
    rw [if_pos hm]
    rfl

theorem find_map (hB : BaseOK B) (F : KTask → TaskSchedule) (hF : ∀ t, (F t).id = t.id) {t : KTask} (ht : t ∈ B.tasks) :
    (B.tasks.map F).find? (fun s => decide (s.id = t.id)) = some (F t) := by
  have hids := hB.ids
  revert ht hids
  generalize B.tasks = l
  intro ht hids
  induction l with
  | nil => simp at ht
  | cons a l ih =>
    rw [List.map_cons, List.find?_cons]
    by_cases h : a.id = t.id
    · have : a = t := hids a (by simp) t ht h
      subst this
      simp [hF]
    · have hne : (decide ((F a).id = t.id)) = false := by rw [hF]; simp [h]
      rw [hne]
      rcases List.mem_cons.mp ht with rfl | ht
      · exact absurd rfl h
      · exact ih ht (fun x hx y hy => hids x (by simp [hx]) y (by simp [hy]))

theorem single_start (i : Int) (P s : ℚ) (k : ℕ) : (⟨i, P, [s]⟩ : TaskSchedule).start k = s + k * P := by
  unfold TaskSchedule.start
  simp [Nat.mod_one]

theorem listed_strict (hB : BaseOK B) (S : Event → ℚ) (Ω : ℚ) {t : KTask} (ht : t ∈ B.tasks) (k : ℕ) :
    listedStart (B.tasks.map fun t : KTask => (⟨t.id, Ω / t.ni, [S ⟨t.id, 1, 1⟩]⟩ : TaskSchedule)) t k = strictStart S Ω t k := by
  unfold listedStart
  rw [find_map hB (fun t : KTask => (⟨t.id, Ω / t.ni, [S ⟨t.id, 1, 1⟩]⟩ : TaskSchedule)) (fun _ => rfl) ht]
  simp only [Option.map_some, Option.getD_some]
  exact single_start _ _ _ _

theorem validStarts_congr (hB : BaseOK B) {σ τ : KTask → ℕ → ℚ} (h : ∀ t ∈ B.tasks, ∀ k, σ t k = τ t k) :
    ValidStarts B σ ↔ ValidStarts B τ := by
  have key : ∀ {σ τ : KTask → ℕ → ℚ}, (∀ t ∈ B.tasks, ∀ k, σ t k = τ t k) → ValidStarts B σ → ValidStarts B τ := by
    intro σ τ h V
    refine ⟨fun t ht k => ?_, fun c hc => ?_⟩
    · rw [← h t ht, ← h t ht]; exact V.noOverlap t ht k
    · obtain ⟨h1, h2, -⟩ := hB.channels c hc
      have e1 : τ c.2.1 = σ c.2.1 := funext fun k => (h _ h1 k).symm
      have e2 : τ c.2.2 = σ c.2.2 := funext fun k => (h _ h2 k).symm
      rw [e1, e2]; exact V.channels c hc
  exact ⟨key h, key fun t ht k => (h t ht k).symm⟩

/-- **C89** For every supported graph and every exact answer of the solver, the scheduling returns one entry per task, in
order, with one start each, whose infinite expansion is a valid schedule: executions of a task never overlap and no
channel is ever short of tokens. Its period is the least of all strictly periodic schedules, the executions of a task are
`period / N` apart, the starts are not negative, some task starts at 0, and no strictly periodic schedule of the same
period with non-negative starts starts any task earlier. -/
theorem C89_schedule (hB : BaseOK B) {solve : List EvConstraint → Option (ℚ × List EvConstraint)} {cs : List EvConstraint}
    (hcs : generateSP B false = some cs) {th : ℚ} {p : List EvConstraint} (hs : solve cs = some (th, p)) (hp : ExactRatio cs th p) :
    ∃ r, spSchedule solve B = some r ∧ r.tasks.map TaskSchedule.id = B.tasks.map KTask.id ∧
      (∀ s ∈ r.tasks, s.starts.length = 1) ∧
      ValidStarts B (listedStart r.tasks) ∧ IsLeast (StrictPeriods B) r.omega ∧
      (∀ t ∈ B.tasks, ∀ k, listedStart r.tasks t (k + 1) = listedStart r.tasks t k + r.omega / t.ni) ∧
      (∀ t ∈ B.tasks, ∀ k, 0 ≤ listedStart r.tasks t k) ∧
      (B.tasks ≠ [] → ∃ t ∈ B.tasks, listedStart r.tasks t 0 = 0) ∧
      ∀ X, ValidStarts B (strictStart X r.omega) → (∀ t ∈ B.tasks, 0 ≤ strictStart X r.omega t 0) →
        ∀ t ∈ B.tasks, ∀ k, listedStart r.tasks t k ≤ strictStart X r.omega t k := by
  have hth := exact_th_pos hp
  refine ⟨_, spSchedule_eq hB hcs hs hth.ne', ?_, ?_, ?_⟩
  · simp
  · simp
  dsimp only
  set S := (computeStartingTime (spEvents B) cs (some (1 / th))).2 with hS
  have hl : ∀ t ∈ B.tasks, ∀ k, listedStart (B.tasks.map fun t : KTask => (⟨t.id, 1 / th / t.ni, [S ⟨t.id, 1, 1⟩]⟩ : TaskSchedule)) t k =
      strictStart S (1 / th) t k := fun t ht k => listed_strict hB S (1 / th) ht k
  have hleast := C49_optimal hB hcs hp
  obtain ⟨cs', h, hev, -, -⟩ := sp_spec hB false (fun _ => 0) le_rfl
  rw [hcs] at h; cases h
  obtain ⟨a1, -, a3⟩ := C21_starting_times (spEvents B) cs (1 / th) hev
  have hfeas : Feasible cs (1 / th) S := by
    obtain ⟨X, hX⟩ := hleast.1
    exact a1.mpr ⟨X, (C49_valid hB hcs X _).mpr hX⟩
  obtain ⟨n1, n2, n3⟩ := a3 hfeas
  have hmem : ∀ t ∈ B.tasks, (⟨t.id, 1, 1⟩ : Event) ∈ spEvents B := fun t ht => List.mem_map.mpr ⟨t, ht, rfl⟩
  have h0 : ∀ (X : Event → ℚ) (Ω : ℚ) (t : KTask), strictStart X Ω t 0 = X ⟨t.id, 1, 1⟩ := by
    intro X Ω t; unfold strictStart; simp
  refine ⟨(validStarts_congr hB hl).mpr ((C49_valid hB hcs S _).mp hfeas), hleast, ?_, ?_, ?_, ?_⟩
  · intro t ht k
    rw [hl t ht, hl t ht]
    unfold strictStart
    push_cast
    ring
  · intro t ht k
    rw [hl t ht]
    have hn : (0 : ℚ) < t.ni := by exact_mod_cast (hB.tasks t ht).ni
    have := n1 _ (hmem t ht)
    unfold strictStart
    positivity
  · intro hne
    obtain ⟨e, he, h⟩ := n2 (by unfold spEvents; simpa using hne)
    obtain ⟨t, ht, rfl⟩ := List.mem_map.mp he
    exact ⟨t, ht, by rw [hl t ht, h0]; exact h⟩
  · intro X hX hX0 t ht k
    rw [hl t ht]
    have := n3 X ((C49_valid hB hcs X _).mpr hX) (fun e he => by
      obtain ⟨t, ht, rfl⟩ := List.mem_map.mp he
      have := hX0 t ht
      rwa [h0] at this) _ (hmem t ht)
    unfold strictStart
    linarith

/-- **C89** When the answer is zero or negative, no strictly periodic schedule exists, whatever the period. -/
theorem C89_no_schedule (hB : BaseOK B) {cs : List EvConstraint} (hcs : generateSP B false = some cs) {th : ℚ}
    {p : List EvConstraint} (hp : CycleAnswer cs th p) (hth : th ≤ 0) : StrictPeriods B = ∅ := by
  rw [Set.eq_empty_iff_forall_notMem]
  rintro Ω ⟨S, hS⟩
  have hfe := (C49_valid hB hcs S Ω).mpr hS
  obtain ⟨u, hu⟩ := hp.circuit
  have h1 := noPositiveCircuit_of_feasible (cs := cs) (ω := Ω) (X := S) hfe u p hu
  have h2 : (p.map fun c => c.d - Ω * c.w).sum = totalD p - Ω * totalW p := by
    unfold totalD totalW
    clear h1 hu hp
    induction p with
    | nil => simp
    | cons e p ih => simp only [List.map_cons, List.sum_cons]; rw [ih]; ring
  rw [h2, ← hp.ratio] at h1
  rcases sp_nonneg hB hcs (Or.inl hfe) with hΩ | hT
  · have h3 : Ω * (totalD p * th) ≤ 0 :=
      mul_nonpos_of_nonneg_of_nonpos hΩ (mul_nonpos_of_nonneg_of_nonpos hp.posD.le hth)
    have := hp.posD
    linarith
  · have := (sp_empty hB hT false).1
    rw [hcs] at this; cases this
    cases p with
    | nil => have := hp.posD; simp [totalD] at this
    | cons c l =>
      exact absurd hu.1 (by simp)

/-- **C89** Critical channels: each channel with a constraint on the critical circuit is reported, and a reported channel
has one, or carries the id of a task whose own constraint is on the circuit. -/
theorem C89_critical_partial (hB : BaseOK B) {solve : List EvConstraint → Option (ℚ × List EvConstraint)} {cs : List EvConstraint}
    (hcs : generateSP B false = some cs) {th : ℚ} {p : List EvConstraint} (hs : solve cs = some (th, p)) (hth : th ≠ 0)
    (hp : ∀ c ∈ p, c ∈ cs) :
    ∃ r, spSchedule solve B = some r ∧ ∀ c ∈ B.channels,
      (c ∈ r.critical ↔ ∃ e ∈ p, e.channel = c.1.id) ∧
      (c ∈ r.critical → (∃ e ∈ p, e.channel = c.1.id ∧ e.src.task = c.2.1.id ∧ e.dst.task = c.2.2.id) ∨
        ∃ t ∈ B.tasks, t.id = c.1.id ∧ ∃ e ∈ p, e.src.task = t.id ∧ e.dst.task = t.id) := by
  refine ⟨_, spSchedule_eq hB hcs hs hth, fun c hc => ?_⟩
  have hiff : c ∈ criticalEdges B p ↔ ∃ e ∈ p, e.channel = c.1.id := by
    unfold criticalEdges
    rw [List.mem_filter, List.any_eq_true]
    simp [hc]
  refine ⟨hiff, fun h => ?_⟩
  obtain ⟨e, he, hid⟩ := hiff.mp h
  have hec := hp e he
  unfold generateSP at hcs
  simp only [Option.bind_eq_bind] at hcs
  obtain ⟨a, ha, hcs⟩ := Option.bind_eq_some_iff.mp hcs
  obtain ⟨b, hb, hcs⟩ := Option.bind_eq_some_iff.mp hcs
  cases hcs
  rcases List.mem_append.mp hec with hm | hm
  · obtain ⟨t, ht, x, hx, hcx⟩ := (collect_mem _ _ _ ha e).mp hm
    right
    unfold spSelf at hx
    simp only [Option.bind_eq_bind] at hx
    obtain ⟨m, -, hx⟩ := Option.bind_eq_some_iff.mp hx
    rw [if_neg (hB.tasks t ht).ni.ne'] at hx
    cases hx
    rw [List.mem_singleton] at hcx
    subst hcx
    exact ⟨t, ht, hid, _, he, rfl, rfl⟩
  · obtain ⟨t, ht, x, hx, hcx⟩ := (collect_mem _ _ _ hb e).mp hm
    unfold spTask at hx
    simp only [Option.bind_eq_bind] at hx
    obtain ⟨gs, -, hx⟩ := Option.bind_eq_some_iff.mp hx
    obtain ⟨g, hg, y, hy, hcy⟩ := (collect_mem _ _ _ hx e).mp hcx
    obtain ⟨d, hd, z, hz, hcz⟩ := (collect_mem _ _ _ hy e).mp hcy
    left
    have hdB := (List.mem_filter.mp hd).1
    unfold spConstraint at hz
    simp only [Option.bind_eq_bind] at hz
    obtain ⟨mop, -, hz⟩ := Option.bind_eq_some_iff.mp hz
    split_ifs at hz
    obtain ⟨w, -, hz⟩ := Option.bind_eq_some_iff.mp hz
    cases w with
    | none => cases hz; simp at hcz
    | some w =>
      cases hz
      rw [List.mem_singleton] at hcz
      subst hcz
      have : d = c := hB.channelIds _ hdB _ hc hid
      subst this
      exact ⟨_, he, rfl, rfl, rfl⟩

/-- Every constraint of the graph has a positive duration when all phases do. -/
theorem sp_durations (hB : BaseOK B) (hpos : ∀ t ∈ B.tasks, ∀ d ∈ t.durations, 0 < d) {useMax : Bool} {cs : List EvConstraint}
    (hcs : generateSP B useMax = some cs) : ∀ c ∈ cs, 0 < c.d := by
  intro e hec
  unfold generateSP at hcs
  simp only [Option.bind_eq_bind] at hcs
  obtain ⟨a, ha, hcs⟩ := Option.bind_eq_some_iff.mp hcs
  obtain ⟨b, hb, hcs⟩ := Option.bind_eq_some_iff.mp hcs
  cases hcs
  rcases List.mem_append.mp hec with hm | hm
  · obtain ⟨t, ht, x, hx, hcx⟩ := (collect_mem _ _ _ ha e).mp hm
    unfold spSelf at hx
    simp only [Option.bind_eq_bind] at hx
    obtain ⟨m, hmax, hx⟩ := Option.bind_eq_some_iff.mp hx
    rw [if_neg (hB.tasks t ht).ni.ne'] at hx
    cases hx
    rw [List.mem_singleton] at hcx
    subst hcx
    exact hpos t ht m (List.max?_mem hmax)
  · obtain ⟨t, ht, x, hx, hcx⟩ := (collect_mem _ _ _ hb e).mp hm
    unfold spTask at hx
    simp only [Option.bind_eq_bind] at hx
    obtain ⟨gs, hgs, hx⟩ := Option.bind_eq_some_iff.mp hx
    obtain ⟨g, hg, y, hy, hcy⟩ := (collect_mem _ _ _ hx e).mp hcx
    obtain ⟨d, hd, z, hz, hcz⟩ := (collect_mem _ _ _ hy e).mp hcy
    obtain ⟨gs', key, h1, g1, g2, -⟩ := spGroups_spec (hB.tasks t ht).phases useMax
    rw [hgs] at h1; cases h1
    obtain ⟨k, hk⟩ := List.exists_mem_of_ne_nil _ (g2 g hg).1
    obtain ⟨hk1, hk2⟩ := (g2 g hg).2 k hk
    have hgpos : 0 < g.1 := by
      rw [← hk2]
      refine lt_of_lt_of_le ?_ (g1 k hk1).1
      refine hpos t ht _ ?_
      unfold KTask.dur
      rw [Nat.mod_eq_of_lt hk1, List.getD_eq_getElem _ _ hk1]
      exact List.getElem_mem _
    unfold spConstraint at hz
    simp only [Option.bind_eq_bind] at hz
    obtain ⟨mop, -, hz⟩ := Option.bind_eq_some_iff.mp hz
    split_ifs at hz
    obtain ⟨w, -, hz⟩ := Option.bind_eq_some_iff.mp hz
    cases w with
    | none => cases hz; simp at hcz
    | some w =>
      cases hz
      rw [List.mem_singleton] at hcz
      subst hcz
      exact hgpos

/-- Finitely many rationals have a common denominator. -/
theorem common_denominator (l : List ℚ) : ∃ N : ℕ, 0 < N ∧ ∀ q ∈ l, ∃ z : ℤ, q * N = z := by
  induction l with
  | nil => exact ⟨1, one_pos, by simp⟩
  | cons a l ih =>
    obtain ⟨N, h0, h⟩ := ih
    refine ⟨N * a.den, Nat.mul_pos h0 a.den_pos, fun q hq => ?_⟩
    rcases List.mem_cons.mp hq with rfl | hq
    · refine ⟨q.num * N, ?_⟩
      have := Rat.mul_den_eq_num q
      push_cast
      rw [← this]; ring
    · obtain ⟨z, hz⟩ := h q hq
      refine ⟨z * a.den, ?_⟩
      push_cast
      rw [← hz]; ring

/-- **C65** For every event graph with positive durations there is a machine precision from which on every answer of the
solver that is not cut by its iteration limit is exact. -/
theorem C65_fine_exists {vs : List Event} {cs : List EvConstraint} (hw : Howard.WF ⟨vs, cs⟩) (hpos : ∀ c ∈ cs, 0 < c.d) :
    ∃ ε₀ : ℚ, 0 < ε₀ ∧ ∀ eps huge : ℚ, 0 < eps → eps ≤ ε₀ → ∀ th p,
      Howard.solver eps huge (fun _ => vs) cs = some (th, p) → CycleAnswer cs th p := by
  obtain ⟨N, hN, hw'⟩ := common_denominator (cs.map fun c => c.w)
  obtain ⟨M, hM, hd'⟩ := common_denominator (cs.map fun c => c.d)
  set D := (cs.map fun c => c.d).sum with hD
  have hle : ∀ e ∈ cs, e.d ≤ D := fun e he => List.single_le_sum (by
    intro a ha; obtain ⟨e, he, rfl⟩ := List.mem_map.mp ha; exact (hpos e he).le) _ (List.mem_map.mpr ⟨_, he, rfl⟩)
  have hD0 : 0 ≤ D := List.sum_nonneg (by intro a ha; obtain ⟨e, he, rfl⟩ := List.mem_map.mp ha; exact (hpos e he).le)
  have hg : Howard.OnGrid ⟨vs, cs⟩ N M D := ⟨hN, hM, fun e he => hw' _ (List.mem_map.mpr ⟨e, he, rfl⟩),
    fun e he => hd' _ (List.mem_map.mpr ⟨e, he, rfl⟩), fun e he => (hpos e he).le, hle⟩
  set X : ℚ := 100 * vs.length * ((vs.length + 1) * D) * N * M with hX
  have hX0 : 0 ≤ X := by positivity
  refine ⟨1 / (X + 1), by positivity, fun eps huge h0 h1 th p hs => ?_⟩
  have hf : Howard.Fine eps ⟨vs, cs⟩ N M D := by
    refine ⟨h0, ?_⟩
    rw [le_div_iff₀ (by linarith)] at h1
    have : 100 * eps * vs.length * ((vs.length + 1) * D) * N * M = eps * X := by rw [hX]; ring
    show 100 * eps * vs.length * ((vs.length + 1) * D) * N * M < 1
    rw [this]
    linarith
  have hz : Howard.NoNullCircuit ⟨vs, cs⟩ := by
    intro q hq
    have hmem := Howard.circuit_mem hq
    obtain ⟨hne, -⟩ := hq
    refine ne_of_gt ?_
    unfold totalD
    exact List.sum_pos _ (by intro a ha; obtain ⟨e, he, rfl⟩ := List.mem_map.mp ha; exact hpos e (hmem e he)) (by simpa using hne)
  unfold Howard.solver at hs
  cases hr : Howard.minCycleRatio eps huge ⟨vs, cs⟩ with
  | none => rw [hr] at hs; simp at hs
  | some r =>
    rw [hr] at hs
    simp only [Option.bind_eq_bind, Option.bind_some] at hs
    cases hl : r.limited with
    | true => rw [hl] at hs; simp at hs
    | false =>
      rw [hl] at hs
      cases hv : r.value with
      | none => rw [hv] at hs; simp at hs
      | some v =>
        rw [hv] at hs
        simp at hs
        obtain ⟨rfl, rfl⟩ := hs
        exact (Howard.C65_exact hw hz hg hf hl hv).1 hr

/-- **C89 with C65** With kiter's own cycle ratio solver, on graphs with positive durations and for a machine precision that
is fine enough for the numbers of the graph: a schedule returned with a positive period is valid and of least period; one
returned with a negative period means that no strictly periodic schedule exists. -/
theorem C89_with_solver (hB : BaseOK B) (hids : (B.tasks.map KTask.id).Nodup) (hpos : ∀ t ∈ B.tasks, ∀ d ∈ t.durations, 0 < d) :
    ∃ ε₀ : ℚ, 0 < ε₀ ∧ ∀ eps huge : ℚ, 0 < eps → eps ≤ ε₀ → ∀ r,
      spSchedule (Howard.solver eps huge fun _ => spEvents B) B = some r → r.omega ≠ 0 ∧
        (0 < r.omega → ValidStarts B (listedStart r.tasks) ∧ IsLeast (StrictPeriods B) r.omega) ∧
        (r.omega < 0 → StrictPeriods B = ∅) := by
  obtain ⟨cs, hcs, hev, -, -⟩ := sp_spec hB false (fun _ => 0) le_rfl
  have hw : Howard.WF ⟨spEvents B, cs⟩ := by
    refine ⟨?_, hev⟩
    show (spEvents B).Nodup
    have : (spEvents B).map Event.task = B.tasks.map KTask.id := by unfold spEvents; rw [List.map_map]; rfl
    exact List.Nodup.of_map Event.task (by rw [this]; exact hids)
  obtain ⟨ε₀, h0, hε⟩ := C65_fine_exists hw (sp_durations hB hpos hcs)
  refine ⟨ε₀, h0, fun eps huge he1 he2 r hr => ?_⟩
  cases hs : Howard.solver eps huge (fun _ => spEvents B) cs with
  | none => unfold spSchedule at hr; rw [hcs] at hr; simp [hs] at hr
  | some q =>
    obtain ⟨th, p⟩ := q
    have hca := hε eps huge he1 he2 th p hs
    by_cases hth : th = 0
    · unfold spSchedule at hr; rw [hcs] at hr; simp [hs, hth] at hr
    have heq := spSchedule_eq hB (solve := Howard.solver eps huge fun _ => spEvents B) hcs hs hth
    have hom : r.omega = 1 / th := by rw [hr] at heq; cases heq; rfl
    rw [hom]
    refine ⟨one_div_ne_zero hth, fun hp => ?_, fun hn => ?_⟩
    · have hth' : 0 < th := one_div_pos.mp hp
      have hex : ExactRatio cs th p := ⟨hca.circuit, hca.posD, by rw [← hca.ratio]; exact mul_pos hca.posD hth', hca.ratio, hca.best⟩
      obtain ⟨r', h1, -, -, h2, h3, -⟩ := C89_schedule hB hcs hs hex
      rw [hr] at h1; cases h1
      rw [← hom]
      exact ⟨h2, h3⟩
    · exact C89_no_schedule hB hcs hca (one_div_neg.mp hn).le

end

/-! ### Concrete cases -/

namespace SPExample
open KIterExample

/-- The scheduling with kiter's solver on the graph of C49: period 15/2, tasks every 15/4 and every 5/2. -/
theorem run : (spSchedule (Howard.solver (1 / 10 ^ 19) (10 ^ 300) fun _ => spEvents G) G).map
    (fun r => (r.omega, r.tasks, r.critical.map fun c => c.1.id)) =
      some (15 / 2, [⟨0, 15 / 4, [0]⟩, ⟨1, 5 / 2, [17 / 4]⟩], [1, 2]) := by decide +kernel

/-- C89 applies to this graph, with the certified solver: a valid schedule of period 15/2. -/
example : ∃ r, spSchedule (certified [(StrictExample.crit, fun e => if e.task = 0 then 0 else 17/4)]) G = some r ∧
    ValidStarts G (listedStart r.tasks) ∧ IsLeast (StrictPeriods G) r.omega := by
  have hs : certified [(StrictExample.crit, fun e => if e.task = 0 then 0 else 17/4)] StrictExample.cs =
      some (2/15, StrictExample.crit) := by decide +kernel
  obtain ⟨r, h1, -, -, h2, h3, -⟩ := C89_schedule G_ok StrictExample.gen.1 hs StrictExample.exact
  exact ⟨r, h1, h2, h3⟩

/-- C89 with kiter's solver applies to this graph. -/
example : (G.tasks.map KTask.id).Nodup ∧ ∀ t ∈ G.tasks, ∀ d ∈ t.durations, 0 < d := by decide +kernel

/-- **C89** On the graph without initial tokens, for which no schedule of any kind exists, the scheduling still returns
one, with the period -15. -/
theorem C89_negative_period : (spSchedule (Howard.solver (1 / 10 ^ 19) (10 ^ 300) fun _ => spEvents dead) dead).map
    (fun r => (r.omega, r.tasks)) = some (-15, [⟨0, -15 / 2, [0]⟩, ⟨1, -5, [1 / 2]⟩]) := by decide +kernel

/-- The constraints of that graph and its critical circuit. -/
def deadCs : List EvConstraint :=
  [⟨⟨0, 1, 1⟩, ⟨0, 1, 1⟩, 1/2, 3, 0⟩, ⟨⟨1, 1, 1⟩, ⟨1, 1, 1⟩, 1/3, 2, 1⟩, ⟨⟨0, 1, 1⟩, ⟨1, 1, 1⟩, 0, 1, 1⟩,
   ⟨⟨0, 1, 1⟩, ⟨1, 1, 1⟩, -1/6, 3, 1⟩, ⟨⟨1, 1, 1⟩, ⟨0, 1, 1⟩, -1/6, 2, 2⟩]

theorem C89_no_schedule_example : StrictPeriods dead = ∅ := by
  have hcs : generateSP dead false = some deadCs := by decide +kernel
  have hw : IsWalk deadCs ⟨0, 1, 1⟩ [⟨⟨0, 1, 1⟩, ⟨1, 1, 1⟩, -1/6, 3, 1⟩, ⟨⟨1, 1, 1⟩, ⟨0, 1, 1⟩, -1/6, 2, 2⟩] ⟨0, 1, 1⟩ :=
    isWalk_of_chain _ (by decide +kernel) _ _ rfl
  refine C89_no_schedule dead_ok hcs (th := -1/15) ⟨⟨_, hw⟩, by decide +kernel, by decide +kernel, ?_⟩ (by norm_num)
  intro u q hq
  have key : ∀ c ∈ deadCs, (fun e : Event => if e.task = 0 then (0 : ℚ) else -1/30) c.src + (c.d * (-1/15) - c.w) ≤
      (fun e : Event => if e.task = 0 then (0 : ℚ) else -1/30) c.dst := by decide +kernel
  have walk : ∀ (q : List EvConstraint) (u v : Event), IsWalk deadCs u q v →
      (fun e : Event => if e.task = 0 then (0 : ℚ) else -1/30) u + (totalD q * (-1/15) - totalW q) ≤
      (fun e : Event => if e.task = 0 then (0 : ℚ) else -1/30) v := by
    intro q
    induction q with
    | nil => intro u v h; cases h; simp [totalD, totalW]
    | cons c q ih =>
      rintro u v ⟨h1, rfl, h2⟩
      have a := key c h1
      have b := ih _ _ h2
      simp only [totalD, totalW, List.map_cons, List.sum_cons] at b ⊢
      linarith
  have := walk q u u hq
  linarith

/-- The graph with enough tokens everywhere and a slower second task. -/
def B' : KTask := { B with durations := [3] }
def slow : BaseGraph := ⟨[A, B'], [({ fwd with preload := 100 }, A, B'), ({ bwd with preload := 100 }, B', A)]⟩

/-- **C89** A channel is reported critical although the critical circuit is the task's own constraint: the second task and
the channel into it have the same id, 1. -/
theorem C89_wrong_channel :
    (generateSP slow false).bind (Howard.solver (1 / 10 ^ 19) (10 ^ 300) fun _ => spEvents slow) =
      some (1/9, [⟨⟨1, 1, 1⟩, ⟨1, 1, 1⟩, 1/3, 3, 1⟩]) ∧
    (spSchedule (Howard.solver (1 / 10 ^ 19) (10 ^ 300) fun _ => spEvents slow) slow).map
      (fun r => r.critical.map fun c => (c.1.id, c.2.1.id, c.2.2.id)) = some [(1, 0, 1)] := by decide +kernel
end SPExample

end Kiter
