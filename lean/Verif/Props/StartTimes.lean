/-
Properties C21 (starting times) and C50 (scheduling built from a throughput).
-/
import Verif.Lemmas.StartTimes
import Verif.Props.KPeriodicRounding

set_option autoImplicit false

namespace Kiter

/-- Specification: `X` gives every event a time such that all constraints hold for period `ω`. -/
def Feasible (cs : List EvConstraint) (ω : ℚ) (X : Event → ℚ) : Prop := ∀ c ∈ cs, Satisfies X ω c

/-- Specification: total `d - ω w` around a closed sequence of constraints. -/
def NoPositiveCircuit (cs : List EvConstraint) (ω : ℚ) : Prop :=
  ∀ u p, IsWalk cs u p u → (p.map fun c => c.d - ω * c.w).sum ≤ 0

theorem satisfies_iff_flow (X : Event → ℚ) (ω : ℚ) (c : EvConstraint) :
    Satisfies X ω c ↔ X c.src + flow ω c ≤ X c.dst := by
  unfold Satisfies flow; constructor <;> intro h <;> linarith

theorem noPositiveCircuit_of_feasible {cs : List EvConstraint} {ω : ℚ} {X : Event → ℚ} (h : Feasible cs ω X) :
    NoPositiveCircuit cs ω := by
  intro u p hp
  have := walk_le_potential (fun c hc => (satisfies_iff_flow X ω c).mp (h c hc)) hp
  have e : walkFlow ω p = (p.map fun c => c.d - ω * c.w).sum := rfl
  linarith

/-- **C21** For every event graph and finite period: the starting times returned satisfy all constraints if and only
if some assignment does, if and only if no circuit has positive `d - ω w`. When they do, they are non-negative, some
event starts at 0, and they are the smallest non-negative solution. -/
theorem C21_starting_times (events : List Event) (cs : List EvConstraint) (ω : ℚ)
    (hcs : ∀ c ∈ cs, c.src ∈ events ∧ c.dst ∈ events) :
    let S := (computeStartingTime events cs (some ω)).2
    (Feasible cs ω S ↔ ∃ X, Feasible cs ω X) ∧ (Feasible cs ω S ↔ NoPositiveCircuit cs ω) ∧
    (Feasible cs ω S → (∀ e ∈ events, 0 ≤ S e) ∧ (events ≠ [] → ∃ e ∈ events, S e = 0) ∧
      ∀ X, Feasible cs ω X → (∀ e ∈ events, 0 ≤ X e) → ∀ e ∈ events, S e ≤ X e) := by
  intro S
  set R := relaxRounds ω (relaxOrder events cs) events.length (fun _ => 0) with hR
  have hS : S = shiftMin events R := rfl
  -- everything when there is no positive circuit
  have main : NoPositiveCircuit cs ω → S = R ∧ Feasible cs ω R ∧ (∀ e, 0 ≤ R e) ∧
      (∀ X, Feasible cs ω X → (∀ e ∈ events, 0 ≤ X e) → ∀ e ∈ events, R e ≤ X e) := by
    intro hn
    obtain ⟨r1, r2, r3⟩ := relaxRounds_sat (ω := ω) (events := events) hcs hn
    have hfeas : Feasible cs ω R := fun c hc => (satisfies_iff_flow _ _ _).mpr (r1 c hc)
    have hleast : ∀ X, Feasible cs ω X → (∀ e ∈ events, 0 ≤ X e) → ∀ e ∈ events, R e ≤ X e := by
      intro X hX hX0 e he
      obtain ⟨u, hu, p, hp, hf⟩ := r3 e he
      have := walk_le_potential (fun c hc => (satisfies_iff_flow X ω c).mp (hX c hc)) hp
      have := hX0 u hu
      have hf' : R e = walkFlow ω p := hf
      linarith
    refine ⟨?_, hfeas, r2, hleast⟩
    rw [hS]
    cases hev : events with
    | nil => rfl
    | cons e es =>
      obtain ⟨m1, m2, m3⟩ := foldl_min_spec R es (R e)
      set m := es.foldl (fun acc x => min acc (R x)) (R e) with hm
      have hm0 : 0 ≤ m := by
        rcases m3 with h | ⟨x, _, h⟩
        · rw [h]; exact r2 e
        · rw [h]; exact r2 x
      have hmle : ∀ x ∈ events, m ≤ R x := by
        intro x hx; rw [hev] at hx
        rcases List.mem_cons.mp hx with rfl | hx
        · exact m2
        · exact m1 x hx
      have hmz : m = 0 := by
        have := hleast (fun x => R x - m) (fun c hc => by
          have := hfeas c hc
          unfold Satisfies at this ⊢; linarith) (fun x hx => by have := hmle x hx; linarith) e (by rw [hev]; simp)
        linarith
      show (fun x => if x ∈ e :: es then R x - m else R x) = R
      funext x
      rw [hmz]; simp
  have back : Feasible cs ω S → NoPositiveCircuit cs ω := fun h => noPositiveCircuit_of_feasible h
  have fwd : NoPositiveCircuit cs ω → Feasible cs ω S := fun h => by obtain ⟨e, f, _⟩ := main h; rw [e]; exact f
  refine ⟨⟨fun h => ⟨S, h⟩, fun ⟨X, hX⟩ => fwd (noPositiveCircuit_of_feasible hX)⟩, ⟨back, fwd⟩, ?_⟩
  intro h
  obtain ⟨e1, f, nn, least⟩ := main (back h)
  refine ⟨fun e _ => by rw [e1]; exact nn e, ?_, by rw [e1]; exact least⟩
  intro hne
  by_contra hcon
  push Not at hcon
  cases hev : events with
  | nil => exact hne hev
  | cons e es =>
    rw [e1] at hcon
    obtain ⟨m1, m2, m3⟩ := foldl_min_spec R es (R e)
    set m := es.foldl (fun acc x => min acc (R x)) (R e) with hm
    have hmpos : 0 < m := by
      rcases m3 with h | ⟨x, hx, h⟩
      · rw [h]; exact lt_of_le_of_ne (nn e) (Ne.symm (hcon e (by rw [hev]; simp)))
      · rw [h]; exact lt_of_le_of_ne (nn x) (Ne.symm (hcon x (by rw [hev]; simp [hx])))
    have hmle : ∀ x ∈ events, m ≤ R x := by
      intro x hx; rw [hev] at hx
      rcases List.mem_cons.mp hx with rfl | hx
      · exact m2
      · exact m1 x hx
    have := least (fun x => R x - m) (fun c hc => by
      have := f c hc
      unfold Satisfies at this ⊢; linarith) (fun x hx => by have := hmle x hx; linarith) e (by rw [hev]; simp)
    linarith

/-- An infinite period is answered with `false` and all starting times 0. -/
theorem C21_infinite (events : List Event) (cs : List EvConstraint) :
    computeStartingTime events cs none = (false, fun _ => 0) := rfl

theorem evAt_mem {g : KGraph} {tk : KTask × ℕ} (h : tk ∈ g.tasks) (hP : 0 < tk.1.durations.length) {x : ℕ}
    (hx : x < tk.2 * tk.1.durations.length) : evAt tk.1 x ∈ graphEvents g := by
  unfold graphEvents
  rw [List.mem_flatMap]
  refine ⟨tk, h, ?_⟩
  rw [List.mem_append]
  right
  rw [List.mem_flatMap]
  refine ⟨x / tk.1.durations.length, ?_, ?_⟩
  · rw [List.mem_range]; exact Nat.div_lt_of_lt_mul (by rwa [Nat.mul_comm] at hx)
  · rw [List.mem_map]
    exact ⟨x % tk.1.durations.length, by rw [List.mem_range]; exact Nat.mod_lt _ hP, rfl⟩

theorem collect_forall {α : Type} (f : α → Option (List EvConstraint)) (p : EvConstraint → Prop) (l : List α)
    (h : ∀ a ∈ l, ∀ cs, f a = some cs → ∀ c ∈ cs, p c) (cs : List EvConstraint) (hc : collect f l = some cs) :
    ∀ c ∈ cs, p c := by
  induction l generalizing cs with
  | nil => simp [collect] at hc; subst hc; simp
  | cons a l ih =>
    simp only [collect, Option.bind_eq_bind] at hc
    obtain ⟨x, hx, hc⟩ := Option.bind_eq_some_iff.mp hc
    obtain ⟨y, hy, hc⟩ := Option.bind_eq_some_iff.mp hc
    cases hc
    intro c hc
    rcases List.mem_append.mp hc with hc | hc
    · exact h a (by simp) x hx c hc
    · exact ih (fun b hb => h b (by simp [hb])) y hy c hc

/-- All constraints of a covered graph relate events of the graph. -/
theorem eventGraph_events {g : KGraph} (hg : GraphOK g) {cs : List EvConstraint} (h : eventGraph g = some cs) :
    ∀ c ∈ cs, c.src ∈ graphEvents g ∧ c.dst ∈ graphEvents g := by
  unfold eventGraph at h
  simp only [Option.bind_eq_bind] at h
  obtain ⟨a, ha, h⟩ := Option.bind_eq_some_iff.mp h
  obtain ⟨b, hb, h⟩ := Option.bind_eq_some_iff.mp h
  cases h
  intro c hc
  rcases List.mem_append.mp hc with hc | hc
  · refine collect_forall _ (fun c => c.src ∈ graphEvents g ∧ c.dst ∈ graphEvents g) g.tasks (fun tk htk cs' hcs' c hc => ?_) a ha c hc
    have ht := hg.tasks tk htk
    obtain ⟨r, hr, hmem⟩ := selfLoop_spec tk.1 tk.2 ht.phases ht.k ht.noInit ht.ni.ne'
    rw [hr] at hcs'; cases hcs'
    have hpos : 0 < tk.2 * tk.1.durations.length := Nat.mul_pos ht.k ht.phases
    rcases (hmem c).mp hc with ⟨x, hx, rfl⟩ | ⟨_, rfl⟩
    · exact ⟨evAt_mem htk ht.phases (by omega), evAt_mem htk ht.phases hx⟩
    · exact ⟨evAt_mem htk ht.phases (by omega), evAt_mem htk ht.phases hpos⟩
  · refine collect_forall _ (fun c => c.src ∈ graphEvents g ∧ c.dst ∈ graphEvents g) g.channels (fun ch hch cs' hcs' c hc => ?_) b hb c hc
    obtain ⟨h1, h2, h3⟩ := hg.channels ch hch
    have t1 := hg.tasks _ h1
    have t2 := hg.tasks _ h2
    have hP : 0 < ch.1.inPhases.length := by rw [← h3.srcPhases]; exact t1.phases
    have hQ : 0 < ch.1.outPhases.length := by rw [← h3.dstPhases]; exact t2.phases
    obtain ⟨_, _, _, _, r, hr, hmem⟩ := channel_spec ch.2.1.1 ch.2.2.1 ch.1 ch.2.1.2 ch.2.2.2 h3.noInInit h3.noOutInit
        hP hQ h3.srcPhases t1.k h3.inPos t1.ni.ne' h3.gcdPos h3.preload
    rw [hr] at hcs'; cases hcs'
    obtain ⟨m, hm, n, hn, α, _, rfl⟩ := (hmem c).mp hc
    refine ⟨evAt_mem h1 t1.phases (by rw [h3.srcPhases]; exact hm), ?_⟩
    have := evAt_mem h2 t2.phases (x := n) (by rw [h3.dstPhases]; exact hn)
    unfold evAt at this
    rw [h3.dstPhases] at this
    exact this

/-- **C21 with C15/C16** On a covered graph, for every period `Ω ≥ 0`, the starting times computed by kiter give a
valid infinite schedule exactly when some K-periodic schedule of period `Ω` is valid. -/
theorem C21_schedule_valid_iff {g : KGraph} (hg : GraphOK g) {Ω : ℚ} (hΩ : 0 ≤ Ω) :
    ∃ cs, eventGraph g = some cs ∧
      (ValidSchedule g (computeStartingTime (graphEvents g) cs (some Ω)).2 Ω ↔ ∃ X, ValidSchedule g X Ω) := by
  obtain ⟨cs, hcs⟩ := eventGraph_total hg
  refine ⟨cs, hcs, ?_⟩
  have key : ∀ X, Feasible cs Ω X ↔ ValidSchedule g X Ω := by
    intro X
    obtain ⟨cs', h', e⟩ := C15_C16_graph_iff hg X hΩ
    rw [hcs] at h'; cases h'
    exact e
  have := (C21_starting_times (graphEvents g) cs Ω (eventGraph_events hg hcs)).1
  rw [← key, this]
  exact exists_congr key

/-- The hypotheses of C21 are met, with a valid schedule: kiter's starting times for the example graph with period 7. -/
example : ∃ cs, eventGraph Example.G = some cs ∧
    ValidSchedule Example.G (computeStartingTime (graphEvents Example.G) cs (some 7)).2 7 := by
  obtain ⟨cs, h, e⟩ := C21_schedule_valid_iff Example.G_ok (Ω := 7) (by norm_num)
  exact ⟨cs, h, e.mpr ⟨_, Example.valid⟩⟩

/-- Specification: start of the `k`-th execution described by a periodic list of starts. -/
def TaskSchedule.start (s : TaskSchedule) (k : ℕ) : ℚ :=
  s.starts.getD (k % s.starts.length) 0 + ((k / s.starts.length : ℕ) : ℚ) * s.period

theorem mapM_some {α β : Type} (f : α → Option β) (F : α → β) (l : List α) (h : ∀ a ∈ l, f a = some (F a)) :
    l.mapM f = some (l.map F) := by
  induction l with
  | nil => rfl
  | cons a l ih =>
    rw [List.mapM_cons, h a (by simp), ih (fun b hb => h b (by simp [hb]))]; rfl

/-- **C50** For every covered graph and positive throughput, `period2scheduling` returns one entry per task, whose
period and starts expand to exactly the infinite schedule of the computed starting times with `Ω = 1/throughput`;
that schedule is valid if any K-periodic schedule of this period is. -/
theorem C50_period2scheduling {g : KGraph} (hg : GraphOK g) {th : ℚ} (hth : 0 < th) :
    ∃ cs res, eventGraph g = some cs ∧ period2scheduling g th = some res ∧ res.length = g.tasks.length ∧
      (∀ i (hi : i < g.tasks.length) (hi' : i < res.length),
        res[i].id = g.tasks[i].1.id ∧ res[i].starts.length = g.tasks[i].2 * g.tasks[i].1.durations.length ∧
        ∀ k, res[i].start k =
          execStart (computeStartingTime (graphEvents g) cs (some (1 / th))).2 (1 / th) g.tasks[i].1 g.tasks[i].2 k) ∧
      ((∃ X, ValidSchedule g X (1 / th)) →
        ValidSchedule g (computeStartingTime (graphEvents g) cs (some (1 / th))).2 (1 / th)) := by
  have hΩ : (0 : ℚ) < 1 / th := by positivity
  obtain ⟨cs, hcs, hiff⟩ := C21_schedule_valid_iff hg hΩ.le
  set S := (computeStartingTime (graphEvents g) cs (some (1 / th))).2 with hS
  let F : KTask × ℕ → TaskSchedule := fun tk =>
    ⟨tk.1.id, ((tk.2 : ℚ) * tk.1.durations.length * (1 / th)) / tk.1.ni,
      ((List.range (tk.2 * tk.1.durations.length)).map (evAt tk.1)).map S⟩
  have hevs : ∀ tk ∈ g.tasks, ((List.range tk.2).flatMap fun (k : Nat) =>
            (List.range (tk.1.initDurations.length + tk.1.durations.length)).map fun (p : Nat) =>
              (⟨tk.1.id, (p : Int) + 1 - tk.1.initDurations.length, (k : Int) + 1⟩ : Event))
      = (List.range (tk.2 * tk.1.durations.length)).map (evAt tk.1) := by
    intro tk htk
    have ht := hg.tasks tk htk
    have h1 := loopPairs_eq tk.1.durations.length tk.2 ht.phases
    unfold loopPairs at h1
    simp only [ite_self, Nat.zero_add] at h1
    have := congrArg (List.map (fun q : Int × Int => (⟨tk.1.id, q.2, q.1⟩ : Event))) h1
    rw [List.map_flatMap, List.map_map] at this
    simp only [List.map_map] at this
    rw [ht.noInit]
    simp only [List.length_nil, Nat.zero_add]
    exact this
  refine ⟨cs, g.tasks.map F, hcs, ?_, by simp, ?_, hiff.mpr⟩
  · unfold period2scheduling
    rw [if_neg hth.ne', hcs]
    simp only [Option.bind_eq_bind, Option.bind_some]
    rw [if_neg (not_le.mpr hΩ)]
    apply mapM_some
    intro tk htk
    have ht := hg.tasks tk htk
    rw [if_neg ht.ni.ne', hevs tk htk, mapM_some _ S]
    · rfl
    · intro e he
      rw [List.mem_map] at he
      obtain ⟨x, hx, rfl⟩ := he
      unfold eventStart
      rw [if_pos (evAt_mem htk ht.phases (by simpa using hx))]
  · intro i hi hi'
    have ht := hg.tasks g.tasks[i] (List.getElem_mem _)
    have hpos : 0 < g.tasks[i].2 * g.tasks[i].1.durations.length := Nat.mul_pos ht.k ht.phases
    have hlen : (F g.tasks[i]).starts.length = g.tasks[i].2 * g.tasks[i].1.durations.length := by simp [F]
    rw [List.getElem_map]
    refine ⟨rfl, hlen, fun k => ?_⟩
    unfold TaskSchedule.start
    rw [hlen]
    have hk := Nat.mod_lt k hpos
    rw [List.getD_eq_getElem _ _ (by rw [hlen]; exact hk)]
    have e1 : (F g.tasks[i]).starts[k % (g.tasks[i].2 * g.tasks[i].1.durations.length)]'(by rw [hlen]; exact hk)
        = S (evAt g.tasks[i].1 (k % (g.tasks[i].2 * g.tasks[i].1.durations.length))) := by simp [F]
    rw [e1, ← execStart_first (S := S) (Ω := 1 / th) hk]
    unfold execStart
    have m1 : k % (g.tasks[i].2 * g.tasks[i].1.durations.length) % g.tasks[i].1.durations.length
        = k % g.tasks[i].1.durations.length := Nat.mod_mul_left_mod _ _ _
    have m2 : k % (g.tasks[i].2 * g.tasks[i].1.durations.length) / g.tasks[i].1.durations.length % g.tasks[i].2
        = k / g.tasks[i].1.durations.length % g.tasks[i].2 := by
      rw [Nat.mul_comm, Nat.mod_mul_right_div_self, Nat.mod_mod]
    have m3 : k % (g.tasks[i].2 * g.tasks[i].1.durations.length) / (g.tasks[i].2 * g.tasks[i].1.durations.length) = 0 :=
      Nat.div_eq_of_lt hk
    rw [m1, m2, m3]
    have e2 : (F g.tasks[i]).period = 1 / th * (g.tasks[i].1.durations.length * g.tasks[i].2) / g.tasks[i].1.ni := by
      simp only [F]; ring
    rw [e2, Nat.cast_zero, zero_mul, add_zero]

/-- C50 on the example graph: the schedule for throughput 1/7 exists and is valid. -/
example : ∃ cs res, period2scheduling Example.G (1 / 7) = some res ∧ res.length = 2 ∧
    ValidSchedule Example.G (computeStartingTime (graphEvents Example.G) cs (some (1 / (1 / 7)))).2 (1 / (1 / 7)) := by
  obtain ⟨cs, res, _, h, hl, _, hv⟩ := C50_period2scheduling Example.G_ok (th := 1 / 7) (by norm_num)
  exact ⟨cs, res, h, hl, hv ⟨Example.S, by norm_num; exact Example.valid⟩⟩

end Kiter
