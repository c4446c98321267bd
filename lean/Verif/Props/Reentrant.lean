/-
Property C100: K-Iter on graphs with reentrant tasks.
-/
import Verif.Lemmas.Reentrant
import Verif.Model.Reentrancy
import Verif.Lemmas.PeriodicCapacity

set_option autoImplicit false

namespace Kiter
open Finset

/-- Without reentrant tasks the two specifications of schedules agree. -/
theorem ordered_iff_valid {B : BaseGraph} (hB : BaseOK B) (σ : Int → ℕ → ℚ) : OrderedSchedule B σ ↔ ValidGen B σ := by
  constructor
  · intro h
    exact ⟨h.nonneg, fun t ht => h.noOverlap t ht (hB.tasks t ht).reentrancy, h.channels⟩
  · intro h
    exact ⟨h.nonneg, fun t ht k => gen_mono hB h ht (Nat.le_succ k), fun t ht _ => h.noOverlap t ht, h.channels⟩

/-- **C100** Whatever the reentrancy of the tasks, K-Iter never reports too small a throughput: when it reports `th > 0`,
no schedule has a period below `1 / th`; when it reports `th ≤ 0` there is no schedule at all. -/
theorem C100_never_pessimistic {B : BaseGraph} (hB : ReBaseOK B) (solve : List EvConstraint → Option (ℚ × List EvConstraint))
    (hsolve : ∀ K cs th p, ((∀ i, 0 < K i) ∧ ∀ t ∈ B.tasks, K t.id ∣ reps t) →
      (∃ cs0, eventGraph (B.withK K) = some cs0 ∧ ∀ c, c ∈ cs ↔ c ∈ cs0) → solve cs = some (th, p) → CycleAnswer cs th p)
    (fuel : ℕ) (r : KIterResult) (hr : kiter solve B fuel = some (some r)) :
    (0 < r.throughput → ∀ Ω ∈ OrderedPeriods B, 1 / r.throughput ≤ Ω) ∧
      (r.throughput ≤ 0 → ¬ ∃ σ, OrderedSchedule B σ) := by
  obtain ⟨hK, cs, p, hcs, hp, G, hG0, hG⟩ := Re.kiter_final hB solve hsolve fuel r hr
  exact ⟨fun h Ω hΩ => Re.lower_bound hB hK.1 hcs hp.circuitRatio h hG0 hG hΩ,
    fun h => Re.no_schedule hB hK.1 hcs hp.circuitRatio h hG0 hG⟩

/-- **C100** It always ends. -/
theorem C100_terminates {B : BaseGraph} (hB : ReBaseOK B) (solve : List EvConstraint → Option (ℚ × List EvConstraint))
    (fuel : ℕ) (hfuel : primeBound B < fuel) :
    kiter solve B fuel ≠ some none ∧
    (∀ r, kiter solve B fuel = some (some r) →
      (∀ t ∈ B.tasks, r.K t.id ∣ reps t) ∧ r.iterations ≤ primeBound B + 1) ∧
    ((∀ K cs, ((∀ i, 0 < K i) ∧ ∀ t ∈ B.tasks, K t.id ∣ reps t) →
      (∃ cs0, eventGraph (B.withK K) = some cs0 ∧ ∀ c, c ∈ cs ↔ c ∈ cs0) → solve cs ≠ none) → kiter solve B fuel ≠ none) := Re.terminates hB solve fuel hfuel

/-- **C100** Starting times that satisfy all the event constraints of a vector `K` define a schedule of the period `Ω`,
provided the last start of each reentrant task in a period does not come after the first one of the next period. The
event graph has no constraint for this: it is what `C100_kiter_optimistic` exploits. -/
theorem C100_schedule {B : BaseGraph} (hB : ReBaseOK B) {K : Int → ℕ} (hK : ∀ i, 0 < K i) {cs : List EvConstraint}
    (hcs : eventGraph (B.withK K) = some cs) {S : Event → ℚ} {Ω : ℚ} (hΩ : 0 ≤ Ω) (hS : ∀ c ∈ cs, Satisfies S Ω c)
    (hS0 : ∀ e ∈ graphEvents (B.withK K), 0 ≤ S e)
    (hwrap : ∀ t ∈ B.tasks, t.reentrancy ≤ 0 → S ⟨t.id, t.durations.length, K t.id⟩ ≤
      S ⟨t.id, 1, 1⟩ + Ω * (t.durations.length * K t.id) / t.ni) :
    ∃ σ, OrderedSchedule B σ ∧ Sustains B σ Ω ∧ ∀ t ∈ B.tasks, ∀ k, σ t.id k = execStart S Ω t (K t.id) k := by
  have htk : ∀ t ∈ B.tasks, (t, K t.id) ∈ (B.withK K).tasks := fun t ht => List.mem_map.mpr ⟨t, ht, rfl⟩
  have taskOK : ∀ t ∈ B.tasks, 0 < t.reentrancy → TaskOK t (K t.id) := fun t ht hr =>
    have h := hB.tasks t ht
    ⟨h.phases, h.noInit, h.durNonneg, hr, h.ni, hK _⟩
  -- the self-loop constraints of a task
  have hself : ∀ t ∈ B.tasks, ∀ x, selfLoopConstraints t (K t.id) = some x → ∀ c ∈ x, Satisfies S Ω c := fun t ht x hx c hc =>
    hS c ((eventGraph_mem hcs c).mpr (Or.inl ⟨t, ht, x, hx, hc⟩))
  have hno : ∀ t ∈ B.tasks, 0 < t.reentrancy → NoOverlap S Ω t (K t.id) := by
    intro t ht hr
    obtain ⟨x, hx, e⟩ := C18_selfloop_iff (S := S) (Ω := Ω) (taskOK t ht hr)
    exact e.mp (hself t ht x hx)
  have hmono : ∀ t ∈ B.tasks, Monotone (execStart S Ω t (K t.id)) := by
    intro t ht
    by_cases hr : 0 < t.reentrancy
    · exact noOverlap_start_mono (taskOK t ht hr) (hno t ht hr)
    have hr' : t.reentrancy ≤ 0 := by omega
    have hok := hB.tasks t ht
    have hKP : 0 < K t.id * t.durations.length := Nat.mul_pos (hK _) hok.phases
    have hper := execStart_period (S := S) (Ω := Ω) (t := t) (K := K t.id) hok.phases (hK _)
    obtain ⟨x, hx, hmem⟩ := selfLoop_spec t (K t.id) hok.phases (hK _) hok.noInit hok.ni.ne'
    refine monotone_nat_of_le_succ (nat_periodic_induction hKP (fun y hy => ?_) (fun k hk => ?_))
    · rw [execStart_first hy]
      by_cases hy1 : y + 1 < K t.id * t.durations.length
      · rw [execStart_first hy1]
        have := hself t ht x hx _ ((hmem _).mpr (Or.inl ⟨y, hy1, rfl⟩))
        unfold Satisfies at this
        simp only [hr', if_true, zero_mul, mul_zero] at this
        linarith
      · have e2 : y + 1 = 0 + K t.id * t.durations.length := by omega
        rw [e2, hper 0, execStart_first hKP]
        have := hwrap t ht hr'
        have e3 : evAt t y = ⟨t.id, t.durations.length, K t.id⟩ := by
          unfold evAt
          have hy' : y = t.durations.length - 1 + (K t.id - 1) * t.durations.length := by
            have : K t.id * t.durations.length = (K t.id - 1) * t.durations.length + t.durations.length := by
              have := hK t.id
              conv_lhs => rw [show K t.id = (K t.id - 1) + 1 by omega]
              ring
            have := hok.phases
            omega
          have m1 : y % t.durations.length = t.durations.length - 1 := by
            rw [hy', Nat.add_mul_mod_self_right]; exact Nat.mod_eq_of_lt (by have := hok.phases; omega)
          have m2 : y / t.durations.length = K t.id - 1 := by
            rw [hy', Nat.add_mul_div_right _ _ hok.phases, Nat.div_eq_of_lt (by have := hok.phases; omega)]; omega
          rw [m1, m2]
          have := hok.phases
          have := hK t.id
          simp only [Event.mk.injEq, true_and]
          omega
        have e4 : evAt t 0 = ⟨t.id, 1, 1⟩ := by unfold evAt; simp
        rw [e3, e4]
        exact this
    · rw [show k + K t.id * t.durations.length + 1 = (k + 1) + K t.id * t.durations.length by ring, hper, hper]
      linarith
  have hmonoE : ∀ t ∈ B.tasks, Monotone (execEnd S Ω t (K t.id)) := by
    intro t ht
    by_cases hr : 0 < t.reentrancy
    · exact noOverlap_end_mono (taskOK t ht hr) (hno t ht hr)
    · intro a b hab
      unfold execEnd
      rw [Re.dur_const (hB.tasks t ht) (by omega) a b]
      have := hmono t ht hab
      linarith
  set σ : Int → ℕ → ℚ := fun i k => ((B.find i).map fun t => execStart S Ω t (K i) k).getD 0 with hσ
  have hσe : ∀ t ∈ B.tasks, ∀ k, σ t.id k = execStart S Ω t (K t.id) k := by
    intro t ht k; rw [hσ]; simp only [Re.find_eq hB ht, Option.map_some, Option.getD_some]
  have hni : ∀ t ∈ B.tasks, (0 : ℚ) < t.ni := fun t ht => by exact_mod_cast (hB.tasks t ht).ni
  refine ⟨σ, ⟨?_, ?_, ?_, ?_⟩, ?_, hσe⟩
  · intro t ht k
    rw [hσe t ht]
    have hP := (hB.tasks t ht).phases
    have h0 := hS0 _ (evAt_mem (htk t ht) hP (Nat.mul_pos (hK t.id) hP))
    have h1 := hmono t ht (Nat.zero_le k)
    rw [execStart_first (Nat.mul_pos (hK t.id) hP)] at h1
    linarith
  · intro t ht k
    rw [hσe t ht, hσe t ht]
    exact hmono t ht (Nat.le_succ k)
  · intro t ht hr k
    rw [hσe t ht, hσe t ht]
    exact hno t ht hr k
  · intro c hc
    obtain ⟨hs, ht, hch⟩ := hB.channels c hc
    have e1 : σ c.2.2.id = execStart S Ω c.2.2 (K c.2.2.id) := funext (hσe _ ht)
    have e2 : (fun k => σ c.2.1.id k + c.2.1.dur k) = execEnd S Ω c.2.1 (K c.2.1.id) := by
      funext k; rw [hσe _ hs]; rfl
    rw [e1, e2]
    obtain ⟨x, hx, e⟩ := C15_C16_channel_iff S Ω hΩ c.1 c.2.1 c.2.2 (K c.2.1.id) (K c.2.2.id) hch (hK _) (hK _)
      (hB.tasks _ hs).ni (hB.tasks _ ht).ni (hmonoE _ hs) (hmono _ ht)
    exact e.mp fun c' hc' => hS c' ((eventGraph_mem hcs c').mpr (Or.inr ⟨c, hc, x, hx, hc'⟩))
  · intro t ht
    have hP := (hB.tasks t ht).phases
    have hKP : 0 < K t.id * t.durations.length := Nat.mul_pos (hK _) hP
    refine ⟨∑ x ∈ range (K t.id * t.durations.length), S (evAt t x), fun k => ?_⟩
    rw [hσe t ht]
    set x := k % (K t.id * t.durations.length) with hx
    have hxlt : x < K t.id * t.durations.length := Nat.mod_lt _ hKP
    have hk : k = x + (k / (K t.id * t.durations.length)) * (K t.id * t.durations.length) := by rw [hx, Nat.mod_add_div']
    have h1 : execStart S Ω t (K t.id) k = S (evAt t x) + (k / (K t.id * t.durations.length) : ℕ) *
        (Ω * (t.durations.length * K t.id) / t.ni) := by
      conv_lhs => rw [hk]
      rw [per_mul (fun k => execStart_period (S := S) (Ω := Ω) hP (hK t.id) k), execStart_first hxlt]
    rw [h1]
    have h2 : S (evAt t x) ≤ ∑ x ∈ range (K t.id * t.durations.length), S (evAt t x) :=
      Finset.single_le_sum (f := fun x => S (evAt t x)) (fun y hy => hS0 _ (evAt_mem (htk t ht) hP (by simpa using hy)))
        (by simpa using hxlt)
    have h4 : ((k / (K t.id * t.durations.length) : ℕ) : ℚ) * (K t.id * t.durations.length) ≤ k := by
      exact_mod_cast Nat.div_mul_le_self k (K t.id * t.durations.length)
    have e5 : ((k / (K t.id * t.durations.length) : ℕ) : ℚ) * (Ω * (t.durations.length * K t.id) / t.ni)
        = Ω / t.ni * (((k / (K t.id * t.durations.length) : ℕ) : ℚ) * (K t.id * t.durations.length)) := by ring
    have e6 : Ω * (k : ℚ) / t.ni = Ω / t.ni * k := by ring
    have h7 := mul_le_mul_of_nonneg_left h4 (div_nonneg hΩ (hni t ht).le)
    rw [e5, e6]
    linarith

/-- **C100** K-Iter is exact when its final vector gives each reentrant task a single execution per period. -/
theorem C100_single_execution {B : BaseGraph} (hB : ReBaseOK B) (solve : List EvConstraint → Option (ℚ × List EvConstraint))
    (hsolve : ∀ K cs th p, ((∀ i, 0 < K i) ∧ ∀ t ∈ B.tasks, K t.id ∣ reps t) →
      (∃ cs0, eventGraph (B.withK K) = some cs0 ∧ ∀ c, c ∈ cs ↔ c ∈ cs0) → solve cs = some (th, p) → CycleAnswer cs th p)
    (fuel : ℕ) (r : KIterResult) (hr : kiter solve B fuel = some (some r))
    (h1 : ∀ t ∈ B.tasks, t.reentrancy ≤ 0 → t.durations.length = 1 ∧ r.K t.id = 1) :
    (0 < r.throughput → IsLeast (OrderedPeriods B) (1 / r.throughput)) ∧
      (r.throughput ≤ 0 → ¬ ∃ σ, OrderedSchedule B σ) := by
  obtain ⟨a, b⟩ := C100_never_pessimistic hB solve hsolve fuel r hr
  refine ⟨fun hth => ⟨?_, fun Ω hΩ => a hth Ω hΩ⟩, b⟩
  obtain ⟨hK, cs, p, ⟨cs0, hcs0, hmem⟩, hp, -⟩ := Re.kiter_final hB solve hsolve fuel r hr
  have hΩ : (0 : ℚ) < 1 / r.throughput := by positivity
  have hwalk : ∀ (p : List EvConstraint) (u v : Event), IsWalk cs0 u p v → IsWalk cs u p v := by
    intro p
    induction p with
    | nil => intro u v h; exact h
    | cons e p ih => intro u v ⟨a, b, c⟩; exact ⟨(hmem e).mpr a, b, ih _ _ c⟩
  have hno : NoPositiveCircuit cs0 (1 / r.throughput) := by
    intro u p hq
    have h1 := hp.best u p (hwalk p u u hq)
    have h2 : (p.map fun c => c.d - 1 / r.throughput * c.w).sum = totalD p - 1 / r.throughput * totalW p := by
      unfold totalD totalW
      clear h1 hq
      induction p with
      | nil => simp
      | cons e p ih => simp only [List.map_cons, List.sum_cons]; rw [ih]; ring
    rw [h2]
    have h3 := mul_le_mul_of_nonneg_left h1 hΩ.le
    have h4 : 1 / r.throughput * (totalD p * r.throughput) = totalD p := by field_simp
    linarith
  obtain ⟨-, a2, a3⟩ := C21_starting_times
    (graphEvents (B.withK r.K) ++ (cs0.map (fun c => c.src) ++ cs0.map fun c => c.dst)) cs0 (1 / r.throughput)
    (fun c hc => by simp only [List.mem_append, List.mem_map]; exact ⟨.inr (.inl ⟨c, hc, rfl⟩), .inr (.inr ⟨c, hc, rfl⟩)⟩)
  have hfeas := a2.mpr hno
  obtain ⟨n1, -, -⟩ := a3 hfeas
  obtain ⟨σ, h2, h3, -⟩ := C100_schedule hB hK.1 hcs0 hΩ.le hfeas (fun e he => n1 e (List.mem_append.mpr (.inl he)))
    (fun t ht hr' => by
      obtain ⟨e1, e2⟩ := h1 t ht hr'
      rw [e1, e2]
      have : (0 : ℚ) < t.ni := by exact_mod_cast (hB.tasks t ht).ni
      have : 0 ≤ 1 / r.throughput * (((1 : ℕ) : ℚ) * ((1 : ℕ) : ℚ)) / t.ni := by positivity
      push_cast at this ⊢
      linarith)
  exact ⟨σ, h2, h3⟩

/-- **C100** In particular K-Iter is exact when each reentrant task has one phase and runs once per graph iteration. -/
theorem C100_homogeneous {B : BaseGraph} (hB : ReBaseOK B) (solve : List EvConstraint → Option (ℚ × List EvConstraint))
    (hsolve : ∀ K cs th p, ((∀ i, 0 < K i) ∧ ∀ t ∈ B.tasks, K t.id ∣ reps t) →
      (∃ cs0, eventGraph (B.withK K) = some cs0 ∧ ∀ c, c ∈ cs ↔ c ∈ cs0) → solve cs = some (th, p) → CycleAnswer cs th p)
    (fuel : ℕ) (r : KIterResult) (hr : kiter solve B fuel = some (some r))
    (h1 : ∀ t ∈ B.tasks, t.reentrancy ≤ 0 → t.durations.length = 1 ∧ t.ni = 1) :
    (0 < r.throughput → IsLeast (OrderedPeriods B) (1 / r.throughput)) ∧
      (r.throughput ≤ 0 → ¬ ∃ σ, OrderedSchedule B σ) := by
  refine C100_single_execution hB solve hsolve fuel r hr fun t ht hre => ?_
  obtain ⟨e1, e2⟩ := h1 t ht hre
  obtain ⟨hK, -⟩ := Re.kiter_final hB solve hsolve fuel r hr
  refine ⟨e1, ?_⟩
  have := hK.2 t ht
  have e3 : reps t = 1 := by unfold reps; rw [e1, e2]; rfl
  rw [e3] at this
  exact Nat.dvd_one.mp this

/-- **C100** The self-timed analysis takes every task as non-reentrant (C66, C67): its schedules are schedules of the
graph, so the period it finds is never below the best one. -/
theorem C100_self_timed {B : BaseGraph} (hB : ReBaseOK B) : SustainablePeriods B ⊆ OrderedPeriods B := by
  rintro Ω ⟨σ, h, hs⟩
  refine ⟨σ, ⟨h.nonneg, fun t ht k => ?_, fun t ht _ => h.noOverlap t ht, h.channels⟩, hs⟩
  have := h.noOverlap t ht k
  have := dur_nonneg (hB.tasks t ht).phases (hB.tasks t ht).durNonneg k
  linarith

/-! ### The pass that removes the self-loops -/

/-- The effect of the pass on a task. -/
def freed (ids : List Int) (t : KTask) : KTask := if t.id ∈ ids then { t with reentrancy := 0 } else t

theorem freed_id (ids : List Int) (t : KTask) : (freed ids t).id = t.id := by unfold freed; split <;> rfl

theorem freed_cons (i : Int) (ids : List Int) (t : KTask) :
    freed ids (if t.id = i then { t with reentrancy := 0 } else t) = freed (i :: ids) t := by
  unfold freed
  by_cases h : t.id = i <;> by_cases h2 : t.id ∈ ids
  · simp [h, h2]
  · simp only [h, if_true, List.mem_cons, true_or, ite_self]
  · simp [h, h2]
  · simp [h, h2]

theorem remove_list (ids : List Int) (B : BaseGraph) :
    ids.foldlM makeReentrant B = if ∀ i ∈ ids, ∃ t ∈ B.tasks, t.id = i then
      some ⟨B.tasks.map (freed ids), B.channels.map fun c => (c.1, freed ids c.2.1, freed ids c.2.2)⟩ else none := by
  induction ids generalizing B with
  | nil =>
    have : freed [] = id := by funext t; simp [freed]
    simp only [List.foldlM_nil, this, List.map_id]
    simp
  | cons i ids ih =>
    rw [List.foldlM_cons]
    have step : makeReentrant B i = if B.tasks.any fun t => t.id = i then
        some ⟨B.tasks.map fun t : KTask => if t.id = i then { t with reentrancy := 0 } else t,
          B.channels.map fun c => (c.1, (if c.2.1.id = i then { c.2.1 with reentrancy := 0 } else c.2.1),
            (if c.2.2.id = i then { c.2.2 with reentrancy := 0 } else c.2.2))⟩ else none := rfl
    rw [step]
    by_cases h : (B.tasks.any fun t => decide (t.id = i)) = true
    · rw [if_pos h]
      simp only [Option.bind_eq_bind, Option.bind_some]
      rw [ih]
      have h' : ∃ t ∈ B.tasks, t.id = i := by simpa using h
      have e : (∀ j ∈ ids, ∃ t ∈ B.tasks.map (fun t : KTask => if t.id = i then { t with reentrancy := 0 } else t), t.id = j) ↔
          ∀ j ∈ i :: ids, ∃ t ∈ B.tasks, t.id = j := by
        have hid : ∀ t : KTask, (if t.id = i then { t with reentrancy := 0 } else t : KTask).id = t.id := by
          intro t; split <;> rfl
        constructor
        · intro H j hj
          rcases List.mem_cons.mp hj with rfl | hj
          · exact h'
          · obtain ⟨t, ht, e⟩ := H j hj
            obtain ⟨s, hs, rfl⟩ := List.mem_map.mp ht
            exact ⟨s, hs, by rw [hid] at e; exact e⟩
        · intro H j hj
          obtain ⟨t, ht, e⟩ := H j (by simp [hj])
          exact ⟨_, List.mem_map.mpr ⟨t, ht, rfl⟩, by rw [hid]; exact e⟩
      by_cases hall : ∀ j ∈ i :: ids, ∃ t ∈ B.tasks, t.id = j
      · rw [if_pos (e.mpr hall), if_pos hall]
        simp only [List.map_map, Option.some.injEq, BaseGraph.mk.injEq]
        constructor
        · apply List.map_congr_left; intro t _; exact freed_cons i ids t
        · apply List.map_congr_left; intro c _
          simp only [Function.comp]
          rw [freed_cons, freed_cons]
      · rw [if_neg (fun H => hall (e.mp H)), if_neg hall]
    · rw [if_neg h, if_neg]
      · rfl
      · intro H
        obtain ⟨t, ht, e⟩ := H i (by simp)
        exact h (by simp only [List.any_eq_true, decide_eq_true_eq]; exact ⟨t, ht, e⟩)

/-- **C100** RemoveReentrancy fails only on a name or an id that is no task. Otherwise it makes exactly the chosen tasks
reentrant (all of them without parameter) and changes nothing else; it loses no schedule and no period. -/
theorem C100_remove {B : BaseGraph} (sel : Option (List Int)) :
    ((removeReentrancy sel B).isSome ↔ ∀ l, sel = some l → ∀ i ∈ l, ∃ t ∈ B.tasks, t.id = i) ∧
    ∀ B', removeReentrancy sel B = some B' →
      ∃ f : KTask → KTask, B' = ⟨B.tasks.map f, B.channels.map fun c => (c.1, f c.2.1, f c.2.2)⟩ ∧
        (∀ t ∈ B.tasks, f t = { t with reentrancy := if (∀ l, sel = some l → t.id ∈ l) then 0 else t.reentrancy }) ∧
        ((∀ c ∈ B.channels, c.2.1 ∈ B.tasks ∧ c.2.2 ∈ B.tasks) →
          (∀ σ, OrderedSchedule B σ → OrderedSchedule B' σ) ∧ OrderedPeriods B ⊆ OrderedPeriods B') := by
  unfold removeReentrancy
  rw [remove_list]
  set ids := sel.getD (B.tasks.map fun t => t.id) with hids
  have hiff : (∀ i ∈ ids, ∃ t ∈ B.tasks, t.id = i) ↔ ∀ l, sel = some l → ∀ i ∈ l, ∃ t ∈ B.tasks, t.id = i := by
    cases sel with
    | none => simp [hids]
    | some l => simp [hids]
  constructor
  · rw [← hiff]
    split
    · rename_i h; simp only [Option.isSome_some, true_iff]; exact h
    · rename_i h; simp only [Option.isSome_none, Bool.false_eq_true, false_iff]; exact h
  · intro B' hB'
    split at hB'
    swap
    · simp at hB'
    cases hB'
    have hf : ∀ t ∈ B.tasks, freed ids t =
        { t with reentrancy := if (∀ l, sel = some l → t.id ∈ l) then 0 else t.reentrancy } := by
      intro t ht
      have hmem : t.id ∈ ids ↔ ∀ l, sel = some l → t.id ∈ l := by
        cases sel with
        | none => simp [hids]; exact ⟨t, ht, rfl⟩
        | some l => simp [hids]
      unfold freed
      by_cases h : t.id ∈ ids
      · rw [if_pos h, if_pos (hmem.mp h)]
      · rw [if_neg h, if_neg (fun H => h (hmem.mpr H))]
    refine ⟨freed ids, rfl, hf, fun hch => ?_⟩
    have hdur : ∀ t k, (freed ids t).dur k = t.dur k := by
      intro t k; unfold freed KTask.dur; split <;> rfl
    have hni : ∀ t, (freed ids t).ni = t.ni := by intro t; unfold freed; split <;> rfl
    have hre : ∀ t, 0 < (freed ids t).reentrancy → 0 < t.reentrancy := by
      intro t; unfold freed; split
      · intro h; exact absurd h (by simp)
      · exact id
    have key : ∀ σ, OrderedSchedule B σ → OrderedSchedule
        ⟨B.tasks.map (freed ids), B.channels.map fun c => (c.1, freed ids c.2.1, freed ids c.2.2)⟩ σ := by
      intro σ h
      refine ⟨?_, ?_, ?_, ?_⟩
      · intro t ht k
        obtain ⟨s, hs, rfl⟩ := List.mem_map.mp ht
        rw [freed_id]; exact h.nonneg s hs k
      · intro t ht k
        obtain ⟨s, hs, rfl⟩ := List.mem_map.mp ht
        rw [freed_id]; exact h.ordered s hs k
      · intro t ht hr k
        obtain ⟨s, hs, rfl⟩ := List.mem_map.mp ht
        rw [freed_id, hdur]; exact h.noOverlap s hs (hre s hr) k
      · intro c hc
        obtain ⟨e, he, rfl⟩ := List.mem_map.mp hc
        simp only [freed_id, hdur]
        exact h.channels e he
    refine ⟨key, ?_⟩
    rintro Ω ⟨σ, h, hs⟩
    refine ⟨σ, key σ h, fun t ht => ?_⟩
    obtain ⟨s, hs', rfl⟩ := List.mem_map.mp ht
    rw [freed_id, hni]
    exact hs s hs'

/-- The pass on a graph of C52, for one of its tasks. -/
example : ∃ B', removeReentrancy (some [1]) KIterExample.G = some B' ∧
    B'.tasks.map (fun t => (t.id, t.reentrancy)) = [(0, 1), (1, 0)] ∧
    B'.channels.map (fun c => (c.2.1.reentrancy, c.2.2.reentrancy)) = [(1, 0), (0, 1)] := ⟨_, rfl, by decide, by decide⟩

/-! ### A graph of three tasks, two of them without self-loop -/

namespace ReExample

def C : KTask := ⟨0, [1], [], 1, 1⟩
def A : KTask := ⟨1, [1], [], 0, 2⟩
def D : KTask := ⟨2, [1], [], 0, 1⟩
def ca : KChannel := ⟨1, [2], [1], [], [], 1, 1⟩
def ad : KChannel := ⟨2, [1], [2], [], [], 1, 1⟩
def dc : KChannel := ⟨3, [1], [1], [], [], 1, 1⟩
def G : BaseGraph := ⟨[C, A, D], [(ca, C, A), (ad, A, D), (dc, D, C)]⟩

theorem G_ok : ReBaseOK G := by
  have ca_ok : ChannelOK ca C A :=
    ⟨rfl, rfl, rfl, rfl, by decide, by decide, by decide, by decide, by decide, by decide, by decide, by decide, by decide⟩
  have ad_ok : ChannelOK ad A D :=
    ⟨rfl, rfl, rfl, rfl, by decide, by decide, by decide, by decide, by decide, by decide, by decide, by decide, by decide⟩
  have dc_ok : ChannelOK dc D C :=
    ⟨rfl, rfl, rfl, rfl, by decide, by decide, by decide, by decide, by decide, by decide, by decide, by decide, by decide⟩
  constructor
  · simp [G, C, A, D]
  · intro t ht; simp only [G, List.mem_cons, List.not_mem_nil, or_false] at ht
    rcases ht with rfl | rfl | rfl
    · exact ⟨by decide, rfl, by decide, by decide, by decide⟩
    · exact ⟨by decide, rfl, by decide, by decide, by decide⟩
    · exact ⟨by decide, rfl, by decide, by decide, by decide⟩
  · simp [G, C, A, D]
  · intro c hc; simp only [G, List.mem_cons, List.not_mem_nil, or_false] at hc
    rcases hc with rfl | rfl | rfl
    · exact ⟨by simp [G], by simp [G], ca_ok⟩
    · exact ⟨by simp [G], by simp [G], ad_ok⟩
    · exact ⟨by simp [G], by simp [G], dc_ok⟩
  · simp [G, ca, ad, dc]

/-- Certificates for the two event graphs met by K-Iter: ratio 1/2 with K = (1,1,1), 1 with K = (1,2,1). -/
def cands : List (List EvConstraint × (Event → ℚ)) :=
  [([⟨⟨0, 1, 1⟩, ⟨1, 1, 1⟩, 1/2, 1, 1⟩, ⟨⟨1, 1, 1⟩, ⟨2, 1, 1⟩, 0, 1, 2⟩, ⟨⟨2, 1, 1⟩, ⟨0, 1, 1⟩, 1, 1, 3⟩],
      fun e => if e.task = 0 then 0 else if e.task = 1 then 0 else 1),
   ([⟨⟨0, 1, 1⟩, ⟨0, 1, 1⟩, 1, 1, 0⟩],
      fun e => if e.task = 0 then 1 else if e.task = 1 then (if e.iter = 1 then 0 else 2) else 1)]

theorem run : (kiter (certified cands) G 10).map (fun o => o.map fun r => (r.K 0, r.K 1, r.K 2, r.throughput)) =
    some (some (1, 2, 1, 1)) := by
  decide +kernel

/-- No schedule of the graph has a period below 3/2. -/
theorem bound : ∀ Ω ∈ OrderedPeriods G, 3 / 2 ≤ Ω := by
  rintro Ω ⟨σ, hσ, hsus⟩
  have hC : C ∈ G.tasks := by simp [G]
  have hA : A ∈ G.tasks := by simp [G]
  have hD : D ∈ G.tasks := by simp [G]
  have one : ∀ (t : KTask), t = C ∨ t = A ∨ t = D → ∀ k, t.dur k = 1 := by
    rintro t (rfl | rfl | rfl) k <;> simp [KTask.dur, C, A, D, Nat.mod_one]
  have const : ∀ (x : Int) k, rate [x] k = x := by intro x k; simp [rate, Nat.mod_one]
  have cumc : ∀ (x : Int) k, cum (rate [x]) k = k * x := by intro x k; simp [cum, const]
  have h1 := hσ.channels (ca, C, A) (by simp [G])
  have h2 := hσ.channels (ad, A, D) (by simp [G])
  have h3 := hσ.channels (dc, D, C) (by simp [G])
  -- C(l) + 1 ≤ A(2l+2), A(2l) + 1 ≤ D(l), D(l) + 1 ≤ C(l+1)
  have a1 : ∀ l, σ 0 l + 1 ≤ σ 1 (2 * l + 2) := by
    intro l
    have := h1.requires (k := l) (l := 2 * l + 2) (fun k => by simp [ca, const]) (Re.gen_end_mono G_ok hσ hC) (Re.gen_mono G_ok hσ hA)
      (by simp only [ca, cumc]; push_cast; omega)
    simp only [one C (by simp)] at this
    exact this
  have a2 : ∀ l, σ 1 (2 * l) + 1 ≤ σ 2 l := by
    intro l
    have := h2.requires (k := 2 * l) (l := l) (fun k => by simp [ad, const]) (Re.gen_end_mono G_ok hσ hA) (Re.gen_mono G_ok hσ hD)
      (by simp only [ad, cumc]; push_cast; omega)
    simp only [one A (by simp)] at this
    exact this
  have a3 : ∀ l, σ 2 l + 1 ≤ σ 0 (l + 1) := by
    intro l
    have := h3.requires (k := l) (l := l + 1) (fun k => by simp [dc, const]) (Re.gen_end_mono G_ok hσ hD) (Re.gen_mono G_ok hσ hC)
      (by simp only [dc, cumc]; push_cast; omega)
    simp only [one D (by simp)] at this
    exact this
  have step : ∀ l, σ 0 l + 3 ≤ σ 0 (l + 2) := by
    intro l
    have b1 := a1 l
    have b2 := a2 (l + 1)
    have b3 := a3 (l + 1)
    rw [show 2 * (l + 1) = 2 * l + 2 by ring] at b2
    linarith
  have grow : ∀ j : ℕ, σ 0 0 + 3 * j ≤ σ 0 (2 * j) := by
    intro j
    induction j with
    | zero => simp
    | succ j ih =>
      have := step (2 * j)
      rw [show 2 * (j + 1) = 2 * j + 2 by ring]
      push_cast
      linarith
  obtain ⟨M, hM⟩ := hsus C hC
  have : (3 : ℚ) ≤ 2 * Ω := by
    refine archimedean_le (C := M - σ 0 0) fun j => ?_
    have b1 := grow j
    have b2 : σ 0 (2 * j) ≤ Ω * ((2 * j : ℕ) : ℚ) / (1 : Int) + M := hM (2 * j)
    push_cast at b2
    linarith
  linarith

/-- A vector and starting times for the period 3/2. -/
def K2 (i : Int) : ℕ := if i = 1 then 4 else 2

def S2 (e : Event) : ℚ :=
  if e.task = 0 then (if e.iter = 1 then 0 else 2)
  else if e.task = 1 then (if e.iter = 1 then 0 else if e.iter = 4 then 3 else 1)
  else (if e.iter = 1 then 1 else 2)

/-- **C100** fails as stated: on this graph, whose tasks `A` and `D` are as any task of an SDF3 file without self-loop,
K-Iter with an exact solver reports the throughput 1, while the best period of all schedules is 3/2. -/
theorem C100_kiter_optimistic :
    (∀ cs th p, certified cands cs = some (th, p) → ExactRatio cs th p) ∧
    (∃ r, kiter (certified cands) G 10 = some (some r) ∧ r.throughput = 1) ∧ IsLeast (OrderedPeriods G) (3 / 2) := by
  refine ⟨certified_exact cands, ?_, ?_, fun Ω hΩ => bound Ω hΩ⟩
  · obtain ⟨o, ho, h⟩ := Option.map_eq_some_iff.mp run
    obtain ⟨r, rfl, h⟩ := Option.map_eq_some_iff.mp h
    exact ⟨r, ho, congrArg (fun x => x.2.2.2) (Option.some.inj h)⟩
  · obtain ⟨cs, hcs⟩ := Re.graph_total G_ok (K := K2) (by intro i; unfold K2; split <;> decide)
    have hall : ∀ c ∈ cs, Satisfies S2 (3 / 2) c := by
      have h : (eventGraph (G.withK K2)).map (fun l => l.all fun c => decide (S2 c.src + c.d - 3 / 2 * c.w ≤ S2 c.dst)) =
          some true := by decide +kernel
      rw [hcs, Option.map_some, Option.some.injEq, List.all_eq_true] at h
      intro c hc
      have := h c hc
      rw [decide_eq_true_eq] at this
      exact this
    obtain ⟨σ, h1, h2, -⟩ := C100_schedule G_ok (K := K2) (by intro i; unfold K2; split <;> decide) hcs (S := S2) (Ω := 3 / 2)
      (by norm_num) hall (fun e _ => by unfold S2; split_ifs <;> norm_num) (by
        intro t ht _
        simp only [G, List.mem_cons, List.not_mem_nil, or_false] at ht
        rcases ht with rfl | rfl | rfl <;> simp [S2, K2, C, A, D] <;> norm_num)
    exact ⟨σ, h1, h2⟩

end ReExample

/-! ### A graph of two reentrant tasks on which K-Iter is exact -/

namespace ReExample2

def P : KTask := ⟨0, [2], [], 0, 1⟩
def Q : KTask := ⟨1, [3], [], 0, 1⟩
def pq : KChannel := ⟨1, [1], [1], [], [], 0, 1⟩
def qp : KChannel := ⟨2, [1], [1], [], [], 2, 1⟩
def G : BaseGraph := ⟨[P, Q], [(pq, P, Q), (qp, Q, P)]⟩

theorem G_ok : ReBaseOK G := by
  have pq_ok : ChannelOK pq P Q :=
    ⟨rfl, rfl, rfl, rfl, by decide, by decide, by decide, by decide, by decide, by decide, by decide, by decide, by decide⟩
  have qp_ok : ChannelOK qp Q P :=
    ⟨rfl, rfl, rfl, rfl, by decide, by decide, by decide, by decide, by decide, by decide, by decide, by decide, by decide⟩
  constructor
  · simp [G, P, Q]
  · intro t ht; simp only [G, List.mem_cons, List.not_mem_nil, or_false] at ht
    rcases ht with rfl | rfl
    · exact ⟨by decide, rfl, by decide, by decide, by decide⟩
    · exact ⟨by decide, rfl, by decide, by decide, by decide⟩
  · simp [G, P, Q]
  · intro c hc; simp only [G, List.mem_cons, List.not_mem_nil, or_false] at hc
    rcases hc with rfl | rfl
    · exact ⟨by simp [G], by simp [G], pq_ok⟩
    · exact ⟨by simp [G], by simp [G], qp_ok⟩
  · simp [G, pq, qp]

def cands : List (List EvConstraint × (Event → ℚ)) :=
  [([⟨⟨0, 1, 1⟩, ⟨1, 1, 1⟩, 0, 2, 1⟩, ⟨⟨1, 1, 1⟩, ⟨0, 1, 1⟩, 2, 3, 2⟩], fun e => if e.task = 0 then 0 else 2)]

theorem run : (kiter (certified cands) G 10).map (fun o => o.map fun r => r.throughput) = some (some (2 / 5)) := by
  decide +kernel

/-- Executions of the tasks overlap: a period of 5/2 is possible although the two durations add up to 5. -/
example : IsLeast (OrderedPeriods G) (5 / 2) := by
  obtain ⟨o, ho, h⟩ := Option.map_eq_some_iff.mp run
  obtain ⟨r, rfl, h⟩ := Option.map_eq_some_iff.mp h
  have h' : r.throughput = 2 / 5 := Option.some.inj h
  have := (C100_homogeneous G_ok _ (fun _ cs th p _ _ h => (certified_exact cands cs th p h).answer) 10 r ho (by
    intro t ht _
    simp only [G, List.mem_cons, List.not_mem_nil, or_false] at ht
    rcases ht with rfl | rfl <;> exact ⟨rfl, rfl⟩)).1 (by rw [h']; norm_num)
  rw [h'] at this
  convert this using 1
  norm_num

end ReExample2

end Kiter
