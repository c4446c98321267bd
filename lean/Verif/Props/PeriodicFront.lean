/-
C93 for the sizing function of the command: what the exploration by periodic schedules prints for a graph.
-/
import Verif.Props.PeriodicDSE
import Verif.Props.PeriodicSizing
import Verif.Props.FixedK

set_option autoImplicit false

namespace Kiter
open Finset

section
variable {B : BaseGraph}

/-! ### Slower schedules -/

theorem neverShort_slower {f v : ℕ → Int} {p : Int} {t d t' : ℕ → ℚ} {c : ℚ} (hc : 1 ≤ c) (hd : ∀ k, 0 ≤ d k)
    (h : NeverShort f v p (fun k => t k + d k) t') : NeverShort f v p (fun k => c * t k + d k) (fun k => c * t' k) := by
  intro x C hC
  have hc0 : 0 < c := lt_of_lt_of_le one_pos hc
  obtain ⟨P, h1, h2⟩ := h (x / c) C fun l hl => by rw [le_div_iff₀ hc0]; have := hC l hl; linarith
  refine ⟨P, fun k hk => ?_, h2⟩
  have h3 := h1 k hk
  rw [le_div_iff₀ hc0] at h3
  nlinarith [hd k, mul_le_mul_of_nonneg_right hc (hd k)]

/-- A periodic schedule can be slowed down. -/
theorem slower (hB : BaseOK B) {w : Fin B.channels.length → Int} {σ : Int → ℕ → ℚ} {Ω Ω' : ℚ} (hΩ : 0 < Ω) (hle : Ω ≤ Ω')
    (h : BoundedSchedule B w σ) (hp : PeriodicSchedule B σ Ω) :
    ∃ σ', BoundedSchedule B w σ' ∧ PeriodicSchedule B σ' Ω' := by
  have hc : 1 ≤ Ω' / Ω := by rw [le_div_iff₀ hΩ]; linarith
  have hc0 : 0 ≤ Ω' / Ω := by linarith
  have hdur : ∀ t ∈ B.tasks, ∀ k, 0 ≤ t.dur k := fun t ht => phaseDur_nonneg (hB.tasks t ht)
  refine ⟨fun t k => Ω' / Ω * σ t k, ⟨⟨fun t ht k => mul_nonneg hc0 (h.valid.nonneg t ht k), fun t ht k => ?_, fun c hcm => ?_⟩,
    fun i => ?_⟩, fun t ht k => ?_⟩
  · have h1 := h.valid.noOverlap t ht k
    have h2 := mul_le_mul_of_nonneg_left h1 hc0
    have h3 := mul_le_mul_of_nonneg_right hc (hdur t ht k)
    linarith
  · exact neverShort_slower hc (hdur _ (hB.channels c hcm).1) (h.valid.channels c hcm)
  · exact neverShort_slower hc (hdur _ (hB.channels _ (List.getElem_mem i.2)).2.1) (h.room i)
  · dsimp only
    rw [hp t ht k]
    field_simp

theorem rate_exists {l : List Int} (h : 0 < l.sum) : ∃ k, 0 < rate l k := by
  by_contra hcon
  push Not at hcon
  have : ∀ x ∈ l, x ≤ 0 := by
    intro x hx
    obtain ⟨i, hi, rfl⟩ := List.mem_iff_getElem.1 hx
    have := hcon i
    unfold rate at this
    rw [Nat.mod_eq_of_lt hi, List.getD_eq_getElem _ _ hi] at this
    exact this
  have hsum : l.sum ≤ 0 := by
    clear hcon h
    induction l with
    | nil => simp
    | cons a l ih =>
      rw [List.sum_cons]
      have := this a (by simp)
      have := ih fun x hx => by simp_all
      omega
  omega

/-- With positive durations every capacity is positive. -/
theorem capacity_pos (hB : BaseOK B) (hpos : ∀ t ∈ B.tasks, ∀ d ∈ t.durations, 0 < d) {w : Fin B.channels.length → Int}
    {σ : Int → ℕ → ℚ} (h : BoundedSchedule B w σ) (i : Fin B.channels.length) : 0 < w i := by
  classical
  obtain ⟨hs, ht, hok⟩ := hB.channels B.channels[i] (List.getElem_mem i.2)
  have hdur : ∀ k, 0 < B.channels[i].2.1.dur k := by
    intro k
    unfold KTask.dur
    have hlt := Nat.mod_lt k (hB.tasks _ hs).phases
    rw [List.getD_eq_getElem _ _ hlt]
    exact hpos _ hs _ (List.getElem_mem hlt)
  have hex := rate_exists hok.inPos
  have hk := Nat.find_spec hex
  have hmin : ∀ k < Nat.find hex, rate B.channels[i].1.inPhases k ≤ 0 := fun k hk => not_lt.1 (Nat.find_min hex hk)
  set k0 := Nat.find hex
  have hmono := (sched_end_mono hB hs (h.valid.noOverlap _ hs)).1
  obtain ⟨P, h1, h2⟩ := h.room i (σ B.channels[i].2.1.id k0) {k0} (by simp)
  rw [sum_singleton] at h2
  obtain ⟨P', h3, h4⟩ := h.valid.channels B.channels[i] (List.getElem_mem i.2) (σ B.channels[i].2.1.id k0) P fun l hl => by
    have := h1 l hl
    have := phaseDur_nonneg (hB.tasks _ ht) l
    dsimp only at *
    linarith
  have h5 : ∑ k ∈ P', rate B.channels[i].1.inPhases k ≤ 0 := by
    refine sum_nonpos fun k hk => hmin k ?_
    by_contra hge
    have := hmono (not_lt.1 hge)
    have := h3 k hk
    have := hdur k
    dsimp only at *
    linarith
  linarith

/-- The least memory of a period, over all capacities and periodic schedules with it. -/
def LeastMemory (B : BaseGraph) (tokenSizes : List Int) (Ω : ℚ) (M : Int) : Prop :=
  IsLeast {M | ∃ w σ, BoundedSchedule B w σ ∧ PeriodicSchedule B σ Ω ∧ M = memory B tokenSizes w} M

/-- What the exploration is given with `ILP` set: the total reported for each period, from a solver that answers correctly. -/
def SizesOf (B : BaseGraph) (tokenSizes : List Int) (ilp : Bool) (size : ℚ → Int) : Prop :=
  ∀ P, 0 < P → ∀ rows, periodicRows B P = some rows → ∃ sol r, SolverAnswer B tokenSizes rows ilp sol ∧
    periodicResult B tokenSizes ilp false sol = some r ∧ size P = r.total

/-- The cases of the sizing function: the least memory, or 0 when the period is not possible. -/
theorem size_cases (hB : BaseOK B) {tokenSizes : List Int} (hts : tokenSizes.length = B.channels.length) {size : ℚ → Int}
    (hs : SizesOf B tokenSizes true size) {P : ℚ} (hP : 0 < P) :
    LeastMemory B tokenSizes P (size P) ∨ size P = 0 ∧ ¬ ∃ w σ, BoundedSchedule B w σ ∧ PeriodicSchedule B σ P := by
  obtain ⟨rows, hrows, hiff⟩ := C74_feasible_iff hB hP true
  obtain ⟨sol, r, h1, h2, h3⟩ := hs P hP rows hrows
  cases sol with
  | none =>
    right
    cases h2
    exact ⟨h3, fun ⟨w, σ, a, b⟩ => h1 (hiff.2 ⟨σ, a.valid, b⟩)⟩
  | some v =>
    left
    obtain ⟨total, h4, h5⟩ := C75_least_memory hB hP hrows hts h1
    rw [h2] at h4; cases h4
    rw [h3]
    exact h5

theorem memory_pos (hB : BaseOK B) (hpos : ∀ t ∈ B.tasks, ∀ d ∈ t.durations, 0 < d) {tokenSizes : List Int}
    (hnn : ∀ x ∈ tokenSizes, 0 ≤ x) {w w' : Fin B.channels.length → Int} {σ σ' : Int → ℕ → ℚ} (h : BoundedSchedule B w σ)
    (h' : BoundedSchedule B w' σ') (hm : 0 < memory B tokenSizes w') : 0 < memory B tokenSizes w := by
  have hget : ∀ i : ℕ, 0 ≤ tokenSizes.getD i 0 := by
    intro i
    by_cases hi : i < tokenSizes.length
    · rw [List.getD_eq_getElem _ _ hi]; exact hnn _ (List.getElem_mem hi)
    · rw [List.getD_eq_default _ _ (not_lt.1 hi)]
  unfold memory at hm ⊢
  obtain ⟨i, -, hi⟩ := exists_lt_of_sum_lt (s := univ) (f := fun _ => (0 : Int))
    (g := fun i : Fin B.channels.length => w' i * tokenSizes.getD i 0) (by rw [sum_const_zero]; exact hm)
  have h1 := capacity_pos hB hpos h' i
  have h2 : 0 < tokenSizes.getD i 0 := by
    rcases eq_or_lt_of_le (hget i) with h0 | h0
    · rw [← h0, mul_zero] at hi; exact absurd hi (lt_irrefl _)
    · exact h0
  exact sum_pos' (fun j _ => mul_nonneg (capacity_pos hB hpos h j).le (hget j)) ⟨i, mem_univ i, mul_pos (capacity_pos hB hpos h i) h2⟩

theorem sizes_monotone (hB : BaseOK B) (hpos : ∀ t ∈ B.tasks, ∀ d ∈ t.durations, 0 < d) {tokenSizes : List Int}
    (hts : tokenSizes.length = B.channels.length) (hnn : ∀ x ∈ tokenSizes, 0 ≤ x) {size : ℚ → Int}
    (hs : SizesOf B tokenSizes true size) : Freq.MonotoneSizes size := by
  intro f f' hf hff hsz
  have hP' : 0 < 1 / f' := one_div_pos.2 (hf.trans_le hff)
  have hle : 1 / f' ≤ 1 / f := one_div_le_one_div_of_le hf hff
  rcases size_cases hB hts hs hP' with h1 | ⟨h1, -⟩
  · obtain ⟨w, σ, a, b, c⟩ := h1.1
    obtain ⟨σ', a', b'⟩ := slower hB hP' hle a b
    rcases size_cases hB hts hs (one_div_pos.2 hf) with h2 | ⟨-, h2⟩
    · obtain ⟨w2, σ2, a2, b2, c2⟩ := h2.1
      refine ⟨?_, ?_⟩
      · rw [c2]
        exact memory_pos hB hpos hnn a2 a (by rw [← c]; exact hsz)
      · rw [c]; exact h2.2 ⟨w, σ', a', b', rfl⟩
    · exact absurd ⟨w, σ', a', b'⟩ h2
  · omega

/-- A periodic schedule is a 1-periodic one. -/
theorem periodic_kperiod (hB : BaseOK B) {σ : Int → ℕ → ℚ} {Ω : ℚ} (hΩ : 0 ≤ Ω) (h : ValidGen B σ) (hp : PeriodicSchedule B σ Ω) :
    Ω ∈ KPeriods B fun _ => 1 := by
  have key : ∀ t ∈ B.tasks, ∀ k, execStart (fun e => σ e.task (e.phase - 1).toNat) Ω t 1 k = σ t.id k := by
    intro t ht k
    unfold execStart
    simp only [add_sub_cancel_right, Int.toNat_natCast, one_mul, Nat.cast_one, mul_one]
    have := per_mul (h := σ t.id) (fun k => hp t ht k) (k % t.durations.length) (k / t.durations.length)
    rw [Nat.mod_add_div'] at this
    rw [this]
  refine ⟨hΩ, fun e => σ e.task (e.phase - 1).toNat, ?_, ?_⟩
  · intro tk htk
    obtain ⟨t, ht, rfl⟩ := List.mem_map.mp htk
    intro k
    unfold execEnd
    dsimp only
    rw [key t ht, key t ht]
    exact h.noOverlap t ht k
  · intro c hc
    obtain ⟨e, he, rfl⟩ := List.mem_map.mp hc
    obtain ⟨s1, s2, -⟩ := hB.channels e he
    have h1 : execStart (fun e => σ e.task (e.phase - 1).toNat) Ω e.2.2 1 = σ e.2.2.id := funext (key _ s2)
    have h2 : execEnd (fun e => σ e.task (e.phase - 1).toNat) Ω e.2.1 1 = fun k => σ e.2.1.id k + e.2.1.dur k :=
      funext fun k => by unfold execEnd; rw [key _ s1]
    unfold ChannelSafe
    dsimp only
    rw [h1, h2]
    exact h.channels e he

/-- **C93 for the integer sizing.** The exploration of a graph with positive durations, whose 1-periodic throughput is `F`: each
line holds a period and the least memory of a periodic schedule with that period; lines go from less memory and longer periods to
more memory and shorter periods; and every periodic schedule with bounded channels, of a period up to 5000 times the
shortest one, is matched by a line that needs no more memory and is slower by less than `F / 5000`. -/
theorem C93_front_exact (hB : BaseOK B) (hpos : ∀ t ∈ B.tasks, ∀ d ∈ t.durations, 0 < d) {tokenSizes : List Int}
    (hts : tokenSizes.length = B.channels.length) (hnn : ∀ x ∈ tokenSizes, 0 ≤ x)
    {solve : List EvConstraint → Option (ℚ × List EvConstraint)} (hsolve : SolvesFor B (fun _ => 1) solve) {F : ℚ} {cc : List BChannel}
    (hk : kSchedule solve B (fun _ => 1) = some (F, cc)) (hF : 0 < F) {size : ℚ → Int} (hs : SizesOf B tokenSizes true size)
    {n : ℕ} {out : List (ℚ × Int)} (hout : Freq.explore size F n = some out) :
    (∀ p ∈ out, 0 < p.1 ∧ LeastMemory B tokenSizes p.1 p.2) ∧ out.Pairwise (fun x y => x.2 < y.2 ∧ y.1 < x.1) ∧
    ∀ w σ Ω, BoundedSchedule B w σ → PeriodicSchedule B σ Ω → 0 < memory B tokenSizes w → 0 < Ω → Ω ≤ 5000 / F →
      ∃ p ∈ out, p.2 ≤ memory B tokenSizes w ∧ 1 / Ω - F / 5000 < 1 / p.1 := by
  have hm := sizes_monotone hB hpos hts hnn hs
  refine ⟨fun p hp => ?_, Freq.C93_front hF hm hout, fun w σ Ω hw hσ hmem hΩ hle => ?_⟩
  · obtain ⟨h1, h2, h3⟩ := (Freq.C93_sound hF hout).2 p hp
    have hP : 0 < p.1 := lt_of_lt_of_le (one_div_pos.2 hF) h3
    refine ⟨hP, ?_⟩
    rcases size_cases hB hts hs hP with h | ⟨h, -⟩
    · rw [h2]; exact h
    · omega
  · have hlow : 1 / F ≤ Ω := (((C82_fixed_vector hB (fun _ => Nat.one_pos) hsolve hk).1 hF).1).2 (periodic_kperiod hB hΩ.le hw.valid hσ)
    have hsz : 0 < size Ω ∧ size Ω ≤ memory B tokenSizes w := by
      rcases size_cases hB hts hs hΩ with h | ⟨-, h⟩
      · obtain ⟨w2, σ2, a2, b2, c2⟩ := h.1
        refine ⟨?_, h.2 ⟨w, σ, hw, hσ, rfl⟩⟩
        rw [c2]
        exact memory_pos hB hpos hnn a2 hw hmem
      · exact absurd ⟨w, σ, hw, hσ⟩ h
    obtain ⟨p, hp, h1, h2⟩ := Freq.C93_complete hF hm hout (f := 1 / Ω)
      (by rw [le_div_iff₀ hΩ]; rw [le_div_iff₀ hF] at hle; linarith)
      (by rw [div_le_iff₀ hΩ]; rw [div_le_iff₀ hF] at hlow; linarith) (by rw [one_div_one_div]; exact hsz.1)
    rw [one_div_one_div] at h1
    exact ⟨p, hp, h1.trans hsz.2, h2⟩

/-- **C93 for the relaxed sizing**, which the command uses unless `ILP` is set: each line holds a period and the total of capacities
for which there is a periodic schedule with that period. -/
theorem C93_front_feasible (hB : BaseOK B) {tokenSizes : List Int} (hts : tokenSizes.length = B.channels.length) {ilp : Bool}
    {F : ℚ} (hF : 0 < F) {size : ℚ → Int} (hs : SizesOf B tokenSizes ilp size)
    {n : ℕ} {out : List (ℚ × Int)} (hout : Freq.explore size F n = some out) :
    ∀ p ∈ out, 0 < p.1 ∧ ∃ w σ, BoundedSchedule B w σ ∧ PeriodicSchedule B σ p.1 ∧ p.2 = memory B tokenSizes w := by
  intro p hp
  obtain ⟨h1, h2, h3⟩ := (Freq.C93_sound hF hout).2 p hp
  have hP : 0 < p.1 := lt_of_lt_of_le (one_div_pos.2 hF) h3
  refine ⟨hP, ?_⟩
  obtain ⟨rows, hrows, -⟩ := C74_feasible_iff hB hP ilp
  obtain ⟨sol, r, g1, g2, g3⟩ := hs p.1 hP rows hrows
  cases sol with
  | none => cases g2; rw [h2, g3] at h1; exact absurd h1 (lt_irrefl _)
  | some v =>
    obtain ⟨sizes, e1, e2, σ, e3, e4, -⟩ := C73_sizes_suffice hB hP hrows (LPOptimal.feasible g1)
    refine ⟨_, σ, e3, e4, ?_⟩
    unfold periodicResult at g2
    simp only [Bool.false_eq_true, if_false, e1, Option.bind_eq_bind, Option.bind_some, Option.pure_def, Option.some.injEq] at g2
    subst g2
    rw [h2, g3]
    exact totalSize_eq e2 hts

/-! ### The hypotheses can be met -/

/-- A correct integer solver exists, for every graph with non-negative token sizes. -/
theorem integer_solver (tokenSizes : List Int) (hnn : ∀ x ∈ tokenSizes, 0 ≤ x) (rows : List LPRow) :
    ∃ sol, SolverAnswer B tokenSizes rows true sol := by
  classical
  by_cases hf : ∃ v, LPFeasible rows true v
  swap
  · exact ⟨none, hf⟩
  have hget : ∀ i : ℕ, 0 ≤ tokenSizes.getD i 0 := by
    intro i
    by_cases hi : i < tokenSizes.length
    · rw [List.getD_eq_getElem _ _ hi]; exact hnn _ (List.getElem_mem hi)
    · rw [List.getD_eq_default _ _ (not_lt.1 hi)]
  have hval : ∀ v, LPFeasible rows true v → ∃ m : ℕ, objective B tokenSizes v = m := by
    intro v hv
    choose z hz using hv.moInt rfl
    have hz0 : ∀ i, 0 ≤ z i := fun i => by have := hv.mo i; rw [hz] at this; exact_mod_cast this
    refine ⟨(∑ i : Fin B.channels.length, z i * tokenSizes.getD i 0).toNat, ?_⟩
    have h0 : 0 ≤ ∑ i : Fin B.channels.length, z i * tokenSizes.getD i 0 := sum_nonneg fun i _ => mul_nonneg (hz0 i) (hget i)
    have : ((∑ i : Fin B.channels.length, z i * tokenSizes.getD i 0).toNat : ℚ) =
        ((∑ i : Fin B.channels.length, z i * tokenSizes.getD i 0 : Int) : ℚ) := by
      exact_mod_cast congrArg (Int.cast (R := ℚ)) (Int.toNat_of_nonneg h0)
    rw [this]
    unfold objective
    push_cast
    exact sum_congr rfl fun i _ => by rw [hz]
  have hex : ∃ m : ℕ, ∃ v, LPFeasible rows true v ∧ objective B tokenSizes v = m := by
    obtain ⟨v, hv⟩ := hf
    obtain ⟨m, hm⟩ := hval v hv
    exact ⟨m, v, hv, hm⟩
  obtain ⟨v, hv, hm⟩ := Nat.find_spec hex
  refine ⟨some v, hv, fun v' hv' => ?_⟩
  obtain ⟨m', hm'⟩ := hval v' hv'
  rw [hm, hm']
  exact_mod_cast Nat.find_min' hex ⟨v', hv', hm'⟩

/-- So does a sizing function for every graph. -/
theorem sizes_exist (hB : BaseOK B) (tokenSizes : List Int) (hnn : ∀ x ∈ tokenSizes, 0 ≤ x) :
    ∃ size, SizesOf B tokenSizes true size := by
  classical
  have key : ∀ P : ℚ, ∃ z : Int, 0 < P → ∀ rows, periodicRows B P = some rows → ∃ sol r, SolverAnswer B tokenSizes rows true sol ∧
      periodicResult B tokenSizes true false sol = some r ∧ z = r.total := by
    intro P
    by_cases hP : 0 < P
    swap
    · exact ⟨0, fun h => absurd h hP⟩
    obtain ⟨rows, hrows, -⟩ := C74_feasible_iff hB hP true
    obtain ⟨sol, hsol⟩ := integer_solver (B := B) tokenSizes hnn rows
    cases sol with
    | none => exact ⟨0, fun _ rows' h' => ⟨none, ⟨true, 0, []⟩, by rw [hrows] at h'; cases h'; exact hsol, rfl, rfl⟩⟩
    | some v =>
      obtain ⟨sizes, e1, -⟩ := C73_sizes_suffice hB hP hrows (LPOptimal.feasible hsol)
      refine ⟨totalSize sizes tokenSizes, fun _ rows' h' => ⟨some v, ⟨true, totalSize sizes tokenSizes, []⟩,
        by rw [hrows] at h'; cases h'; exact hsol, ?_, rfl⟩⟩
      unfold periodicResult
      simp [e1]
  choose size hsize using key
  exact ⟨size, fun P hP rows h => hsize P hP rows h⟩

end

open Howard in
/-- The hypotheses hold for a graph of two tasks with the solver of the commands, for tokens of size 4: some line of the
exploration needs at most 12 and is almost as fast as the period 5. -/
example : ∃ size F cc out, SizesOf BufferExample.G [4] true size ∧
    kSchedule (solver (1 / 10 ^ 19) (10 ^ 300) endpoints) BufferExample.G (fun _ => 1) = some (F, cc) ∧ F = 1 / 4 ∧
    (∀ n, 32767 ≤ n → Freq.explore size F n = some out) ∧ ∃ p ∈ out, p.2 ≤ 12 ∧ 1 / 5 - F / 5000 < 1 / p.1 := by
  have hpos : ∀ t ∈ BufferExample.G.tasks, ∀ d ∈ t.durations, 0 < d := by decide +kernel
  obtain ⟨size, hs⟩ := sizes_exist BufferExample.G_ok [4] (by decide)
  have hrun : (kSchedule (solver (1 / 10 ^ 19) (10 ^ 300) endpoints) BufferExample.G (fun _ => 1)).map (fun r => r.1) = some (1 / 4) := by
    decide +kernel
  obtain ⟨⟨F, cc⟩, hk, hF⟩ := Option.map_eq_some_iff.mp hrun
  dsimp only at hF
  have hF0 : 0 < F := by rw [hF]; norm_num
  have hsolve : SolvesFor BufferExample.G (fun _ => 1) (solver (1 / 10 ^ 19) (10 ^ 300) endpoints) := by
    intro cs th p hcs hs
    have hL : ((eventGraph (BufferExample.G.withK fun _ => 1)).map fun cs => (endpoints cs).length).getD 0 ≤ 7 := by decide +kernel
    rw [hcs] at hL
    refine solver_answer (L := 7) BufferExample.G_ok hpos (by norm_num) (by decide +kernel) (fun _ => Nat.one_pos) ⟨cs, hcs, fun _ => Iff.rfl⟩
      ⟨List.nodup_dedup _, fun e he => ?_⟩ hL hs
    constructor <;> exact List.mem_dedup.mpr (List.mem_flatMap.mpr ⟨e, he, by simp⟩)
  obtain ⟨out, hout⟩ := Freq.C93_terminates size hF0
  refine ⟨size, F, cc, out, hs, hk, hF, hout, ?_⟩
  obtain ⟨sizes, e1, e2, σ, e3, e4, -⟩ := C73_sizes_suffice BufferExample.G_ok (by norm_num) BufferExample.rows5 BufferExample.sol5_feasible
  have h3 : bufferSizes true BufferExample.sol5 0 BufferExample.G.channels = some [3] := by decide +kernel
  rw [h3] at e1; cases e1
  have hm : memory BufferExample.G [4] (fun i => [3].getD i 0) = 12 := by decide +kernel
  obtain ⟨p, hp, h1, h2⟩ := (C93_front_exact BufferExample.G_ok hpos rfl (by decide) hsolve hk hF0 hs (hout 32767 le_rfl)).2.2 _ σ 5 e3 e4
    (by rw [hm]; norm_num) (by norm_num) (by rw [hF]; norm_num)
  exact ⟨p, hp, by rw [← hm]; exact h1, h2⟩

namespace FrontExample
def A : KTask := ⟨0, [1], [], 1, 1⟩
def B : KTask := ⟨1, [1], [], 1, 1⟩
def fwd : KChannel := ⟨1, [1], [1], [], [], 0, 1⟩
def bwd : KChannel := ⟨2, [1], [1], [], [], 0, 1⟩
/-- Two tasks that wait for each other. -/
def dead : BaseGraph := ⟨[A, B], [(fwd, A, B), (bwd, B, A)]⟩

open Howard in
/-- **C93, deadlocked graphs.** On a circuit without tokens the 1-periodic throughput is 0, and the exploration never ends, whatever
the sizing function is. -/
theorem C93_dead : ∃ cc, kSchedule (solver (1 / 10 ^ 19) (10 ^ 300) endpoints) dead (fun _ => 1) = some (0, cc) ∧
    ∀ size n, Freq.explore size 0 n = none := by
  have h : (kSchedule (solver (1 / 10 ^ 19) (10 ^ 300) endpoints) dead (fun _ => 1)).map (fun r => r.1) = some 0 := by decide +kernel
  obtain ⟨⟨F, cc⟩, hk, hF⟩ := Option.map_eq_some_iff.mp h
  dsimp only at hF
  subst hF
  exact ⟨cc, hk, Freq.C93_diverges⟩

end FrontExample

end Kiter
