/-
C104: the exact throughput commands agree with each other, and no periodic command reports more.
-/
import Verif.Props.PeriodicLP
import Verif.Props.DeGrooteClean
import Verif.Props.BufferlessK
import Verif.Props.SPSchedule
import Verif.Props.EnginesAgree
import Verif.Props.Compare

set_option autoImplicit false

namespace Kiter

section
open Finset

/-- A valid K-periodic schedule sustains its period. -/
theorem kperiods_sustainable {B : BaseGraph} (hB : BaseOK B) {K : Int → ℕ} (hK : ∀ i, 0 < K i) : KPeriods B K ⊆ SustainablePeriods B := by
  rintro Ω ⟨h0, S, hS⟩
  refine sustainable_of_starts hB (valid_execStart.mp hS) fun t ht => ?_
  have hP := (hB.tasks t ht).phases
  have hKP : 0 < K t.id * t.durations.length := Nat.mul_pos (hK _) hP
  refine ⟨∑ x ∈ range (K t.id * t.durations.length), |S (evAt t x)|, fun k => ?_⟩
  set x := k % (K t.id * t.durations.length) with hx
  have hxlt : x < K t.id * t.durations.length := Nat.mod_lt _ hKP
  have hk : k = x + (k / (K t.id * t.durations.length)) * (K t.id * t.durations.length) := by rw [hx, Nat.mod_add_div']
  have h1 : execStart S Ω t (K t.id) k = S (evAt t x) + (k / (K t.id * t.durations.length) : ℕ) *
      (Ω * (t.durations.length * K t.id) / t.ni) := by
    conv_lhs => rw [hk]
    rw [per_mul (fun k => execStart_period (S := S) (Ω := Ω) hP (hK t.id) k), execStart_first hxlt]
  rw [h1]
  have h2 : S (evAt t x) ≤ ∑ x ∈ range (K t.id * t.durations.length), |S (evAt t x)| :=
    (le_abs_self _).trans (Finset.single_le_sum (f := fun x => |S (evAt t x)|) (fun y _ => abs_nonneg _) (by simpa using hxlt))
  have hni : (0 : ℚ) < t.ni := by exact_mod_cast (hB.tasks t ht).ni
  have h3 : ((k / (K t.id * t.durations.length) : ℕ) : ℚ) * (Ω * (t.durations.length * K t.id) / t.ni) ≤ Ω * k / t.ni := by
    have h4 : ((k / (K t.id * t.durations.length) : ℕ) : ℚ) * (K t.id * t.durations.length) ≤ k := by
      exact_mod_cast Nat.div_mul_le_self k (K t.id * t.durations.length)
    have : ((k / (K t.id * t.durations.length) : ℕ) : ℚ) * (Ω * (t.durations.length * K t.id) / t.ni)
        = Ω / t.ni * (((k / (K t.id * t.durations.length) : ℕ) : ℚ) * (K t.id * t.durations.length)) := by ring
    rw [this]
    have h5 : Ω * (k : ℚ) / t.ni = Ω / t.ni * k := by ring
    rw [h5]
    exact mul_le_mul_of_nonneg_left h4 (by positivity)
  linarith

end

/-- A strictly periodic schedule is a 1-periodic one. -/
theorem strict_periods {B : BaseGraph} (hB : BaseOK B) (hT : B.tasks ≠ []) : StrictPeriods B ⊆ KPeriods B fun _ => 1 := by
  intro Ω hΩ
  obtain ⟨rs, hrs, -⟩ := realRows_spec hB
  obtain ⟨r, hr, -⟩ := C83_rows_iff_valid hB (K := fun _ => 1) (fun _ => Nat.one_pos)
  obtain ⟨v, ⟨n, h⟩, rfl⟩ := (real_feasible_iff hB hT hrs Ω).mpr hΩ
  refine (lp_feasible_iff hB (K := fun _ => 1) (fun _ => Nat.one_pos) hr _).mp ⟨v, ⟨n, ?_⟩, rfl⟩
  unfold realRows at hrs
  split at hrs
  · simp at hrs
  · obtain ⟨f, hf, hrs⟩ := Option.bind_eq_some_iff.mp hrs
    obtain ⟨r', hr', hrs⟩ := Option.bind_eq_some_iff.mp hrs
    rw [hr] at hr'; cases hr'
    cases hrs
    exact ((srows_append ..).mp h).2

/-- What an exact command has to report: the inverse of the least period that any schedule sustains, or something that is not positive
when the graph deadlocks. -/
def Reports (B : BaseGraph) (th : ℚ) : Prop :=
  (0 < th → IsLeast (SustainablePeriods B) (1 / th)) ∧ (th ≤ 0 → ¬ ∃ σ, ValidGen B σ)

theorem reports_unique {B : BaseGraph} {a b : ℚ} (ha : Reports B a) (hb : Reports B b) : (0 < a ↔ 0 < b) ∧ (0 < a → a = b) := by
  have key : ∀ {a b : ℚ}, Reports B a → Reports B b → 0 < a → 0 < b := by
    intro a b ha hb h
    by_contra hn
    obtain ⟨σ, hσ, -⟩ := (ha.1 h).1
    exact hb.2 (not_lt.mp hn) ⟨σ, hσ⟩
  refine ⟨⟨key ha hb, key hb ha⟩, fun h => ?_⟩
  have := (ha.1 h).unique (hb.1 (key ha hb h))
  have h3 := congrArg (fun x => 1 / x) this
  simpa using h3

/-- Answers of the exact commands on `B`, as throughputs. `mcrp` is the solver of the critical circuit, `lp` the linear programming
solver. -/
inductive ExactAnswer (B : BaseGraph) (mcrp : List EvConstraint → Option (ℚ × List EvConstraint))
    (lp : List SVar → List SRow → Option (SVar → ℚ)) : ℚ → Prop
  /-- KPeriodicThroughput -/
  | kPeriodic (fuel : ℕ) (r : KIterResult) (h : kiter mcrp B fuel = some (some r)) : ExactAnswer B mcrp lp r.throughput
  /-- NKPeriodicThroughput, EGN -/
  | nPeriodic (th : ℚ) (cc : List BChannel) (h : kSchedule mcrp B (nVector B) = some (th, cc)) : ExactAnswer B mcrp lp th
  /-- KPeriodicScheduling -/
  | scheduling (fuel : ℕ) (hf : primeBound B < fuel) (r : SPResult) (K : Int → ℕ) (h : kpScheduling mcrp B fuel = some (some (r, K))) :
      ExactAnswer B mcrp lp (1 / r.omega)
  /-- BufferlessKPeriodicScheduling -/
  | bufferless (fuel : ℕ) (th : ℚ) (K : Int → ℕ) (l : List TaskSchedule) (h : blScheduling mcrp B false false fuel = some (some (th, K, l))) :
      ExactAnswer B mcrp lp th
  /-- LPN, when the program has a solution -/
  | lpn (s : LPSchedule) (h : lpSchedule lp B (nVector B) = some s) (hp : 0 < s.period) : ExactAnswer B mcrp lp (1 / s.period)
  /-- deGrooteThroughput -/
  | deGroote (hB : SdfOK B) (cs p : List EvConstraint) (r : ℚ) (h : generateLCG B = some cs) (hp : MaxRatio cs r p) (hr : 0 < r) :
      ExactAnswer B mcrp lp (1 / r)
  /-- deGrooteCleanThroughput -/
  | deGrooteClean (hB : SdfOK B) (fuel : ℕ) (cs cs' p : List EvConstraint) (r : ℚ) (h0 : generateLCG B = some cs) (hf : cs.length < fuel)
      (h : cleanLCG B fuel = some cs') (hp : MaxRatio cs' r p) (hr : 0 < r) : ExactAnswer B mcrp lp (1 / r)

/-- Answers of the periodic commands. -/
inductive PeriodicAnswer (B : BaseGraph) (mcrp : List EvConstraint → Option (ℚ × List EvConstraint))
    (lp : List SVar → List SRow → Option (SVar → ℚ)) : ℚ → Prop
  /-- 1PeriodicThroughput, 2PeriodicThroughput, EG1, PrintKPeriodicScheduling with any vector -/
  | fixed (K : Int → ℕ) (hK : ∀ i, 0 < K i) (th : ℚ) (cc : List BChannel) (h : kSchedule mcrp B K = some (th, cc)) : PeriodicAnswer B mcrp lp th
  /-- LP1, and with any other vector -/
  | lp1 (K : Int → ℕ) (hK : ∀ i, 0 < K i) (s : LPSchedule) (h : lpSchedule lp B K = some s) (hp : 0 < s.period) :
      PeriodicAnswer B mcrp lp (1 / s.period)
  /-- SPeriodicThroughput, ASPeriodicThroughput -/
  | strict (useMax : Bool) (cs p : List EvConstraint) (th : ℚ) (hcs : generateSP B useMax = some cs) (h : mcrp cs = some (th, p)) :
      PeriodicAnswer B mcrp lp th
  /-- REALLP1 -/
  | real (s : LPSchedule) (h : realSchedule lp B = some s) (hp : 0 < s.period) : PeriodicAnswer B mcrp lp (1 / s.period)
  /-- BufferlessKPeriodicScheduling with options -/
  | bufferless (stop prev : Bool) (fuel : ℕ) (th : ℚ) (K : Int → ℕ) (l : List TaskSchedule)
      (h : blScheduling mcrp B stop prev fuel = some (some (th, K, l))) : PeriodicAnswer B mcrp lp th

/-- The two solvers do their job on the problems made from `B`. -/
structure Solvers (B : BaseGraph) (mcrp : List EvConstraint → Option (ℚ × List EvConstraint))
    (lp : List SVar → List SRow → Option (SVar → ℚ)) : Prop where
  events : ∀ K cs th p, (∀ i, 0 < K i) → (∃ cs0, eventGraph (B.withK K) = some cs0 ∧ ∀ c, c ∈ cs ↔ c ∈ cs0) → mcrp cs = some (th, p) → CycleAnswer cs th p
  strict : ∀ m cs th p, generateSP B m = some cs → mcrp cs = some (th, p) → CycleAnswer cs th p
  rows : ∀ K rs, (∀ i, 0 < K i) → lpRows B K = some rs → SSolves lp (lpColumns B K) rs
  real : ∀ rs, realRows B = some rs → SSolves lp (lpColumns B fun _ => 1) rs

section
variable {B : BaseGraph} {mcrp : List EvConstraint → Option (ℚ × List EvConstraint)} {lp : List SVar → List SRow → Option (SVar → ℚ)}

theorem exact_reports (hB : BaseOK B) (hpos : ∀ t ∈ B.tasks, ∀ d ∈ t.durations, 0 < d) (hT : B.tasks ≠ [])
    (hids : (B.tasks.map KTask.id).Nodup) (hs : Solvers B mcrp lp) {a : ℚ} (h : ExactAnswer B mcrp lp a) : Reports B a := by
  have hsf : ∀ K, (∀ i, 0 < K i) → SolvesFor B K mcrp := fun K hK cs th p hcs h => hs.events K cs th p hK ⟨cs, hcs, fun _ => Iff.rfl⟩ h
  cases h with
  | kPeriodic fuel r h =>
    have := C52_kiter_verdict hB mcrp (fun K cs th p hK hcs h => hs.events K cs th p hK.1 hcs h) fuel r h
    exact ⟨fun h => (this.1 h).1, this.2⟩
  | nPeriodic th cc h => exact C82_nperiodic_optimal hB (hsf _ (nVector_pos hB)) h
  | scheduling fuel hf r K h =>
    obtain ⟨h1, h2, h3⟩ := C92_kperiodic hB (fun K cs th p hK hcs h => hs.events K cs th p hK.1 hcs h) hf h
    refine ⟨fun h => ?_, fun h => ?_⟩
    · rw [one_div_one_div]
      exact (h2 (one_div_pos.mp h)).2.1
    · refine (h3 (lt_of_le_of_ne ?_ h1)).2
      by_contra hn
      exact absurd (one_div_pos.mpr (not_le.mp hn)) (not_lt.mpr h)
  | bufferless fuel th K l h =>
    have := C102_without_options hB hids (fun K cs th p hK hcs h => hs.events K cs th p hK.1 hcs h) h
    exact ⟨fun h => (this.1 h).1, this.2⟩
  | lpn s h hp =>
    obtain ⟨cs, hcs⟩ := eventGraph_total (withK_ok hB (K := nVector B) (fun t _ => nVector_pos hB _))
    have hex : SolvesFor B (nVector B) exhaustive := fun cs th p hcs h =>
      (exhaustive_event_pos hB hpos (nVector_pos hB) ⟨cs, hcs, fun _ => Iff.rfl⟩).1 th p h
    obtain ⟨q, hq⟩ := (exhaustive_event_pos hB hpos (nVector_pos hB) ⟨cs, hcs, fun _ => Iff.rfl⟩).2 hT
    have hk : kSchedule exhaustive B (nVector B) = some (q.1, criticalEdges B q.2) := by
      unfold kSchedule
      rw [hcs]
      simp [hq]
    obtain ⟨h1, h2⟩ := C83_lpn_optimal hB hT (hs.rows (nVector B) · (nVector_pos hB)) hex hk h
    refine ⟨fun _ => ?_, fun h0 => absurd (one_div_pos.mpr hp) (not_lt.mpr h0)⟩
    rw [one_div_one_div]
    by_cases h0 : 0 < q.1
    · exact h1 h0
    · exact absurd (h2 (not_lt.mp h0)).1 hp.ne'
  | deGroote hB' cs p r h hp hr =>
    refine ⟨fun _ => ?_, fun h0 => absurd (one_div_pos.mpr hr) (not_lt.mpr h0)⟩
    rw [one_div_one_div]
    exact C48_optimal hB' h hp
  | deGrooteClean hB' fuel cs cs' p r h0 hf h hp hr =>
    refine ⟨fun _ => ?_, fun h0 => absurd (one_div_pos.mpr hr) (not_lt.mpr h0)⟩
    rw [one_div_one_div]
    obtain ⟨cs2, e, -, h3⟩ := C98_same_throughput hB' h0 hf
    rw [h] at e; cases e
    exact h3 r p hp

/-- **C104** Any two exact commands agree: one finds a deadlock exactly when the other does, and otherwise they report the same
throughput. -/
theorem C104_exact_methods_agree (hB : BaseOK B) (hpos : ∀ t ∈ B.tasks, ∀ d ∈ t.durations, 0 < d) (hT : B.tasks ≠ [])
    (hids : (B.tasks.map KTask.id).Nodup) (hs : Solvers B mcrp lp) {a b : ℚ} (ha : ExactAnswer B mcrp lp a) (hb : ExactAnswer B mcrp lp b) :
    (0 < a ↔ 0 < b) ∧ (0 < a → a = b) :=
  reports_unique (exact_reports hB hpos hT hids hs ha) (exact_reports hB hpos hT hids hs hb)

/-- A positive answer of a periodic command is the throughput of a valid schedule. -/
theorem periodic_sustainable (hB : BaseOK B) (hT : B.tasks ≠ []) (hids : (B.tasks.map KTask.id).Nodup) (hs : Solvers B mcrp lp) {a : ℚ}
    (h : PeriodicAnswer B mcrp lp a) (ha : 0 < a) : 1 / a ∈ SustainablePeriods B := by
  have hsf : ∀ K, (∀ i, 0 < K i) → SolvesFor B K mcrp := fun K hK cs th p hcs h => hs.events K cs th p hK ⟨cs, hcs, fun _ => Iff.rfl⟩ h
  cases h with
  | fixed K hK th cc h => exact ((C82_fixed_vector hB hK (hsf K hK) h).1 ha).2
  | lp1 K hK s h hp =>
    obtain ⟨s', h', hc⟩ := C83_lp_optimal hB hT hK (hs.rows K · hK)
    rw [h] at h'; cases h'
    rw [one_div_one_div]
    rcases hc with hc | ⟨-, h0⟩
    · exact kperiods_sustainable hB hK hc.1
    · exact absurd h0 hp.ne'
  | strict useMax cs p th hcs h =>
    have hc := hs.strict useMax cs a p hcs h
    exact C49_never_beats_optimum hB hcs ⟨hc.circuit, hc.posD, by rw [← hc.ratio]; exact mul_pos hc.posD ha, hc.ratio, hc.best⟩
  | real s h hp =>
    obtain ⟨s', h', hc⟩ := C83_real_optimal hB hT hs.real
    rw [h] at h'; cases h'
    rw [one_div_one_div]
    rcases hc with hc | ⟨-, h0⟩
    · exact kperiods_sustainable hB (fun _ => Nat.one_pos) (strict_periods hB hT hc.1)
    · exact absurd h0 hp.ne'
  | bufferless stop prev fuel th K l h =>
    have hsv := fun (K : Int → ℕ) cs th p (hK : (∀ i, 0 < K i) ∧ ∀ t ∈ B.tasks, K t.id ∣ reps t) hcs h => hs.events K cs th p hK.1 hcs h
    exact kperiods_sustainable hB (blScheduling_some hB hids hsv h).1.ok.1 (C102_any_options hB hids hsv h ha).2.1.1

/-- **C104** No periodic command reports more than an exact one, and none reports a throughput for a graph that an exact one finds
deadlocked. -/
theorem C104_periodic_below_exact (hB : BaseOK B) (hpos : ∀ t ∈ B.tasks, ∀ d ∈ t.durations, 0 < d) (hT : B.tasks ≠ [])
    (hids : (B.tasks.map KTask.id).Nodup) (hs : Solvers B mcrp lp) {a b : ℚ} (ha : PeriodicAnswer B mcrp lp a) (hb : ExactAnswer B mcrp lp b)
    (h0 : 0 < a) : 0 < b ∧ a ≤ b := by
  have h1 := periodic_sustainable hB hT hids hs ha h0
  have h2 := exact_reports hB hpos hT hids hs hb
  have hb0 : 0 < b := by
    by_contra hn
    obtain ⟨σ, hσ, -⟩ := h1
    exact h2.2 (not_lt.mp hn) ⟨σ, hσ⟩
  refine ⟨hb0, ?_⟩
  have := (h2.1 hb0).2 h1
  rwa [div_le_div_iff₀ hb0 h0, one_mul, one_mul] at this

/-- **C104** Strictly periodic throughputs are at most 1-periodic ones, and those at most the ones of any other vector. -/
theorem C104_strict_below_periodic (hB : BaseOK B) (hT : B.tasks ≠ []) (hs : Solvers B mcrp lp) {K : Int → ℕ} (hK : ∀ i, 0 < K i) {useMax : Bool}
    {cs p : List EvConstraint} {th th1 thK : ℚ} {cc1 ccK : List BChannel} (hcs : generateSP B useMax = some cs) (h : mcrp cs = some (th, p))
    (h1 : kSchedule mcrp B (fun _ => 1) = some (th1, cc1)) (h2 : kSchedule mcrp B K = some (thK, ccK)) (h0 : 0 < th) : th ≤ th1 ∧ th1 ≤ thK := by
  have hsf : ∀ K, (∀ i, 0 < K i) → SolvesFor B K mcrp := fun K hK cs th p hcs h => hs.events K cs th p hK ⟨cs, hcs, fun _ => Iff.rfl⟩ h
  have hone : ∀ i : Int, 0 < (fun _ : Int => 1) i := fun _ => Nat.one_pos
  have hc := hs.strict useMax cs th p hcs h
  have hmem := strict_periods hB hT (sp_attained hB hcs ⟨hc.circuit, hc.posD, by rw [← hc.ratio]; exact mul_pos hc.posD h0, hc.ratio, hc.best⟩)
  obtain ⟨a, b⟩ := C82_fixed_vector hB hone (hsf _ hone) h1
  have hth1 : 0 < th1 := by
    by_contra hn
    rw [b (not_lt.mp hn)] at hmem
    exact hmem
  have := (a hth1).1.2 hmem
  rw [div_le_div_iff₀ hth1 h0, one_mul, one_mul] at this
  exact ⟨this, C82_monotone hB hone hK (fun t _ => one_dvd _) (hsf _ hone) (hsf K hK) h1 h2 hth1⟩

/-- **C104** The self-timed execution (SymbExec) agrees with every exact command. -/
theorem C104_self_timed_agrees {nV nE : ℕ} {g : Sim.Graph nV nE} {task : Fin nV → KTask} {chan : Fin nE → KChannel} (hsame : Sim.SameGraph g B task chan)
    (hg : Sim.OK g) (hgpos : ∀ a, ∀ d ∈ g.dur a, 0 < d) (hgd : Sim.Guarded g none) (hbal : Sim.Balanced g) {c : Sim.Cfg nV nE}
    {m : Sim.Machine nV nE} (hstart : Sim.start g none true = some (c, m))
    (hB : BaseOK B) (hpos : ∀ t ∈ B.tasks, ∀ d ∈ t.durations, 0 < d) (hT : B.tasks ≠ [])
    (hids : (B.tasks.map KTask.id).Nodup) (hs : Solvers B mcrp lp) {b : ℚ} (hb : ExactAnswer B mcrp lp b) (n : ℕ) :
    (∀ thr, (Sim.run c m n).pc = .recurrent (some thr) → thr = b) ∧ ((Sim.run c m n).pc = .deadlock → b ≤ 0) :=
  Sim.engines_agree hsame hg hgpos hgd hbal hstart (exact_reports hB hpos hT hids hs hb) n

/-! ### The solvers exist -/

/-- On the graphs of the strictly periodic analysis the exhaustive solver answers, and correctly. -/
theorem exhaustive_strict (hB : BaseOK B) (hpos : ∀ t ∈ B.tasks, ∀ d ∈ t.durations, 0 < d) {useMax : Bool} {cs : List EvConstraint}
    (hcs : generateSP B useMax = some cs) :
    (∀ th p, exhaustive cs = some (th, p) → CycleAnswer cs th p) ∧ (B.tasks ≠ [] → ∃ r, exhaustive cs = some r) := by
  have hd := sp_durations hB hpos hcs
  have h1 : ∀ p u, p ≠ [] → IsWalk cs u p u → 0 < totalD p := by
    intro p u hne hp
    unfold totalD
    refine List.sum_pos _ (fun x hx => ?_) (by simpa using hne)
    obtain ⟨e, he, rfl⟩ := List.mem_map.mp hx
    exact hd e (Howard.walk_srcs _ _ _ hp e he).1
  refine ⟨fun th p h => exhaustive_answer h1 h, fun hne => exhaustive_total h1 ?_⟩
  obtain ⟨t, ht⟩ := List.exists_mem_of_ne_nil _ hne
  unfold generateSP at hcs
  simp only [Option.bind_eq_bind] at hcs
  obtain ⟨a, ha, hcs⟩ := Option.bind_eq_some_iff.mp hcs
  obtain ⟨b, hb, hcs⟩ := Option.bind_eq_some_iff.mp hcs
  cases hcs
  obtain ⟨x, hx⟩ : ∃ x, spSelf t = some x := by
    obtain ⟨x, hx, -⟩ := strict_noOverlap (hB.tasks t ht).phases (hB.tasks t ht).durNonneg (hB.tasks t ht).ni (fun _ => 0) 0
    exact ⟨x, hx⟩
  have hx' := hx
  unfold spSelf at hx'
  simp only [Option.bind_eq_bind] at hx'
  obtain ⟨m, -, hx'⟩ := Option.bind_eq_some_iff.mp hx'
  rw [if_neg (hB.tasks t ht).ni.ne'] at hx'
  cases hx'
  exact ⟨_, ⟨t.id, 1, 1⟩, List.cons_ne_nil _ [], List.mem_append_left _ ((collect_mem _ _ _ ha _).mpr ⟨t, ht, _, hx, List.mem_singleton.mpr rfl⟩), rfl, rfl⟩

/-- The best solution of a program, if there is one. -/
noncomputable def bestSolution (cols : List SVar) (rows : List SRow) : Option (SVar → ℚ) :=
  open Classical in
  if h : ∃ v, SFeasible cols rows v ∧ ∀ w, SFeasible cols rows w → v .omega ≤ w .omega then some h.choose else none

theorem bestSolution_solves {cols : List SVar} {rows : List SRow} {P : Set ℚ} (hiff : ∀ Ω, (∃ v, SFeasible cols rows v ∧ v .omega = Ω) ↔ Ω ∈ P)
    (hP : P = ∅ ∨ ∃ Ω, IsLeast P Ω) : SSolves bestSolution cols rows := by
  have key : ∀ v, bestSolution cols rows = some v → SFeasible cols rows v ∧ ∀ w, SFeasible cols rows w → v .omega ≤ w .omega := by
    intro v h
    unfold bestSolution at h
    split_ifs at h with hex
    cases h
    exact hex.choose_spec
  refine ⟨fun v h => (key v h).1, fun v h => (key v h).2, fun h w hw => ?_⟩
  unfold bestSolution at h
  split_ifs at h with hex
  have hmem := (hiff _).mp ⟨w, hw, rfl⟩
  rcases hP with hP | ⟨Ω, hΩ⟩
  · rw [hP] at hmem; exact hmem
  · obtain ⟨v, hv, rfl⟩ := (hiff Ω).mpr hΩ.1
    exact hex ⟨v, hv, fun w hw => hΩ.2 ((hiff _).mp ⟨w, hw, rfl⟩)⟩

/-- For every vector, either no schedule exists or there is a fastest one. -/
theorem kperiods_least (hB : BaseOK B) (hpos : ∀ t ∈ B.tasks, ∀ d ∈ t.durations, 0 < d) (hT : B.tasks ≠ []) {K : Int → ℕ} (hK : ∀ i, 0 < K i) :
    KPeriods B K = ∅ ∨ ∃ Ω, IsLeast (KPeriods B K) Ω := by
  obtain ⟨cs, hcs⟩ := eventGraph_total (withK_ok hB (K := K) (fun t _ => hK _))
  obtain ⟨q, hq⟩ := (exhaustive_event_pos hB hpos hK ⟨cs, hcs, fun _ => Iff.rfl⟩).2 hT
  have hk : kSchedule exhaustive B K = some (q.1, criticalEdges B q.2) := by
    unfold kSchedule
    rw [hcs]
    simp [hq]
  obtain ⟨a, b⟩ := C82_fixed_vector hB hK (fun cs th p hcs h => (exhaustive_event_pos hB hpos hK ⟨cs, hcs, fun _ => Iff.rfl⟩).1 th p h) hk
  by_cases h0 : 0 < q.1
  · exact Or.inr ⟨_, (a h0).1⟩
  · exact Or.inl (b (not_lt.mp h0))

theorem strictPeriods_least (hB : BaseOK B) (hpos : ∀ t ∈ B.tasks, ∀ d ∈ t.durations, 0 < d) (hT : B.tasks ≠ []) :
    StrictPeriods B = ∅ ∨ ∃ Ω, IsLeast (StrictPeriods B) Ω := by
  obtain ⟨cs, hcs⟩ := C49_total hB false
  obtain ⟨q, hq⟩ := (exhaustive_strict hB hpos hcs).2 hT
  have hc := (exhaustive_strict hB hpos hcs).1 q.1 q.2 hq
  by_cases h0 : 0 < q.1
  · exact Or.inr ⟨_, C49_optimal hB hcs ⟨hc.circuit, hc.posD, by rw [← hc.ratio]; exact mul_pos hc.posD h0, hc.ratio, hc.best⟩⟩
  · left
    rw [Set.eq_empty_iff_forall_notMem]
    rintro Ω ⟨S, hS⟩
    have hΩ := (sp_nonneg hB hcs (Or.inr hS)).resolve_right hT
    obtain ⟨u, hu⟩ := hc.circuit
    have h1 := noPositiveCircuit_of_feasible (cs := cs) (ω := Ω) (X := S) ((C49_valid hB hcs S Ω).mpr hS) u q.2 hu
    have h2 : (q.2.map fun c => c.d - Ω * c.w).sum = totalD q.2 - Ω * totalW q.2 := by
      unfold totalD totalW
      clear h1 hu hc hq
      induction q.2 with
      | nil => simp
      | cons e p ih => simp only [List.map_cons, List.sum_cons]; rw [ih]; ring
    rw [h2, ← hc.ratio] at h1
    have h3 : Ω * (totalD q.2 * q.1) ≤ 0 := mul_nonpos_of_nonneg_of_nonpos hΩ (mul_nonpos_of_nonneg_of_nonpos hc.posD.le (not_lt.mp h0))
    have := hc.posD
    linarith

/-- **C104**, **C83** Solvers as assumed exist for every graph with positive durations: in particular the linear programs always have
an optimal solution when they have one at all. -/
theorem C104_solvers_exist (hB : BaseOK B) (hpos : ∀ t ∈ B.tasks, ∀ d ∈ t.durations, 0 < d) (hT : B.tasks ≠ []) :
    Solvers B exhaustive bestSolution where
  events := fun _ _ _ _ hK hcs h => (exhaustive_event_pos hB hpos hK hcs).1 _ _ h
  strict := fun _ _ _ _ hcs h => (exhaustive_strict hB hpos hcs).1 _ _ h
  rows := fun _ _ hK hrs => bestSolution_solves (lp_feasible_iff hB hK hrs) (kperiods_least hB hpos hT hK)
  real := fun _ hrs => bestSolution_solves (real_feasible_iff hB hT hrs) (strictPeriods_least hB hpos hT)

end

/-! ### A graph on which the commands differ -/

namespace CompareExample

/-- Strictly periodic and 1-periodic: 1/14. K-periodic, N-periodic and bufferless: 1/10. -/
theorem hierarchy_run : ((generateSP G1 false).bind exhaustive).map (fun r => r.1) = some (1 / 14) ∧
    (kSchedule exhaustive G1 fun _ => 1).map (fun r => r.1) = some (1 / 14) ∧
    (kSchedule exhaustive G1 (nVector G1)).map (fun r => r.1) = some (1 / 10) ∧
    ((kiter exhaustive G1 10).map fun o => o.map fun r => r.throughput) = some (some (1 / 10)) ∧
    ((blScheduling exhaustive G1 false false 10).map fun o => o.map fun r => r.1) = some (some (1 / 10)) ∧
    ((kpScheduling exhaustive G1 10).map fun o => o.map fun r => r.1.omega) = some (some 10) := by
  decide +kernel

theorem G1_pos : ∀ t ∈ G1.tasks, ∀ d ∈ t.durations, 0 < d := by
  simp [G1, X, Y]

theorem G1_solvers : Solvers G1 exhaustive bestSolution := C104_solvers_exist G1_ok G1_pos (by simp [G1])

/-- The theorems apply: whatever an exact command reports for this graph is 1/10, and no periodic command reports more. -/
example : ExactAnswer G1 exhaustive bestSolution (1 / 10) ∧ (∀ a, ExactAnswer G1 exhaustive bestSolution a → a = 1 / 10) ∧
    PeriodicAnswer G1 exhaustive bestSolution (1 / 14) ∧ ∀ a, PeriodicAnswer G1 exhaustive bestSolution a → a ≤ 1 / 10 := by
  obtain ⟨h1, h2, h3, -⟩ := hierarchy_run
  have hn : ExactAnswer G1 exhaustive bestSolution (1 / 10) := by
    obtain ⟨⟨th, cc⟩, e, rfl⟩ := Option.map_eq_some_iff.mp h3
    exact .nPeriodic _ _ e
  refine ⟨hn, fun a ha => ?_, ?_, fun a ha => ?_⟩
  · exact ((C104_exact_methods_agree G1_ok G1_pos (by simp [G1]) (by decide) G1_solvers hn ha).2 (by norm_num)).symm
  · obtain ⟨⟨th, cc⟩, e, rfl⟩ := Option.map_eq_some_iff.mp h2
    exact .fixed _ (fun _ => Nat.one_pos) _ _ e
  · by_cases h0 : 0 < a
    · exact (C104_periodic_below_exact G1_ok G1_pos (by simp [G1]) (by decide) G1_solvers ha hn h0).2
    · linarith

end CompareExample

end Kiter
