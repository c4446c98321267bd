/-
C82: what the throughput commands with a fixed periodicity vector report, and how they compare with K-Iter.
-/
import Verif.Model.FixedK
import Verif.Props.KIterHoward

set_option autoImplicit false

namespace Kiter

/-- Periods for which a valid K-periodic schedule exists. -/
def KPeriods (B : BaseGraph) (K : Int → ℕ) : Set ℚ := {Ω | 0 ≤ Ω ∧ ∃ S, ValidSchedule (B.withK K) S Ω}

/-- The solver answers correctly on the event graph for `K`. -/
def SolvesFor (B : BaseGraph) (K : Int → ℕ) (solve : List EvConstraint → Option (ℚ × List EvConstraint)) : Prop :=
  ∀ cs th p, eventGraph (B.withK K) = some cs → solve cs = some (th, p) → CycleAnswer cs th p

theorem kSchedule_some {B : BaseGraph} (hB : BaseOK B) {K : Int → ℕ} (hK : ∀ i, 0 < K i)
    {solve : List EvConstraint → Option (ℚ × List EvConstraint)} (hs : SolvesFor B K solve) {th : ℚ} {cc : List BChannel}
    (h : kSchedule solve B K = some (th, cc)) : ∃ cs p, GraphFor B K cs ∧ CycleAnswer cs th p ∧ cc = criticalEdges B p := by
  obtain ⟨cs, hcs⟩ := eventGraph_total (withK_ok hB (K := K) (fun t _ => hK _))
  unfold kSchedule at h
  rw [hcs] at h
  simp only [Option.bind_eq_bind, Option.bind_some] at h
  cases hr : solve cs with
  | none => rw [hr] at h; simp at h
  | some r =>
    rw [hr] at h
    simp only [Option.bind_some, Option.pure_def, Option.some.injEq, Prod.mk.injEq] at h
    obtain ⟨rfl, rfl⟩ := h
    exact ⟨cs, r.2, ⟨cs, hcs, fun _ => Iff.rfl⟩, hs cs r.1 r.2 hcs hr, rfl⟩

/-- A circuit bounds the period of every valid K-periodic schedule. -/
theorem kperiod_bound {B : BaseGraph} (hB : BaseOK B) {K : Int → ℕ} (hK : ∀ i, 0 < K i) {cs : List EvConstraint}
    (hcs : GraphFor B K cs) {th : ℚ} {p : List EvConstraint} (hp : CycleAnswer cs th p) {Ω : ℚ} (hΩ : Ω ∈ KPeriods B K) :
    1 ≤ Ω * th := by
  obtain ⟨h0, S, hS⟩ := hΩ
  obtain ⟨cs0, hcs0, hmem⟩ := hcs
  obtain ⟨cs', h', e⟩ := C15_C16_graph_iff (withK_ok hB (K := K) (fun t _ => hK _)) S h0
  rw [hcs0] at h'; cases h'
  have hf := e.mpr hS
  obtain ⟨u, hu⟩ := hp.circuit
  have := noPositiveCircuit_of_feasible (cs := cs) (ω := Ω) (X := S) (fun c hc => hf c ((hmem c).mp hc)) u p hu
  have e2 : (p.map fun x => x.d - Ω * x.w).sum = totalD p - Ω * totalW p := by
    unfold totalD totalW
    clear this hu hp
    induction p with
    | nil => simp
    | cons a q ih => simp only [List.map_cons, List.sum_cons]; rw [ih]; ring
  rw [e2, ← hp.ratio] at this
  have hD := hp.posD
  by_contra hc
  push Not at hc
  nlinarith [mul_lt_mul_of_pos_left hc hD]

/-- **C82** A throughput command with a fixed vector `K` reports the best K-periodic throughput: when the reported value is
positive, its inverse is the smallest period of a valid K-periodic schedule, and the graph sustains that period; otherwise no
valid K-periodic schedule exists. -/
theorem C82_fixed_vector {B : BaseGraph} (hB : BaseOK B) {K : Int → ℕ} (hK : ∀ i, 0 < K i)
    {solve : List EvConstraint → Option (ℚ × List EvConstraint)} (hs : SolvesFor B K solve) {th : ℚ} {cc : List BChannel}
    (h : kSchedule solve B K = some (th, cc)) :
    (0 < th → IsLeast (KPeriods B K) (1 / th) ∧ 1 / th ∈ SustainablePeriods B) ∧ (th ≤ 0 → KPeriods B K = ∅) := by
  obtain ⟨cs, p, hcs, hp, -⟩ := kSchedule_some hB hK hs h
  refine ⟨fun hth => ⟨⟨⟨by positivity, attained_schedule hB hK hcs hth hp.best⟩, fun Ω hΩ => ?_⟩, attained hB hK hcs hth hp.best⟩,
    fun hth => ?_⟩
  · rw [div_le_iff₀ hth]; exact kperiod_bound hB hK hcs hp hΩ
  · rw [Set.eq_empty_iff_forall_notMem]
    intro Ω hΩ
    have := kperiod_bound hB hK hcs hp hΩ
    have h2 : Ω * th ≤ 0 := mul_nonpos_of_nonneg_of_nonpos hΩ.1 hth
    linarith

/-- The vector of the command with parameters has the values given, and 1 for the tasks that are not named. -/
theorem paramVector_eq {params : List (Int × ℕ)} {K : Int → ℕ}
    (hgiven : ∀ p ∈ params, K p.1 = p.2) (hother : ∀ i, i ∉ params.map Prod.fst → K i = 1) : paramVector params = K := by
  funext i
  unfold paramVector
  cases hf : params.find? fun p => p.1 == i with
  | some p =>
    have h1 := List.mem_of_find?_eq_some hf
    have h2 : p.1 = i := by simpa using List.find?_some hf
    rw [← h2, hgiven p h1]
  | none =>
    rw [List.find?_eq_none] at hf
    refine (hother i ?_).symm
    intro hi
    obtain ⟨p, h1, h2⟩ := List.mem_map.mp hi
    exact hf p h1 (by simp [h2])

/-- **C82** The command with parameters: the periodicity of a task is the positive value given for it, and 1 when none is
given. The report is the least period of the schedules with these periodicities. -/
theorem C82_parameters {B : BaseGraph} (hB : BaseOK B) {params : List (Int × ℕ)}
    (hp : ∀ p ∈ params, 0 < p.2) {K : Int → ℕ} (hgiven : ∀ p ∈ params, K p.1 = p.2)
    (hother : ∀ i, i ∉ params.map Prod.fst → K i = 1)
    {solve : List EvConstraint → Option (ℚ × List EvConstraint)} (hs : SolvesFor B K solve) {th : ℚ} {cc : List BChannel}
    (h : kSchedule solve B (paramVector params) = some (th, cc)) :
    (0 < th → IsLeast (KPeriods B K) (1 / th) ∧ 1 / th ∈ SustainablePeriods B) ∧ (th ≤ 0 → KPeriods B K = ∅) := by
  rw [paramVector_eq hgiven hother] at h
  refine C82_fixed_vector hB ?_ hs h
  intro i
  by_cases hi : i ∈ params.map Prod.fst
  · obtain ⟨p, h1, h2⟩ := List.mem_map.mp hi
    rw [← h2, hgiven p h1]
    exact hp p h1
  · rw [hother i hi]
    exact Nat.one_pos

/-- The starts of a K-periodic schedule, listed for a multiple of the periodicity. -/
def unroll (B : BaseGraph) (K : Int → ℕ) (S : Event → ℚ) (Ω : ℚ) : Event → ℚ := fun e =>
  ((B.find e.task).map fun t => execStart S Ω t (K e.task) ((e.iter - 1).toNat * t.durations.length + (e.phase - 1).toNat)).getD 0

theorem unroll_start {B : BaseGraph} (hB : BaseOK B) {K K' : Int → ℕ} (hK : ∀ i, 0 < K i) {t : KTask} (ht : t ∈ B.tasks)
    (hd : K t.id ∣ K' t.id) (S : Event → ℚ) (Ω : ℚ) (k : ℕ) :
    execStart (unroll B K S Ω) Ω t (K' t.id) k = execStart S Ω t (K t.id) k := by
  have hP := (hB.tasks t ht).phases
  obtain ⟨m, hm⟩ := hd
  have h1 : execStart (unroll B K S Ω) Ω t (K' t.id) k =
      execStart S Ω t (K t.id) ((k / t.durations.length) % K' t.id * t.durations.length + k % t.durations.length)
        + ((k / (K' t.id * t.durations.length) : ℕ) : ℚ) * (Ω * (t.durations.length * K' t.id) / t.ni) := by
    conv_lhs => unfold execStart unroll
    simp only [find_eq hB ht, Option.map_some, Option.getD_some, add_sub_cancel_right, Int.toNat_natCast]
  have h2 : (k / t.durations.length) % K' t.id * t.durations.length + k % t.durations.length = k % (K' t.id * t.durations.length) := by
    rw [Nat.mul_comm (K' t.id), Nat.mod_mul, Nat.mul_comm, Nat.add_comm]
  rw [h1, h2]
  set a := k / (K' t.id * t.durations.length)
  set x := k % (K' t.id * t.durations.length) with hx
  have hk : k = x + (a * m) * (K t.id * t.durations.length) := by
    have := Nat.mod_add_div' k (K' t.id * t.durations.length)
    rw [hm] at this
    rw [hx, hm]
    calc k = k % (K t.id * m * t.durations.length) + k / (K t.id * m * t.durations.length) * (K t.id * m * t.durations.length) := this.symm
      _ = _ := by rw [show a = k / (K t.id * m * t.durations.length) by rw [← hm]]; ring
  conv_rhs => rw [hk]
  rw [per_mul (fun k => execStart_period (S := S) (Ω := Ω) hP (hK t.id) k), hm]
  push_cast
  ring

/-- A K-periodic schedule is K'-periodic for every multiple K' of K. -/
theorem kperiods_mono {B : BaseGraph} (hB : BaseOK B) {K K' : Int → ℕ} (hK : ∀ i, 0 < K i)
    (hd : ∀ t ∈ B.tasks, K t.id ∣ K' t.id) : KPeriods B K ⊆ KPeriods B K' := by
  rintro Ω ⟨h0, S, v1, v2⟩
  refine ⟨h0, unroll B K S Ω, ?_, ?_⟩
  · intro tk htk
    obtain ⟨t, ht, rfl⟩ := List.mem_map.mp htk
    intro k
    have := v1 (t, K t.id) (List.mem_map.mpr ⟨t, ht, rfl⟩) k
    unfold execEnd at this ⊢
    rw [unroll_start hB hK ht (hd t ht), unroll_start hB hK ht (hd t ht)]
    exact this
  · intro c hc
    obtain ⟨e, he, rfl⟩ := List.mem_map.mp hc
    obtain ⟨s1, s2, -⟩ := hB.channels e he
    have := v2 _ (List.mem_map.mpr ⟨e, he, rfl⟩)
    unfold ChannelSafe execEnd at this ⊢
    have e1 : execStart (unroll B K S Ω) Ω e.2.2 (K' e.2.2.id) = execStart S Ω e.2.2 (K e.2.2.id) :=
      funext fun k => unroll_start hB hK s2 (hd _ s2) S Ω k
    have e2 : (fun k => execStart (unroll B K S Ω) Ω e.2.1 (K' e.2.1.id) k + e.2.1.dur k) =
        fun k => execStart S Ω e.2.1 (K e.2.1.id) k + e.2.1.dur k :=
      funext fun k => by rw [unroll_start hB hK s1 (hd _ s1)]
    rw [e1, e2]
    exact this

/-- **C82** The reported throughput never decreases when the vector is replaced by a multiple (1Periodic against 2Periodic, both
against NPeriodic), as long as it is positive. -/
theorem C82_monotone {B : BaseGraph} (hB : BaseOK B) {K K' : Int → ℕ} (hK : ∀ i, 0 < K i) (hK' : ∀ i, 0 < K' i)
    (hd : ∀ t ∈ B.tasks, K t.id ∣ K' t.id) {solve : List EvConstraint → Option (ℚ × List EvConstraint)}
    (hs : SolvesFor B K solve) (hs' : SolvesFor B K' solve) {th th' : ℚ} {cc cc' : List BChannel}
    (h : kSchedule solve B K = some (th, cc)) (h' : kSchedule solve B K' = some (th', cc')) (hth : 0 < th) : th ≤ th' := by
  have h1 := ((C82_fixed_vector hB hK hs h).1 hth).1.1
  obtain ⟨cs, p, hcs, hp, -⟩ := kSchedule_some hB hK' hs' h'
  have := kperiod_bound hB hK' hcs hp (kperiods_mono hB hK hd h1)
  rw [div_mul_eq_mul_div, one_mul, le_div_iff₀ hth, one_mul] at this
  exact this

/-- With multiples of the repetition counts, the report is about all schedules, periodic or not. -/
theorem full_vector {B : BaseGraph} (hB : BaseOK B) {K : Int → ℕ} (hK : ∀ i, 0 < K i) (hr : ∀ t ∈ B.tasks, reps t ∣ K t.id)
    {solve : List EvConstraint → Option (ℚ × List EvConstraint)} (hs : SolvesFor B K solve) {th : ℚ} {cc : List BChannel}
    (h : kSchedule solve B K = some (th, cc)) :
    (0 < th → IsLeast (SustainablePeriods B) (1 / th)) ∧ (th ≤ 0 → ¬ ∃ σ, ValidGen B σ) := by
  obtain ⟨cs, p, hcs, hp, -⟩ := kSchedule_some hB hK hs h
  have := verdict hB hK hcs hp (G := 1) (fun _ => Nat.one_pos) fun e he => by
    have := hB.channels e (criticalEdges_sub B p e he)
    exact ⟨one_dvd _, by rw [Nat.div_one]; exact hr _ this.1⟩
  exact ⟨fun h => (this.1 h).1, this.2⟩

theorem nVector_eq {B : BaseGraph} (hB : BaseOK B) {t : KTask} (ht : t ∈ B.tasks) : nVector B t.id = t.ni.toNat := by
  unfold nVector
  have : (B.tasks.find? fun u => u.id == t.id) = some t := by
    cases hf : B.tasks.find? fun u => u.id == t.id with
    | none => simpa using List.find?_eq_none.mp hf t ht
    | some u =>
      have h1 := List.find?_some hf
      rw [hB.ids u (List.mem_of_find?_eq_some hf) t ht (by simpa using h1)]
  rw [this]

theorem nVector_pos {B : BaseGraph} (hB : BaseOK B) (i : Int) : 0 < nVector B i := by
  unfold nVector
  split
  · rename_i t h
    have := (hB.tasks t (List.mem_of_find?_eq_some h)).ni
    omega
  · exact Nat.one_pos

theorem reps_dvd_nVector {B : BaseGraph} (hB : BaseOK B) {t : KTask} (ht : t ∈ B.tasks) : reps t ∣ nVector B t.id := by
  rw [nVector_eq hB ht]
  obtain ⟨-, h⟩ := reps_spec hB ht
  refine ⟨t.durations.length, ?_⟩
  have : ((t.ni.toNat : ℕ) : Int) = ((reps t * t.durations.length : ℕ) : Int) := by
    rw [Int.toNat_of_nonneg (hB.tasks t ht).ni.le, h]; push_cast; ring
  exact_mod_cast this

/-- **C82** NPeriodic (and EGN) reports the throughput of the graph over all schedules: when the value is positive its inverse is
the smallest period any valid schedule sustains; otherwise the graph has no valid infinite schedule. -/
theorem C82_nperiodic_optimal {B : BaseGraph} (hB : BaseOK B) {solve : List EvConstraint → Option (ℚ × List EvConstraint)}
    (hs : SolvesFor B (nVector B) solve) {th : ℚ} {cc : List BChannel} (h : kSchedule solve B (nVector B) = some (th, cc)) :
    (0 < th → IsLeast (SustainablePeriods B) (1 / th)) ∧ (th ≤ 0 → ¬ ∃ σ, ValidGen B σ) :=
  full_vector hB (nVector_pos hB) (fun _ ht => reps_dvd_nVector hB ht) hs h

/-- **C82** Every fixed vector reports at most the throughput K-Iter reports, and NPeriodic reports the same one. -/
theorem C82_against_kiter {B : BaseGraph} (hB : BaseOK B) {solve : List EvConstraint → Option (ℚ × List EvConstraint)}
    (hsolve : ∀ K cs th p, (∀ i, 0 < K i) → (∃ cs0, eventGraph (B.withK K) = some cs0 ∧ ∀ c, c ∈ cs ↔ c ∈ cs0) →
      solve cs = some (th, p) → CycleAnswer cs th p)
    {fuel : ℕ} {r : KIterResult} (hr : kiter solve B fuel = some (some r)) :
    (∀ K th cc, (∀ i, 0 < K i) → kSchedule solve B K = some (th, cc) → 0 < th → th ≤ r.throughput) ∧
    (∀ th cc, kSchedule solve B (nVector B) = some (th, cc) → (0 < th ↔ 0 < r.throughput) ∧ (0 < th → th = r.throughput)) := by
  have hsf : ∀ K, (∀ i, 0 < K i) → SolvesFor B K solve := fun K hK cs th p hcs hs =>
    hsolve K cs th p hK ⟨cs, hcs, fun _ => Iff.rfl⟩ hs
  have hv := C52_kiter_verdict hB solve (fun K cs th p hK hcs hs => hsolve K cs th p hK.1 hcs hs) fuel r hr
  have hle : ∀ K th cc, (∀ i, 0 < K i) → kSchedule solve B K = some (th, cc) → 0 < th → th ≤ r.throughput := by
    intro K th cc hK h hth
    have h1 := ((C82_fixed_vector hB hK (hsf K hK) h).1 hth).2
    by_cases hr0 : 0 < r.throughput
    · have := (hv.1 hr0).1.2 h1
      rwa [div_le_div_iff₀ hr0 hth, one_mul, one_mul] at this
    · obtain ⟨σ, hσ, -⟩ := h1
      exact absurd ⟨σ, hσ⟩ (hv.2 (not_lt.mp hr0))
  refine ⟨hle, fun th cc h => ?_⟩
  have hn := C82_nperiodic_optimal hB (hsf _ (nVector_pos hB)) h
  have hiff : 0 < th ↔ 0 < r.throughput := by
    constructor
    · intro hth; exact lt_of_lt_of_le hth (hle _ _ _ (nVector_pos hB) h hth)
    · intro hr0
      by_contra hc
      obtain ⟨σ, hσ, -⟩ := (hv.1 hr0).1.1
      exact hn.2 (not_lt.mp hc) ⟨σ, hσ⟩
  refine ⟨hiff, fun hth => ?_⟩
  have h1 := (hn.1 hth).unique (hv.1 (hiff.mp hth)).1
  have h2 := hiff.mp hth
  field_simp at h1
  linarith

/-- **C82 with C65** The same with the solver the commands actually call, on graphs with positive durations: for a machine
precision fine enough for the numbers of the graph, an answer of the solver is correct for every positive vector whose event
graph has at most `L` vertices. -/
theorem C82_with_solver {B : BaseGraph} (hB : BaseOK B) (hpos : ∀ t ∈ B.tasks, ∀ d ∈ t.durations, 0 < d) (L : ℕ) :
    ∃ ε₀ : ℚ, 0 < ε₀ ∧ ∀ (eps huge : ℚ) (vertices : List EvConstraint → List Event), 0 < eps → eps ≤ ε₀ →
      ∀ K : Int → ℕ, (∀ i, 0 < K i) →
      (∀ cs, eventGraph (B.withK K) = some cs → Howard.WF ⟨vertices cs, cs⟩ ∧ (vertices cs).length ≤ L) →
      SolvesFor B K (Howard.solver eps huge vertices) := by
  refine ⟨fineEps B L, fineEps_pos hB L, fun eps huge vertices h0 h1 K hK hv cs th p hcs hs => ?_⟩
  obtain ⟨a, b⟩ := hv cs hcs
  exact solver_answer hB hpos h0 h1 hK ⟨cs, hcs, fun _ => Iff.rfl⟩ a b hs

/-! ### The hypotheses are met -/

/-- Parameters for two tasks of three, as in `-pA=2 -pC=3`. -/
example : let params : List (Int × ℕ) := [(1, 2), (3, 3)]
    (∀ p ∈ params, 0 < p.2) ∧ paramVector params 1 = 2 ∧ paramVector params 2 = 1 ∧
      paramVector params 3 = 3 := by decide +kernel

open Howard in
/-- The commands on the graph of the K-Iter example: 1Periodic and 2Periodic report 2/15, NPeriodic reports 1/7. -/
theorem fixedK_run :
    (kSchedule (solver (1 / 10 ^ 19) (10 ^ 300) endpoints) KIterExample.G (constVector 1)).map (fun r => r.1) = some (2 / 15) ∧
    (kSchedule (solver (1 / 10 ^ 19) (10 ^ 300) endpoints) KIterExample.G (constVector 2)).map (fun r => r.1) = some (2 / 15) ∧
    (kSchedule (solver (1 / 10 ^ 19) (10 ^ 300) endpoints) KIterExample.G (nVector KIterExample.G)).map (fun r => r.1) =
      some (1 / 7) := by
  decide +kernel

open Howard in
/-- The solver of the commands is correct on these event graphs: C82 applies. -/
theorem fixedK_solves (K : Int → ℕ) (hK : ∀ i, 0 < K i)
    (hL : ∀ cs, eventGraph (KIterExample.G.withK K) = some cs → (endpoints cs).length ≤ 7) :
    SolvesFor KIterExample.G K (solver (1 / 10 ^ 19) (10 ^ 300) endpoints) := by
  intro cs th p hcs hs
  refine solver_answer (L := 7) KIterExample.G_ok (by decide +kernel) (by norm_num) (by decide +kernel) hK ⟨cs, hcs, fun _ => Iff.rfl⟩
    ⟨List.nodup_dedup _, fun e he => ?_⟩ (hL cs hcs) hs
  constructor <;> exact List.mem_dedup.mpr (List.mem_flatMap.mpr ⟨e, he, by simp⟩)

/-- 15/2 is the smallest period of a 1-periodic schedule, and also of a 2-periodic one; 7 is the smallest period of all. -/
theorem fixedK_least : IsLeast (KPeriods KIterExample.G (constVector 1)) (15 / 2) ∧ IsLeast (KPeriods KIterExample.G (constVector 2)) (15 / 2) ∧
    IsLeast (SustainablePeriods KIterExample.G) 7 := by
  obtain ⟨h1, h2, h3⟩ := fixedK_run
  obtain ⟨⟨t1, c1⟩, e1, rfl⟩ := Option.map_eq_some_iff.mp h1
  obtain ⟨⟨t2, c2⟩, e2, ht2⟩ := Option.map_eq_some_iff.mp h2
  obtain ⟨⟨t3, c3⟩, e3, ht3⟩ := Option.map_eq_some_iff.mp h3
  have hlen : ∀ K : Int → ℕ, (((eventGraph (KIterExample.G.withK K)).map fun cs => (endpoints cs).length).getD 0 ≤ 7) →
      ∀ cs, eventGraph (KIterExample.G.withK K) = some cs → (endpoints cs).length ≤ 7 := by
    intro K h cs hcs; rw [hcs] at h; exact h
  have a1 := (C82_fixed_vector KIterExample.G_ok (K := constVector 1) (fun _ => Nat.one_pos)
    (fixedK_solves _ (fun _ => Nat.one_pos) (hlen _ (by decide +kernel))) e1).1 (by norm_num)
  have a2 := (C82_fixed_vector KIterExample.G_ok (K := constVector 2) (fun _ => Nat.two_pos)
    (fixedK_solves _ (fun _ => Nat.two_pos) (hlen _ (by decide +kernel))) e2).1 (by simp only at ht2; rw [ht2]; norm_num)
  have a3 := (C82_nperiodic_optimal KIterExample.G_ok (fixedK_solves _ (nVector_pos KIterExample.G_ok) (hlen _ (by decide +kernel))) e3).1
    (by simp only at ht3; rw [ht3]; norm_num)
  simp only at ht2 ht3
  rw [ht2] at a2; rw [ht3] at a3
  exact ⟨by simpa using a1.1, by simpa using a2.1, by simpa using a3⟩

end Kiter
