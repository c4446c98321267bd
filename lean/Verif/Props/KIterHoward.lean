/-
C52 and C65 together: K-Iter with the cycle ratio solver it actually calls.
-/
import Verif.Props.KIter
import Verif.Props.Howard
import Mathlib.Algebra.BigOperators.Group.List.Lemmas
import Mathlib.Data.List.Dedup

set_option autoImplicit false

namespace Kiter
open Howard

/-- Common denominator of the weights, of the durations, and a bound on the durations. -/
def gridN (B : BaseGraph) : ℕ :=
  (B.tasks.map fun t => t.ni.toNat).prod * (B.channels.map fun e => (e.1.inPhases.sum * e.2.1.ni).toNat).prod
def gridM (B : BaseGraph) : ℕ := ((B.tasks.flatMap fun t => t.durations).map fun d : ℚ => d.den).prod
def gridD (B : BaseGraph) : ℚ := (B.tasks.flatMap fun t => t.durations).sum

theorem gridN_pos {B : BaseGraph} (hB : BaseOK B) : 0 < gridN B := by
  unfold gridN
  apply Nat.mul_pos
  · apply List.prod_pos
    intro x hx
    obtain ⟨t, ht, rfl⟩ := List.mem_map.mp hx
    have := (hB.tasks t ht).ni
    omega
  · apply List.prod_pos
    intro x hx
    obtain ⟨e, he, rfl⟩ := List.mem_map.mp hx
    obtain ⟨h1, -, h3⟩ := hB.channels e he
    have := mul_pos h3.inPos (hB.tasks _ h1).ni
    omega

theorem gridM_pos (B : BaseGraph) : 0 < gridM B := by
  unfold gridM
  apply List.prod_pos
  intro x hx
  obtain ⟨t, _, rfl⟩ := List.mem_map.mp hx
  exact t.den_pos

theorem dvd_grid {n N : ℕ} (h : n ∣ N) {x : ℚ} (hx : ∃ z : ℤ, x * n = z) : ∃ z : ℤ, x * N = z := by
  obtain ⟨k, rfl⟩ := h
  obtain ⟨z, hz⟩ := hx
  exact ⟨z * k, by push_cast; rw [← hz]; ring⟩

theorem dur_mem {t : KTask} (h : 0 < t.durations.length) (k : ℕ) : t.dur k ∈ t.durations := by
  unfold KTask.dur
  rw [List.getD_eq_getElem _ _ (Nat.mod_lt _ h)]
  exact List.getElem_mem _

/-- The numbers on the constraints of an event graph. -/
theorem constraint_numbers {B : BaseGraph} (hB : BaseOK B) {K : Int → ℕ} (hK : ∀ i, 0 < K i) {cs : List EvConstraint}
    (hcs : GraphFor B K cs) {c : EvConstraint} (hc : c ∈ cs) :
    (∃ t ∈ B.tasks, c.d ∈ t.durations) ∧ ∃ z : ℤ, c.w * gridN B = z := by
  obtain ⟨cs0, hcs0, hmem⟩ := hcs
  rcases (eventGraph_mem hcs0 c).mp ((hmem c).mp hc) with ⟨t, ht, x, hx, hcx⟩ | ⟨e, he, x, hx, hcx⟩
  · have hok := hB.tasks t ht
    obtain ⟨r, hr, hm⟩ := selfLoop_spec t (K t.id) hok.phases (hK _) hok.noInit hok.ni.ne'
    rw [hx] at hr; cases hr
    have hre : ¬ t.reentrancy ≤ 0 := by have := hok.reentrancy; omega
    have hdvd : t.ni.toNat ∣ gridN B :=
      Dvd.dvd.mul_right (List.dvd_prod (List.mem_map.mpr ⟨t, ht, rfl⟩)) _
    rcases (hm c).mp hcx with ⟨y, _, rfl⟩ | ⟨_, rfl⟩
    · refine ⟨⟨t, ht, ?_⟩, 0, by simp⟩
      simp only [hre, if_false, one_mul]
      exact dur_mem hok.phases _
    · refine ⟨⟨t, ht, dur_mem hok.phases _⟩, dvd_grid hdvd ⟨t.durations.length * K t.id, ?_⟩⟩
      have h1 : ((t.ni.toNat : ℕ) : ℚ) = (t.ni : ℚ) := by
        have := hok.ni
        exact_mod_cast congrArg (Int.cast : ℤ → ℚ) (Int.toNat_of_nonneg this.le)
      have h2 : (t.ni : ℚ) ≠ 0 := by have := hok.ni; exact_mod_cast this.ne'
      rw [h1]
      push_cast
      field_simp
  · obtain ⟨s1, s2, h3⟩ := hB.channels e he
    have t1 := hB.tasks _ s1
    have t2 := hB.tasks _ s2
    have hP : 0 < e.1.inPhases.length := by rw [← h3.srcPhases]; exact t1.phases
    have hQ : 0 < e.1.outPhases.length := by rw [← h3.dstPhases]; exact t2.phases
    obtain ⟨mop, -, -, -, r, hr, hm⟩ := channel_spec e.2.1 e.2.2 e.1 (K e.2.1.id) (K e.2.2.id) h3.noInInit h3.noOutInit hP hQ
      h3.srcPhases (hK _) h3.inPos t1.ni.ne' h3.gcdPos h3.preload
    rw [hx] at hr; cases hr
    obtain ⟨m, _, n, _, α, _, rfl⟩ := (hm c).mp hcx
    refine ⟨⟨_, s1, dur_mem t1.phases _⟩, ?_⟩
    have hdvd : (e.1.inPhases.sum * e.2.1.ni).toNat ∣ gridN B :=
      Dvd.dvd.mul_left (List.dvd_prod (List.mem_map.mpr ⟨e, he, rfl⟩)) _
    refine dvd_grid hdvd ⟨-(α * e.1.inPhases.length), ?_⟩
    have h1 : (((e.1.inPhases.sum * e.2.1.ni).toNat : ℕ) : ℚ) = (e.1.inPhases.sum : ℚ) * (e.2.1.ni : ℚ) := by
      have := mul_pos h3.inPos t1.ni
      have h := congrArg (Int.cast : ℤ → ℚ) (Int.toNat_of_nonneg this.le)
      rw [Int.cast_mul] at h
      exact_mod_cast h
    have h2 : (e.2.1.ni : ℚ) ≠ 0 := by have := t1.ni; exact_mod_cast this.ne'
    have h4 : (e.1.inPhases.sum : ℚ) ≠ 0 := by have := h3.inPos; exact_mod_cast this.ne'
    have h5 : (K e.2.1.id : ℚ) ≠ 0 := by have := hK e.2.1.id; exact_mod_cast this.ne'
    rw [h1, Int.cast_neg, Int.cast_mul, Int.cast_mul, Int.cast_natCast, Int.cast_natCast]
    field_simp

theorem event_grid {B : BaseGraph} (hB : BaseOK B) {K : Int → ℕ} (hK : ∀ i, 0 < K i) {cs : List EvConstraint}
    (hcs : GraphFor B K cs) (vs : List Event) : OnGrid ⟨vs, cs⟩ (gridN B) (gridM B) (gridD B) := by
  have hnn : ∀ x ∈ B.tasks.flatMap fun t => t.durations, (0 : ℚ) ≤ x := by
    intro x hx
    obtain ⟨t, ht, hx⟩ := List.mem_flatMap.mp hx
    exact (hB.tasks t ht).durNonneg x hx
  refine ⟨gridN_pos hB, gridM_pos B, fun e he => (constraint_numbers hB hK hcs he).2, fun e he => ?_, fun e he => ?_, fun e he => ?_⟩
  · obtain ⟨⟨t, ht, hd⟩, -⟩ := constraint_numbers hB hK hcs he
    refine dvd_grid (n := e.d.den) (List.dvd_prod (List.mem_map.mpr ⟨e.d, List.mem_flatMap.mpr ⟨t, ht, hd⟩, rfl⟩)) ⟨e.d.num, ?_⟩
    exact Rat.mul_den_eq_num e.d
  · obtain ⟨⟨t, ht, hd⟩, -⟩ := constraint_numbers hB hK hcs he
    exact (hB.tasks t ht).durNonneg _ hd
  · obtain ⟨⟨t, ht, hd⟩, -⟩ := constraint_numbers hB hK hcs he
    exact List.single_le_sum hnn _ (List.mem_flatMap.mpr ⟨t, ht, hd⟩)

theorem event_noNull {B : BaseGraph} (hB : BaseOK B) (hpos : ∀ t ∈ B.tasks, ∀ d ∈ t.durations, 0 < d) {K : Int → ℕ}
    (hK : ∀ i, 0 < K i) {cs : List EvConstraint} (hcs : GraphFor B K cs) {p : List EvConstraint} (hne : p ≠ [])
    (hp : ∀ e ∈ p, e ∈ cs) : 0 < totalD p := by
  induction p with
  | nil => exact absurd rfl hne
  | cons e p ih =>
    obtain ⟨⟨t, ht, hd⟩, -⟩ := constraint_numbers hB hK hcs (hp e (by simp))
    have h1 := hpos t ht _ hd
    have h2 : 0 ≤ totalD p := by
      by_cases h : p = []
      · rw [h]; simp [totalD]
      · exact (ih h fun x hx => hp x (by simp [hx])).le
    simp only [totalD, List.map_cons, List.sum_cons] at h2 ⊢
    linarith

theorem gridD_nonneg {B : BaseGraph} (hB : BaseOK B) : 0 ≤ gridD B := by
  apply List.sum_nonneg
  intro x hx
  obtain ⟨t, ht, hx⟩ := List.mem_flatMap.mp hx
  exact (hB.tasks t ht).durNonneg x hx

/-- A precision that is fine enough for all event graphs with at most `L` vertices. -/
def fineEps (B : BaseGraph) (L : ℕ) : ℚ := 1 / (100 * L * ((L + 1) * gridD B) * gridN B * gridM B + 1)

theorem fineEps_pos {B : BaseGraph} (hB : BaseOK B) (L : ℕ) : 0 < fineEps B L := by
  have := gridD_nonneg hB
  unfold fineEps
  positivity

theorem fine_of {B : BaseGraph} (hB : BaseOK B) {L : ℕ} {eps : ℚ} (h0 : 0 < eps) (h : eps ≤ fineEps B L) {G : EGraph}
    (hL : G.vs.length ≤ L) : Fine eps G (gridN B) (gridM B) (gridD B) := by
  refine ⟨h0, ?_⟩
  have hD := gridD_nonneg hB
  set X : ℚ := 100 * L * ((L + 1) * gridD B) * gridN B * gridM B with hX
  have hX0 : 0 ≤ X := by positivity
  have h1 : eps * (X + 1) ≤ 1 := by
    unfold fineEps at h
    rwa [← hX, le_div_iff₀ (by linarith)] at h
  have hl : (G.vs.length : ℚ) ≤ L := by exact_mod_cast hL
  have hl0 : (0 : ℚ) ≤ G.vs.length := by positivity
  have h2 : 100 * eps * G.vs.length * ((G.vs.length + 1) * gridD B) * gridN B * gridM B ≤ eps * X := by
    have e1 : (G.vs.length : ℚ) * (G.vs.length + 1) ≤ L * (L + 1) := by nlinarith
    have e2 : 0 ≤ 100 * eps * gridD B * gridN B * gridM B := by positivity
    rw [hX]
    calc 100 * eps * G.vs.length * ((G.vs.length + 1) * gridD B) * gridN B * gridM B
        = 100 * eps * gridD B * gridN B * gridM B * (G.vs.length * (G.vs.length + 1)) := by ring
      _ ≤ 100 * eps * gridD B * gridN B * gridM B * (L * (L + 1)) := mul_le_mul_of_nonneg_left e1 e2
      _ = _ := by ring
  linarith

theorem solver_answer {B : BaseGraph} (hB : BaseOK B) (hpos : ∀ t ∈ B.tasks, ∀ d ∈ t.durations, 0 < d) {L : ℕ}
    {eps huge : ℚ} {vertices : List EvConstraint → List Event} (h0 : 0 < eps) (h1 : eps ≤ fineEps B L) {K : Int → ℕ}
    (hK : ∀ i, 0 < K i) {cs : List EvConstraint} (hcs : GraphFor B K cs) (hw : WF ⟨vertices cs, cs⟩)
    (hL : (vertices cs).length ≤ L) {th : ℚ} {p : List EvConstraint} (hs : solver eps huge vertices cs = some (th, p)) :
    CycleAnswer cs th p := by
  have hz : NoNullCircuit ⟨vertices cs, cs⟩ := fun q hq => (event_noNull hB hpos hK hcs hq.1 (circuit_mem hq)).ne'
  unfold solver at hs
  cases hr : minCycleRatio eps huge ⟨vertices cs, cs⟩ with
  | none => rw [hr] at hs; simp at hs
  | some r =>
    rw [hr] at hs
    simp only [Option.bind_eq_bind, Option.bind_some] at hs
    cases hl : r.limited with
    | true => rw [hl] at hs; simp at hs
    | false =>
      rw [hl] at hs
      cases hv : r.value with
      | none => rw [hv] at hs; simp at hs
      | some v =>
        rw [hv] at hs
        simp at hs
        obtain ⟨rfl, rfl⟩ := hs
        exact (C65_exact hw hz (event_grid hB hK hcs _) (fine_of hB h0 h1 hL) hl hv).1 hr

/-- **C52 with C65** K-Iter with its own cycle ratio solver, on graphs whose durations are positive: for a machine precision
that is fine enough for the numbers of the dataflow graph, any answer settles the throughput as in `C52_kiter_verdict`. The
event graphs may have extra vertices without edges, up to a total of `L`. -/
theorem C52_kiter_with_solver {B : BaseGraph} (hB : BaseOK B) (hpos : ∀ t ∈ B.tasks, ∀ d ∈ t.durations, 0 < d) (L : ℕ) :
    ∃ ε₀ : ℚ, 0 < ε₀ ∧ ∀ (eps huge : ℚ) (vertices : List EvConstraint → List Event), 0 < eps → eps ≤ ε₀ →
      (∀ K cs, ((∀ i, 0 < K i) ∧ ∀ t ∈ B.tasks, K t.id ∣ reps t) →
        (∃ cs0, eventGraph (B.withK K) = some cs0 ∧ ∀ c, c ∈ cs ↔ c ∈ cs0) →
        WF ⟨vertices cs, cs⟩ ∧ (vertices cs).length ≤ L) →
      ∀ (fuel : ℕ) (r : KIterResult), kiter (solver eps huge vertices) B fuel = some (some r) →
        (0 < r.throughput → IsLeast (SustainablePeriods B) (1 / r.throughput) ∧
          ∃ S, ValidSchedule (B.withK r.K) S (1 / r.throughput)) ∧ (r.throughput ≤ 0 → ¬ ∃ σ, ValidGen B σ) := by
  refine ⟨fineEps B L, fineEps_pos hB L, fun eps huge vertices h0 h1 hv fuel r hr => ?_⟩
  refine C52_kiter_verdict hB (solver eps huge vertices) (fun K cs th p hK hcs hs => ?_) fuel r hr
  obtain ⟨a, b⟩ := hv K cs hK hcs
  exact solver_answer hB hpos h0 h1 hK.1 hcs a b hs

/-! ### The solver answers on every event graph with two tasks -/

/-- The chain edges `a, a+1, ..., a+k-1` of a task. -/
def links (t : KTask) (a k : ℕ) : List EvConstraint :=
  (List.range' a k).map fun x => { src := evAt t x, dst := evAt t (x + 1), w := 0, d := t.dur x, channel := 0 }

/-- The edge from the last execution back to the first. -/
def back (t : KTask) (K : ℕ) : EvConstraint :=
  { src := evAt t (K * t.durations.length - 1), dst := evAt t 0, w := ((t.durations.length : ℚ) * K) / t.ni,
    d := t.dur (K * t.durations.length - 1), channel := 0 }

theorem task_edges {B : BaseGraph} (hB : BaseOK B) {K : Int → ℕ} (hK : ∀ i, 0 < K i) {cs : List EvConstraint}
    (hcs : GraphFor B K cs) {t : KTask} (ht : t ∈ B.tasks) :
    back t (K t.id) ∈ cs ∧ ∀ x, x + 1 < K t.id * t.durations.length →
      ({ src := evAt t x, dst := evAt t (x + 1), w := 0, d := t.dur x, channel := 0 } : EvConstraint) ∈ cs := by
  obtain ⟨cs0, hcs0, hmem⟩ := hcs
  have hok := hB.tasks t ht
  obtain ⟨r, hr, hm⟩ := selfLoop_spec t (K t.id) hok.phases (hK _) hok.noInit hok.ni.ne'
  have hre : ¬ t.reentrancy ≤ 0 := by have := hok.reentrancy; omega
  constructor
  · exact (hmem _).mpr ((eventGraph_mem hcs0 _).mpr (Or.inl ⟨t, ht, r, hr, (hm _).mpr (Or.inr ⟨hok.reentrancy, rfl⟩)⟩))
  · intro x hx
    refine (hmem _).mpr ((eventGraph_mem hcs0 _).mpr (Or.inl ⟨t, ht, r, hr, (hm _).mpr (Or.inl ⟨x, hx, ?_⟩)⟩))
    simp only [hre, if_false, one_mul]

theorem links_walk {cs : List EvConstraint} {t : KTask} (k : ℕ) : ∀ a : ℕ,
    (∀ x, a ≤ x → x < a + k → ({ src := evAt t x, dst := evAt t (x + 1), w := 0, d := t.dur x, channel := 0 } : EvConstraint) ∈ cs) →
    IsWalk cs (evAt t a) (links t a k) (evAt t (a + k)) := by
  induction k with
  | zero => intro a _; exact rfl
  | succ k ih =>
    intro a h
    refine ⟨h a le_rfl (by omega), rfl, ?_⟩
    have := ih (a + 1) fun x h1 h2 => h x (by omega) (by omega)
    rw [show a + (k + 1) = a + 1 + k by omega]
    exact this

theorem two_le_sum {f : EvConstraint → ℚ} (hf : ∀ e, 0 ≤ f e) {x y : EvConstraint} (hxy : x ≠ y) {l : List EvConstraint}
    (hx : x ∈ l) (hy : y ∈ l) : f x + f y ≤ (l.map f).sum := by
  have one : ∀ {z : EvConstraint} {l : List EvConstraint}, z ∈ l → f z ≤ (l.map f).sum := fun h =>
    List.single_le_sum (by intro a ha; obtain ⟨e, _, rfl⟩ := List.mem_map.mp ha; exact hf e) _ (List.mem_map.mpr ⟨_, h, rfl⟩)
  induction l with
  | nil => simp at hx
  | cons a l ih =>
    rw [List.map_cons, List.sum_cons]
    rcases List.mem_cons.mp hx with rfl | hx'
    · rcases List.mem_cons.mp hy with h | hy
      · exact absurd h.symm hxy
      · linarith [one hy]
    · rcases List.mem_cons.mp hy with rfl | hy
      · linarith [one hx']
      · linarith [ih hx' hy, hf a]

/-- **C65** On the event graphs of a dataflow graph with at least two tasks and positive durations, the solver called by
K-Iter returns a finite exact answer unless its iteration limit stops it, provided the machine precision is fine enough for
the numbers of the dataflow graph. -/
theorem C65_event_graphs {B : BaseGraph} (hB : BaseOK B) (hpos : ∀ t ∈ B.tasks, ∀ d ∈ t.durations, 0 < d)
    {t₁ t₂ : KTask} (ht₁ : t₁ ∈ B.tasks) (ht₂ : t₂ ∈ B.tasks) (hne : t₁.id ≠ t₂.id) (L : ℕ) :
    ∃ ε₀ : ℚ, 0 < ε₀ ∧ ∀ (eps huge : ℚ), 0 < eps → eps ≤ ε₀ → 0 < huge →
      ∀ (K : Int → ℕ) (cs : List EvConstraint) (vs : List Event), ((∀ i, 0 < K i) ∧ ∀ t ∈ B.tasks, K t.id ∣ reps t) →
        eventGraph (B.withK K) = some cs → WF ⟨vs, cs⟩ → vs.length ≤ L →
        ∃ r, minCycleRatio eps huge ⟨vs, cs⟩ = some r ∧
          (r.limited = false → ∃ v, r.value = some v ∧ CycleAnswer cs v r.circuit) := by
  have n1 := (hB.tasks _ ht₁).ni
  have n2 := (hB.tasks _ ht₂).ni
  have n1q : (0 : ℚ) < t₁.ni := by exact_mod_cast n1
  have n2q : (0 : ℚ) < t₂.ni := by exact_mod_cast n2
  have hD := gridD_nonneg hB
  -- smallest duration
  obtain ⟨δ, hδ, hδle⟩ : ∃ δ : ℚ, 0 < δ ∧ ∀ t ∈ B.tasks, ∀ d ∈ t.durations, δ < d := by
    have : ∀ l : List ℚ, (∀ d ∈ l, 0 < d) → ∃ δ : ℚ, 0 < δ ∧ ∀ d ∈ l, δ < d := by
      intro l
      induction l with
      | nil => intro _; exact ⟨1, one_pos, by simp⟩
      | cons a l ih =>
        intro h
        obtain ⟨δ, h1, h2⟩ := ih fun d hd => h d (by simp [hd])
        have ha := h a (by simp)
        refine ⟨min δ (a / 2), lt_min h1 (by linarith), fun d hd => ?_⟩
        rcases List.mem_cons.mp hd with rfl | hd
        · exact lt_of_le_of_lt (min_le_right _ _) (by linarith)
        · exact lt_of_le_of_lt (min_le_left _ _) (h2 d hd)
    obtain ⟨δ, h1, h2⟩ := this (B.tasks.flatMap fun t => t.durations) (by
      intro d hd
      obtain ⟨t, ht, hd⟩ := List.mem_flatMap.mp hd
      exact hpos t ht d hd)
    exact ⟨δ, h1, fun t ht d hd => h2 d (List.mem_flatMap.mpr ⟨t, ht, hd⟩)⟩
  set Y : ℚ := t₂.ni * (t₁.ni * (100 + gridD B)) with hY
  have hYpos : 0 < Y := by positivity
  refine ⟨min (min (fineEps B L) δ) (1 / Y), ?_, ?_⟩
  · exact lt_min (lt_min (fineEps_pos hB L) hδ) (by positivity)
  intro eps huge h0 hle hh K cs vs hK hcs hw hL
  have e1 : eps ≤ fineEps B L := hle.trans ((min_le_left _ _).trans (min_le_left _ _))
  have e2 : eps ≤ δ := hle.trans ((min_le_left _ _).trans (min_le_right _ _))
  have e3 : eps * Y ≤ 1 := by
    have := hle.trans (min_le_right _ _)
    rwa [le_div_iff₀ hYpos] at this
  have hgf : GraphFor B K cs := ⟨cs, hcs, fun _ => Iff.rfl⟩
  have hz : NoNullCircuit ⟨vs, cs⟩ := fun q hq => (event_noNull hB hpos hK.1 hgf hq.1 (circuit_mem hq)).ne'
  obtain ⟨r, hr⟩ := (C65_terminates hw hz eps huge 0).1
  refine ⟨r, hr, fun hl => ?_⟩
  have hP := (hB.tasks _ ht₁).phases
  set n := K t₁.id * t₁.durations.length with hn
  have hn0 : 0 < n := Nat.mul_pos (hK.1 _) hP
  obtain ⟨b1, l1⟩ := task_edges hB hK.1 hgf ht₁
  obtain ⟨b2, -⟩ := task_edges hB hK.1 hgf ht₂
  set p := links t₁ 0 (n - 1) ++ [back t₁ (K t₁.id)] with hp
  have hwalk : IsWalk cs (evAt t₁ 0) p (evAt t₁ 0) := by
    refine (walk_append _ _ _ _).mpr ⟨evAt t₁ (0 + (n - 1)), links_walk _ _ fun x _ hx => l1 x (by omega), b1, ?_, rfl⟩
    rw [Nat.zero_add]; rfl
  have hcirc : Circuit ⟨vs, cs⟩ p := ⟨by simp [hp], _, hwalk⟩
  have hDpos : 0 < totalD p := event_noNull hB hpos hK.1 hgf hcirc.1 (circuit_mem hcirc)
  have hlen : p.length = n := by simp [hp, links]; omega
  have hnle : (n : ℚ) ≤ t₁.ni := by
    obtain ⟨hr0, hni⟩ := reps_spec hB ht₁
    have h1 : K t₁.id ≤ reps t₁ := Nat.le_of_dvd hr0 (hK.2 _ ht₁)
    have h2 : ((n : ℕ) : Int) ≤ t₁.ni := by
      rw [hni, hn]; push_cast
      have h3 : ((K t₁.id : ℕ) : Int) ≤ reps t₁ := by exact_mod_cast h1
      nlinarith [Int.natCast_nonneg t₁.durations.length]
    exact_mod_cast h2
  have hDle : totalD p ≤ n * gridD B := by
    have := totalD_le p (D := gridD B) fun e he => (event_grid hB hK.1 hgf vs).le e (circuit_mem hcirc e he)
    rwa [hlen] at this
  have hWp : totalW p = (back t₁ (K t₁.id)).w := by
    have : ∀ l : List ℕ, ((l.map fun x => ({ src := evAt t₁ x, dst := evAt t₁ (x + 1), w := 0, d := t₁.dur x, channel := 0 } : EvConstraint)).map fun c => c.w).sum = 0 := by
      intro l; induction l with
      | nil => rfl
      | cons a l ih => simp only [List.map_cons, List.sum_cons, ih, add_zero]
    unfold totalW
    rw [hp, List.map_append, List.sum_append]
    unfold links
    rw [this]; simp
  have hDback : (back t₁ (K t₁.id)).d ≤ totalD p := by
    have h1 : totalD p = totalD (links t₁ 0 (n - 1)) + (back t₁ (K t₁.id)).d := by
      unfold totalD; rw [hp, List.map_append, List.sum_append]; simp
    have h2 := totalD_nonneg (links t₁ 0 (n - 1)) fun e he =>
      (event_grid hB hK.1 hgf vs).nonneg e (circuit_mem hcirc e (by rw [hp]; simp [he]))
    linarith
  have hdpos : 0 < (back t₁ (K t₁.id)).d := hpos t₁ ht₁ _ (dur_mem hP _)
  have hw1 : 0 < (back t₁ (K t₁.id)).w := by
    have h1 : (0 : ℚ) < K t₁.id := by exact_mod_cast hK.1 _
    have h2 : (0 : ℚ) < t₁.durations.length := by exact_mod_cast hP
    show 0 < ((t₁.durations.length : ℚ) * K t₁.id) / t₁.ni
    positivity
  have hw2 : 1 / (t₂.ni : ℚ) ≤ (back t₂ (K t₂.id)).w := by
    have h1 : (1 : ℚ) ≤ K t₂.id := by exact_mod_cast hK.1 t₂.id
    have h2 : (1 : ℚ) ≤ t₂.durations.length := by exact_mod_cast (hB.tasks _ ht₂).phases
    show 1 / (t₂.ni : ℚ) ≤ ((t₂.durations.length : ℚ) * K t₂.id) / t₂.ni
    apply div_le_div_of_nonneg_right _ n2q.le
    nlinarith
  have hsum : (back t₁ (K t₁.id)).w + (back t₂ (K t₂.id)).w ≤ (cs.map fun e => |e.w|).sum := by
    have := two_le_sum (f := fun e => |e.w|) (fun e => abs_nonneg _) (x := back t₁ (K t₁.id)) (y := back t₂ (K t₂.id))
      (by intro h; exact hne (congrArg (fun e : EvConstraint => e.dst.task) h)) b1 b2
    have a1 := le_abs_self (back t₁ (K t₁.id)).w
    have a2 := le_abs_self (back t₂ (K t₂.id)).w
    linarith
  have hcond : totalW p + 100 * eps * p.length ≤ ((cs.map fun e => |e.w|).sum / (back t₁ (K t₁.id)).d - eps) * totalD p := by
    set S := (cs.map fun e => |e.w|).sum
    set d := (back t₁ (K t₁.id)).d
    have hS0 : 0 ≤ S := by
      have : 0 < 1 / (t₂.ni : ℚ) := by positivity
      linarith
    have s1 : S ≤ S / d * totalD p := by
      rw [div_mul_eq_mul_div, le_div_iff₀ hdpos]
      exact mul_le_mul_of_nonneg_left hDback hS0
    have s2 : eps * (100 * n + n * gridD B) ≤ 1 / (t₂.ni : ℚ) := by
      rw [le_div_iff₀ n2q]
      have : eps * (100 * n + n * gridD B) * t₂.ni ≤ eps * Y := by
        rw [hY]
        have h3 : (n : ℚ) * (100 + gridD B) ≤ t₁.ni * (100 + gridD B) := mul_le_mul_of_nonneg_right hnle (by linarith)
        calc eps * (100 * n + n * gridD B) * t₂.ni = eps * t₂.ni * (n * (100 + gridD B)) := by ring
          _ ≤ eps * t₂.ni * (t₁.ni * (100 + gridD B)) := mul_le_mul_of_nonneg_left h3 (by positivity)
          _ = _ := by ring
      linarith
    have s3 : eps * totalD p ≤ eps * (n * gridD B) := mul_le_mul_of_nonneg_left hDle h0.le
    rw [hlen, hWp]
    nlinarith
  obtain ⟨v, hv⟩ := (C65_infinity hw hz h0 hr).2 p (back t₁ (K t₁.id)) hh hl hcirc hDpos b1
    (lt_of_le_of_lt e2 (hδle t₁ ht₁ _ (dur_mem hP _))) hcond
  exact ⟨v, hv, (C65_exact hw hz (event_grid hB hK.1 hgf _) (fine_of hB h0 e1 hL) hl hv).1 hr⟩

/-! ### The hypotheses are met -/

/-- The vertices that carry an edge. -/
def endpoints (cs : List EvConstraint) : List Event := (cs.flatMap fun e => [e.src, e.dst]).dedup

/-- All events a periodicity vector can create. -/
def allEvents (B : BaseGraph) : List Event := B.tasks.flatMap fun t => oldEvents t (reps t)

/-- The list of the vertices that carry an edge meets the hypotheses of the theorems above, for every graph. -/
theorem endpoints_ok {B : BaseGraph} (hB : BaseOK B) {K : Int → ℕ} (hK : (∀ i, 0 < K i) ∧ ∀ t ∈ B.tasks, K t.id ∣ reps t)
    {cs : List EvConstraint} (hcs : ∃ cs0, eventGraph (B.withK K) = some cs0 ∧ ∀ c, c ∈ cs ↔ c ∈ cs0) :
    WF ⟨endpoints cs, cs⟩ ∧ (endpoints cs).length ≤ (allEvents B).length := by
  have hin : ∀ e ∈ cs, e.src ∈ endpoints cs ∧ e.dst ∈ endpoints cs := by
    intro e he
    constructor <;> exact List.mem_dedup.mpr (List.mem_flatMap.mpr ⟨e, he, by simp⟩)
  refine ⟨⟨List.nodup_dedup _, hin⟩, nodup_length_le (List.nodup_dedup _) ?_⟩
  have hmono : ∀ t ∈ B.tasks, ∀ v ∈ oldEvents t (K t.id), v ∈ allEvents B := by
    intro t ht v hv
    have hi := (hB.tasks t ht).noInit
    refine List.mem_flatMap.mpr ⟨t, ht, (mem_oldEvents hi).mpr ?_⟩
    obtain ⟨h1, h2, h3, h4⟩ := (mem_oldEvents hi).mp hv
    have : K t.id ≤ reps t := Nat.le_of_dvd (reps_spec hB ht).1 (hK.2 t ht)
    exact ⟨h1, h2, h3, by omega⟩
  obtain ⟨cs0, hcs0, hmem⟩ := hcs
  intro v hv
  obtain ⟨e, he, hv⟩ := List.mem_flatMap.mp (List.mem_dedup.mp hv)
  rcases (eventGraph_mem hcs0 e).mp ((hmem e).mp he) with ⟨t, ht, x, hx, hex⟩ | ⟨c, hc, x, hx, hex⟩
  · obtain ⟨x', hx', h⟩ := selfLoop_ends (hB.tasks t ht) (hK.1 t.id)
    rw [hx] at hx'; cases hx'
    obtain ⟨h1, h2, -⟩ := h e hex
    simp only [List.mem_cons, List.not_mem_nil, or_false] at hv
    rcases hv with rfl | rfl
    · exact hmono t ht _ h1
    · exact hmono t ht _ h2
  · obtain ⟨x', hx', h⟩ := channel_ends hB hc (Ki := K c.2.1.id) (Kj := K c.2.2.id) (hK.1 _)
    rw [hx] at hx'; cases hx'
    obtain ⟨h1, h2, -⟩ := h e hex
    obtain ⟨s1, s2, -⟩ := hB.channels c hc
    simp only [List.mem_cons, List.not_mem_nil, or_false] at hv
    rcases hv with rfl | rfl
    · exact hmono _ s1 _ h1
    · exact hmono _ s2 _ h2

namespace KIterExample

/-- On the graph of the C52 example the solver gives 2/15, then 1/7: K-Iter stops at the same value as with certificates. -/
theorem run_solver :
    (kiter (solver (1 / 10 ^ 19) (10 ^ 300) endpoints) G 10).map (fun o => o.map fun r => (r.K 0, r.K 1, r.throughput, r.iterations)) =
      some (some (1, 3, 1/7, 1)) := by
  decide +kernel

/-- The machine precision is fine enough for this graph. -/
theorem fine_solver : (1 / 10 ^ 19 : ℚ) ≤ fineEps G (allEvents G).length := by decide +kernel

/-- The same graph without initial tokens. -/
def dead : BaseGraph := ⟨[A, B], [(fwd, A, B), ({ bwd with preload := 0 }, B, A)]⟩

theorem dead_ok : BaseOK dead := by
  have hb := (G_ok.channels (bwd, B, A) (by simp [G])).2.2
  constructor
  · exact G_ok.ids
  · exact G_ok.tasks
  · exact G_ok.multiple
  · intro c hc; simp only [dead, List.mem_cons, List.not_mem_nil, or_false] at hc
    rcases hc with rfl | rfl
    · exact G_ok.channels (fwd, A, B) (by simp [G])
    · exact ⟨by simp [dead], by simp [dead], ⟨hb.noInInit, hb.noOutInit, hb.srcPhases, hb.dstPhases, hb.inNonneg, hb.outNonneg, hb.inPos, hb.outPos, hb.gcdPos, hb.gcdIn, hb.gcdOut, le_rfl, hb.balance⟩⟩
  · simp [dead, fwd, bwd]

theorem run_dead :
    (kiter (solver (1 / 10 ^ 19) (10 ^ 300) endpoints) dead 10).map (fun o => o.map fun r => decide (r.throughput ≤ 0)) = some (some true) := by
  decide +kernel

theorem fine_dead : (1 / 10 ^ 19 : ℚ) ≤ fineEps dead (allEvents dead).length := by decide +kernel

end KIterExample

/-- C52 with the actual solver: the best period of the example is 7. -/
example : IsLeast (SustainablePeriods KIterExample.G) 7 := by
  obtain ⟨o, ho, h⟩ := Option.map_eq_some_iff.mp KIterExample.run_solver
  obtain ⟨r, rfl, h⟩ := Option.map_eq_some_iff.mp h
  have h7 : r.throughput = 1/7 := congrArg (fun x => x.2.2.1) (Option.some.inj h)
  have hv := (C52_kiter_verdict KIterExample.G_ok _ (fun K cs th p hK hcs hs =>
    solver_answer KIterExample.G_ok (by decide +kernel) (by norm_num) KIterExample.fine_solver hK.1 hcs
      (endpoints_ok KIterExample.G_ok hK hcs).1 (endpoints_ok KIterExample.G_ok hK hcs).2 hs) 10 r ho).1
      (by rw [h7]; norm_num)
  rw [h7] at hv
  simpa using hv.1

/-- Without initial tokens no schedule exists, and K-Iter finds out. -/
example : ¬ ∃ σ, ValidGen KIterExample.dead σ := by
  obtain ⟨o, ho, h⟩ := Option.map_eq_some_iff.mp KIterExample.run_dead
  obtain ⟨r, rfl, h⟩ := Option.map_eq_some_iff.mp h
  exact (C52_kiter_verdict KIterExample.dead_ok _ (fun K cs th p hK hcs hs =>
    solver_answer KIterExample.dead_ok (by decide +kernel) (by norm_num) KIterExample.fine_dead hK.1 hcs
      (endpoints_ok KIterExample.dead_ok hK hcs).1 (endpoints_ok KIterExample.dead_ok hK hcs).2 hs) 10 r ho).2
      (of_decide_eq_true (Option.some.inj h))

end Kiter
