import Verif.Lemmas.KIter
import Mathlib.Data.List.Basic

set_option autoImplicit false

namespace Kiter
open Finset

/-! ### From an exact cycle ratio to the best throughput -/

/-- Task with a given id. -/
def BaseGraph.find (B : BaseGraph) (i : Int) : Option KTask := B.tasks.find? fun t => decide (t.id = i)

theorem find_eq {B : BaseGraph} (hB : BaseOK B) {t : KTask} (ht : t ∈ B.tasks) : B.find t.id = some t := by
  unfold BaseGraph.find
  cases h : B.tasks.find? (fun s => decide (s.id = t.id)) with
  | none =>
    rw [List.find?_eq_none] at h
    have := h t ht
    simp at this
  | some s =>
    have h1 := List.mem_of_find?_eq_some h
    have h2 := List.find?_some h
    rw [decide_eq_true_eq] at h2
    rw [hB.ids s h1 t ht h2]

/-- Number of phases of the task with a given id. -/
def phOf (B : BaseGraph) (i : Int) : ℕ := ((B.find i).map fun t => t.durations.length).getD 0

theorem phOf_eq {B : BaseGraph} (hB : BaseOK B) {t : KTask} (ht : t ∈ B.tasks) : phOf B t.id = t.durations.length := by
  unfold phOf; rw [find_eq hB ht]; rfl

/-- Execution index of an event. -/
def idx (B : BaseGraph) (e : Event) : ℕ := (e.iter - 1).toNat * phOf B e.task + (e.phase - 1).toNat

theorem idx_evAt {B : BaseGraph} (hB : BaseOK B) {t : KTask} (ht : t ∈ B.tasks) (x : ℕ) : idx B (evAt t x) = x := by
  unfold idx evAt
  simp only [phOf_eq hB ht, add_sub_cancel_right, Int.toNat_natCast]
  exact Nat.div_add_mod' x _

/-- Start of the execution of event `e` in block `b`, with blocks of `n` periods. -/
def blockStart (B : BaseGraph) (σ : Int → ℕ → ℚ) (n : Int → ℕ) (e : Event) (b : ℕ) : ℚ :=
  σ e.task (idx B e + b * (n e.task * phOf B e.task))

theorem blockStart_evAt {B : BaseGraph} (hB : BaseOK B) {t : KTask} (ht : t ∈ B.tasks) (σ : Int → ℕ → ℚ) (n : Int → ℕ) (x b : ℕ) :
    blockStart B σ n (evAt t x) b = σ t.id (x + b * (n t.id * t.durations.length)) := by
  unfold blockStart
  rw [idx_evAt hB ht]
  show σ t.id (x + b * (n t.id * phOf B t.id)) = _
  rw [phOf_eq hB ht]

/-- A constraint whose tasks `K` treats in whole blocks shifts blocks. -/
theorem constraint_shift {B : BaseGraph} (hB : BaseOK B) {σ : Int → ℕ → ℚ} (hσ : ValidGen B σ) {K : Int → ℕ}
    (hK : ∀ i, 0 < K i) {cs : List EvConstraint} (hcs : eventGraph (B.withK K) = some cs) {n : Int → ℕ} {G : ℕ} (hG : 0 < G)
    {c : EvConstraint} (hc : c ∈ cs)
    (hn : ∀ t ∈ B.tasks, t.id = c.src.task ∨ t.id = c.dst.task → reps t = G * n t.id ∧ n t.id ∣ K t.id) :
    Shifts (blockStart B σ n) G c := by
  have npos : ∀ t ∈ B.tasks, reps t = G * n t.id → 0 < n t.id := by
    intro t ht h
    have := (reps_spec hB ht).1
    rw [h] at this
    exact Nat.pos_of_mul_pos_left this
  rcases (eventGraph_mem hcs c).mp hc with ⟨t, ht, x, hx, hcx⟩ | ⟨e, he, x, hx, hcx⟩
  · have hsrc : c.src.task = t.id := by
      obtain ⟨x', hx', h⟩ := selfLoop_ends (hB.tasks t ht) (hK t.id)
      rw [hx] at hx'; cases hx'
      exact ((mem_oldEvents (hB.tasks t ht).noInit).mp (h c hcx).1).1
    obtain ⟨hr, hd⟩ := hn t ht (Or.inl hsrc.symm)
    obtain ⟨m, m', e1, e2, h, hw, hb⟩ := selfLoop_shift hB hσ ht (npos t ht hr) hG hr (hK _) hd hx hcx
    refine ⟨h, hw, fun b b' hbb => ?_⟩
    rw [e1, e2, blockStart_evAt hB ht, blockStart_evAt hB ht]
    exact hb b b' hbb
  · obtain ⟨hs, ht, hch⟩ := hB.channels e he
    obtain ⟨x', hx', h⟩ := channel_ends hB he (Ki := K e.2.1.id) (Kj := K e.2.2.id) (hK _)
    rw [hx] at hx'; cases hx'
    have hsrc : c.src.task = e.2.1.id := ((mem_oldEvents (hB.tasks _ hs).noInit).mp (h c hcx).1).1
    have hdst : c.dst.task = e.2.2.id := ((mem_oldEvents (hB.tasks _ ht).noInit).mp (h c hcx).2.1).1
    obtain ⟨hr, hd⟩ := hn _ hs (Or.inl hsrc.symm)
    obtain ⟨hr', hd'⟩ := hn _ ht (Or.inr hdst.symm)
    obtain ⟨m, m', e1, e2, h, hw, hb⟩ := channel_shift hB hσ he (npos _ hs hr) hG hr hr' (hK _) hd hd' hx hcx
    refine ⟨h, hw, fun b b' hbb => ?_⟩
    rw [e1, e2, blockStart_evAt hB hs, blockStart_evAt hB ht]
    exact hb b b' hbb

theorem constraint_tasks {B : BaseGraph} (hB : BaseOK B) {K : Int → ℕ} (hK : ∀ i, 0 < K i) {cs : List EvConstraint}
    (hcs : eventGraph (B.withK K) = some cs) {c : EvConstraint} (hc : c ∈ cs) :
    (c.src.task = c.dst.task ∨ ∃ e ∈ B.channels, c.channel = e.1.id ∧ c.src.task = e.2.1.id) ∧
    (∃ s ∈ B.tasks, c.src.task = s.id) ∧ ∃ t ∈ B.tasks, c.dst.task = t.id := by
  rcases (eventGraph_mem hcs c).mp hc with ⟨t, ht, x, hx, hcx⟩ | ⟨e, he, x, hx, hcx⟩
  · obtain ⟨x', hx', h⟩ := selfLoop_ends (hB.tasks t ht) (hK t.id)
    rw [hx] at hx'; cases hx'
    have h1 := ((mem_oldEvents (hB.tasks t ht).noInit).mp (h c hcx).1).1
    have h2 := ((mem_oldEvents (hB.tasks t ht).noInit).mp (h c hcx).2.1).1
    exact ⟨Or.inl (by rw [h1, h2]), ⟨t, ht, h1⟩, t, ht, h2⟩
  · obtain ⟨hs, ht, hch⟩ := hB.channels e he
    obtain ⟨x', hx', h⟩ := channel_ends hB he (Ki := K e.2.1.id) (Kj := K e.2.2.id) (hK _)
    rw [hx] at hx'; cases hx'
    have h1 := ((mem_oldEvents (hB.tasks _ hs).noInit).mp (h c hcx).1).1
    have h2 := ((mem_oldEvents (hB.tasks _ ht).noInit).mp (h c hcx).2.1).1
    exact ⟨Or.inr ⟨e, he, (h c hcx).2.2, h1⟩, ⟨_, hs, h1⟩, _, ht, h2⟩

/-- Tasks met by a closed walk: all sources of channel constraints of the walk, or a single task. -/
theorem walk_tasks {cs : List EvConstraint} {Src : Int → Prop} {u v : Event} {p : List EvConstraint} (h : IsWalk cs u p v)
    (hp : ∀ c ∈ p, c.src.task = c.dst.task ∨ Src c.src.task) : Src u.task ∨ u.task = v.task := by
  induction p generalizing u with
  | nil => simp only [IsWalk] at h; right; rw [h]
  | cons e p ih =>
    obtain ⟨_, h2, h3⟩ := h
    rcases hp e (by simp) with he | he
    · rcases ih h3 (fun c hc => hp c (by simp [hc])) with h | h
      · left; rw [← h2, he]; exact h
      · right; rw [← h2, he, h]
    · left; rw [← h2]; exact he

theorem walk_split {cs : List EvConstraint} {u v : Event} {p : List EvConstraint} (h : IsWalk cs u p v) {c : EvConstraint}
    (hc : c ∈ p) : ∃ p1 p2, p = p1 ++ c :: p2 ∧ IsWalk cs u p1 c.src ∧ c ∈ cs ∧ IsWalk cs c.dst p2 v := by
  induction p generalizing u with
  | nil => simp at hc
  | cons e p ih =>
    obtain ⟨h1, h2, h3⟩ := h
    rcases List.mem_cons.mp hc with rfl | hc
    · exact ⟨[], p, rfl, by simp [IsWalk, h2], h1, h3⟩
    · obtain ⟨p1, p2, a, b, d, f⟩ := ih h3 hc
      exact ⟨e :: p1, p2, by rw [a]; rfl, ⟨h1, h2, b⟩, d, f⟩

theorem circuit_tasks {cs : List EvConstraint} {Src : Int → Prop} {u : Event} {p : List EvConstraint} (h : IsWalk cs u p u)
    (hp : ∀ c ∈ p, c.src.task = c.dst.task ∨ Src c.src.task) :
    (Src u.task ∧ ∀ c ∈ p, Src c.src.task ∧ Src c.dst.task) ∨ ∀ c ∈ p, c.src.task = u.task ∧ c.dst.task = u.task := by
  have hsub : ∀ c ∈ p, (Src c.src.task ∨ c.src.task = u.task) ∧ (Src c.dst.task ∨ c.dst.task = u.task) := by
    intro c hc
    obtain ⟨p1, p2, e, w1, hcs, w2⟩ := walk_split h hc
    have hp2 : ∀ d ∈ p2, d.src.task = d.dst.task ∨ Src d.src.task := fun d hd => hp d (by rw [e]; simp [hd])
    have w3 : IsWalk cs c.src (c :: p2) u := ⟨hcs, rfl, w2⟩
    exact ⟨walk_tasks w3 (fun d hd => by
      rcases List.mem_cons.mp hd with rfl | hd
      · exact hp d hc
      · exact hp2 d hd), walk_tasks w2 hp2⟩
  by_cases hall : ∀ c ∈ p, c.src.task = u.task ∧ c.dst.task = u.task
  · exact Or.inr hall
  · left
    have hu : Src u.task := by
      by_contra hnu
      apply hall
      intro c hc
      -- without a source task in sight the whole walk stays in the task of `u`
      have hns : ∀ d ∈ p, ¬ Src d.src.task → d.src.task = u.task := fun d hd hn => ((hsub d hd).1).resolve_left hn
      have key : ∀ d ∈ p, ¬ Src d.src.task := by
        intro d hd hsd
        obtain ⟨p1, p2, e, w1, hcs, w2⟩ := walk_split h hd
        rcases walk_tasks w1 (fun x hx => hp x (by rw [e]; simp [hx])) with h' | h'
        · exact hnu h'
        · rw [h'] at hnu; exact hnu hsd
      have h1 := hns c hc (key c hc)
      have h2 := (hp c hc).resolve_right (key c hc)
      exact ⟨h1, by rw [← h2]; exact h1⟩
    refine ⟨hu, fun c hc => ?_⟩
    obtain ⟨a, b⟩ := hsub c hc
    constructor
    · rcases a with a | a
      · exact a
      · rw [a]; exact hu
    · rcases b with b | b
      · exact b
      · rw [b]; exact hu

/-- If the tasks of the critical circuit run in whole blocks, every constraint of the circuit shifts blocks of every
valid schedule. -/
theorem blocks {B : BaseGraph} (hB : BaseOK B) {K : Int → ℕ} (hK : ∀ i, 0 < K i) {cs : List EvConstraint}
    (hcs : GraphFor B K cs) {u : Event} {p : List EvConstraint} (hu : IsWalk cs u p u) (hne : p ≠ []) {G : ℕ}
    (hG0 : criticalEdges B p ≠ [] → 0 < G) (hG : ∀ e ∈ criticalEdges B p, G ∣ reps e.2.1 ∧ reps e.2.1 / G ∣ K e.2.1.id) :
    ∃ (G' : ℕ) (n : Int → ℕ), 0 < G' ∧ ∃ tu ∈ B.tasks, u.task = tu.id ∧ reps tu = G' * n tu.id ∧
      ∀ σ, ValidGen B σ → ∀ c ∈ p, Shifts (blockStart B σ n) (G' : ℚ) c := by
  obtain ⟨cs0, hcs0, hmem⟩ := hcs
  have hin : ∀ c ∈ p, c ∈ cs0 := fun c hc => by
    obtain ⟨_, _, _, _, h, _⟩ := walk_split hu hc
    exact (hmem c).mp h
  have htasks : ∀ c ∈ p, c.src.task = c.dst.task ∨ ∃ e ∈ criticalEdges B p, e.2.1.id = c.src.task := by
    intro c hc
    rcases (constraint_tasks hB hK hcs0 (hin c hc)).1 with h | ⟨e, he, h1, h2⟩
    · exact Or.inl h
    · refine Or.inr ⟨e, ?_, h2.symm⟩
      unfold criticalEdges
      rw [List.mem_filter]
      refine ⟨he, ?_⟩
      rw [List.any_eq_true]
      exact ⟨c, hc, by simp [h1]⟩
  -- the circuit is not empty
  obtain ⟨c0, hc0, hu0⟩ : ∃ c ∈ p, c.src = u := by
    cases p with
    | nil => exact absurd rfl hne
    | cons c p => exact ⟨c, by simp, hu.2.1⟩
  obtain ⟨⟨tu, htu, hidu⟩, -⟩ := (constraint_tasks hB hK hcs0 (hin c0 hc0)).2
  rw [hu0] at hidu
  -- choose the block sizes
  obtain ⟨G', n, hG', hn⟩ : ∃ (G' : ℕ) (n : Int → ℕ), 0 < G' ∧ ∀ t ∈ B.tasks,
      (t.id = u.task ∨ ∃ c ∈ p, t.id = c.src.task ∨ t.id = c.dst.task) → reps t = G' * n t.id ∧ n t.id ∣ K t.id := by
    rcases circuit_tasks (Src := fun i => ∃ e ∈ criticalEdges B p, e.2.1.id = i) hu htasks with ⟨h1, h2⟩ | h2
    · have hGpos : 0 < G := by
        obtain ⟨e, he, _⟩ := h1
        exact hG0 (List.ne_nil_of_mem he)
      refine ⟨G, fun i => ((B.find i).map fun t => reps t / G).getD 0, hGpos, ?_⟩
      intro t ht hor
      have hsrc : ∃ e ∈ criticalEdges B p, e.2.1.id = t.id := by
        rcases hor with h | ⟨c, hc, h | h⟩
        · rw [h]; exact h1
        · rw [h]; exact (h2 c hc).1
        · rw [h]; exact (h2 c hc).2
      obtain ⟨e, he, hid⟩ := hsrc
      have heB : e ∈ B.channels := (List.mem_filter.mp he).1
      have := hB.ids _ (hB.channels e heB).1 _ ht hid
      obtain ⟨a, b⟩ := hG e he
      rw [this] at a b
      simp only [find_eq hB ht, Option.map_some, Option.getD_some]
      exact ⟨(Nat.mul_div_cancel' a).symm, b⟩
    · refine ⟨reps tu, fun _ => 1, (reps_spec hB htu).1, ?_⟩
      intro t ht hor
      have : t.id = tu.id := by
        rcases hor with h | ⟨c, hc, h | h⟩
        · rw [h, hidu]
        · rw [h, (h2 c hc).1, hidu]
        · rw [h, (h2 c hc).2, hidu]
      rw [hB.ids t ht tu htu this]
      simp
  exact ⟨G', n, hG', tu, htu, hidu, (hn tu htu (Or.inl hidu.symm)).1, fun σ hσ c hc =>
    constraint_shift hB hσ hK hcs0 hG' (hin c hc) (fun t ht hor => hn t ht (Or.inr ⟨c, hc, hor⟩))⟩

/-- `p` is a circuit of positive duration and of ratio `th`. -/
structure CircuitRatio (cs : List EvConstraint) (th : ℚ) (p : List EvConstraint) : Prop where
  circuit : ∃ u, IsWalk cs u p u
  posD : 0 < totalD p
  ratio : totalD p * th = totalW p

theorem CycleAnswer.circuitRatio {cs : List EvConstraint} {th : ℚ} {p : List EvConstraint} (h : CycleAnswer cs th p) :
    CircuitRatio cs th p := ⟨h.circuit, h.posD, h.ratio⟩

/-- Lower bound: if the tasks of the critical circuit run in whole blocks, no schedule beats the circuit. -/
theorem lower_bound {B : BaseGraph} (hB : BaseOK B) {K : Int → ℕ} (hK : ∀ i, 0 < K i) {cs : List EvConstraint}
    (hcs : GraphFor B K cs) {th : ℚ} {p : List EvConstraint} (hp : CircuitRatio cs th p) (hth : 0 < th) {G : ℕ}
    (hG0 : criticalEdges B p ≠ [] → 0 < G)
    (hG : ∀ e ∈ criticalEdges B p, G ∣ reps e.2.1 ∧ reps e.2.1 / G ∣ K e.2.1.id)
    {Ω : ℚ} (hΩ : Ω ∈ SustainablePeriods B) : 1 / th ≤ Ω := by
  obtain ⟨σ, hσ, hsus⟩ := hΩ
  obtain ⟨u, hu⟩ := hp.circuit
  have hne : p ≠ [] := by rintro rfl; have := hp.posD; simp [totalD] at this
  have hW : 0 < totalW p := by rw [← hp.ratio]; exact mul_pos hp.posD hth
  obtain ⟨G', n, hG', tu, htu, hidu, hrep, hsh⟩ := blocks hB hK hcs hu hne hG0 hG
  have hshift := hsh σ hσ
  obtain ⟨C, hC⟩ := hsus tu htu
  have hGq : (0 : ℚ) < G' := by exact_mod_cast hG'
  have hbound : ∀ b : ℕ, blockStart B σ n u b ≤ Ω * b / G' + (Ω * idx B u / tu.ni + C) := by
    intro b
    unfold blockStart
    rw [hidu, phOf_eq hB htu]
    have := hC (idx B u + b * (n tu.id * tu.durations.length))
    obtain ⟨hr, hni⟩ := reps_spec hB htu
    have h1 : (tu.durations.length : ℚ) ≠ 0 := by exact_mod_cast (hB.tasks tu htu).phases.ne'
    have h2 : (n tu.id : ℚ) ≠ 0 := by
      have : n tu.id ≠ 0 := by
        intro h0; rw [h0] at hrep; omega
      exact_mod_cast this
    have h3 : (G' : ℚ) ≠ 0 := hGq.ne'
    have hniq : (tu.ni : ℚ) = tu.durations.length * (G' * n tu.id) := by rw [hni, hrep]; push_cast; ring
    have e : Ω * ((idx B u + b * (n tu.id * tu.durations.length) : ℕ) : ℚ) / tu.ni = Ω * idx B u / tu.ni + Ω * b / G' := by
      rw [hniq]; push_cast; field_simp
    rw [e] at this
    linarith
  have hfin := circuit_bound hGq hu hshift hW hbound
  rw [div_le_iff₀ hth]
  have := hp.ratio
  have hD := hp.posD
  rw [← this] at hfin
  have : totalD p * 1 ≤ totalD p * (Ω * th) := by linarith
  have := le_of_mul_le_mul_left this hD
  linarith

/-- A circuit of non-positive ratio whose tasks run in whole blocks excludes every schedule. -/
theorem no_schedule {B : BaseGraph} (hB : BaseOK B) {K : Int → ℕ} (hK : ∀ i, 0 < K i) {cs : List EvConstraint}
    (hcs : GraphFor B K cs) {th : ℚ} {p : List EvConstraint} (hp : CircuitRatio cs th p) (hth : th ≤ 0) {G : ℕ}
    (hG0 : criticalEdges B p ≠ [] → 0 < G)
    (hG : ∀ e ∈ criticalEdges B p, G ∣ reps e.2.1 ∧ reps e.2.1 / G ∣ K e.2.1.id) : ¬ ∃ σ, ValidGen B σ := by
  rintro ⟨σ, hσ⟩
  obtain ⟨u, hu⟩ := hp.circuit
  have hne : p ≠ [] := by rintro rfl; have := hp.posD; simp [totalD] at this
  have hW : totalW p ≤ 0 := by rw [← hp.ratio]; exact mul_nonpos_of_nonneg_of_nonpos hp.posD.le hth
  obtain ⟨G', n, hG', tu, htu, hidu, hrep, hsh⟩ := blocks hB hK hcs hu hne hG0 hG
  have hmono : Monotone (blockStart B σ n u) := by
    have hm : Monotone (σ u.task) := by
      apply monotone_nat_of_le_succ
      intro k
      rw [hidu]
      have h1 := hσ.noOverlap tu htu k
      have h2 : 0 ≤ tu.dur k := by
        unfold KTask.dur
        have hlt : k % tu.durations.length < tu.durations.length := Nat.mod_lt _ (hB.tasks tu htu).phases
        rw [List.getD_eq_getElem _ _ hlt]
        exact (hB.tasks tu htu).durNonneg _ (List.getElem_mem hlt)
      linarith
    intro a b hab
    exact hm (by have := Nat.mul_le_mul_right (n u.task * phOf B u.task) hab; omega)
  have := circuit_deadlock (by exact_mod_cast hG' : (0 : ℚ) < G') hu (hsh σ hσ) hW hmono
  linarith [hp.posD]

/-- The best cycle ratio is reached by a K-periodic schedule with non-negative starts. -/
theorem attained_nonneg {B : BaseGraph} (hB : BaseOK B) {K : Int → ℕ} (hK : ∀ i, 0 < K i) {cs : List EvConstraint}
    (hcs : GraphFor B K cs) {th : ℚ} (hth : 0 < th)
    (best : ∀ u q, IsWalk cs u q u → totalD q * th ≤ totalW q) : ∃ S, ValidSchedule (B.withK K) S (1 / th) ∧ ∀ e ∈ graphEvents (B.withK K), 0 ≤ S e := by
  obtain ⟨cs0, hcs0, hmem⟩ := hcs
  have hok := withK_ok hB (K := K) (fun t _ => hK _)
  have hwalk : ∀ (p : List EvConstraint) (u v : Event), IsWalk cs0 u p v → IsWalk cs u p v := by
    intro p
    induction p with
    | nil => intro u v h; exact h
    | cons e p ih => intro u v ⟨a, b, c⟩; exact ⟨(hmem e).mpr a, b, ih _ _ c⟩
  have hΩ : (0 : ℚ) < 1 / th := by positivity
  have hno : NoPositiveCircuit cs0 (1 / th) := by
    intro u p hp
    have h1 := best u p (hwalk p u u hp)
    have h2 : (p.map fun c => c.d - 1 / th * c.w).sum = totalD p - 1 / th * totalW p := by
      unfold totalD totalW
      clear h1 hp
      induction p with
      | nil => simp
      | cons e p ih => simp only [List.map_cons, List.sum_cons]; rw [ih]; ring
    rw [h2]
    have h3 : 1 / th * (totalD p * th) ≤ 1 / th * totalW p := mul_le_mul_of_nonneg_left h1 hΩ.le
    have h4 : 1 / th * (totalD p * th) = totalD p := by field_simp
    linarith
  obtain ⟨-, a2, a3⟩ := C21_starting_times (graphEvents (B.withK K)) cs0 (1 / th) (eventGraph_events hok hcs0)
  set S := (computeStartingTime (graphEvents (B.withK K)) cs0 (some (1 / th))).2 with hS
  have hfeas := a2.mpr hno
  obtain ⟨n1, -, -⟩ := a3 hfeas
  obtain ⟨cs', h', e⟩ := C15_C16_graph_iff hok S hΩ.le
  rw [hcs0] at h'; cases h'
  exact ⟨S, e.mp hfeas, n1⟩

theorem attained_schedule {B : BaseGraph} (hB : BaseOK B) {K : Int → ℕ} (hK : ∀ i, 0 < K i) {cs : List EvConstraint}
    (hcs : GraphFor B K cs) {th : ℚ} (hth : 0 < th)
    (best : ∀ u q, IsWalk cs u q u → totalD q * th ≤ totalW q) : ∃ S, ValidSchedule (B.withK K) S (1 / th) := by
  obtain ⟨S, h, _⟩ := attained_nonneg hB hK hcs hth best
  exact ⟨S, h⟩

/-- Upper bound: that schedule, read as a general schedule, keeps the pace. -/
theorem attained_paced {B : BaseGraph} (hB : BaseOK B) {K : Int → ℕ} (hK : ∀ i, 0 < K i) {cs : List EvConstraint}
    (hcs : GraphFor B K cs) {th : ℚ} (hth : 0 < th)
    (best : ∀ u q, IsWalk cs u q u → totalD q * th ≤ totalW q) :
    ∃ σ, ValidGen B σ ∧ ∀ t ∈ B.tasks, ∃ C, ∀ k : ℕ, |σ t.id k - 1 / th * k / t.ni| ≤ C := by
  obtain ⟨S, ⟨v1, v2⟩, n1⟩ := attained_nonneg hB hK hcs hth best
  have hΩ : (0 : ℚ) < 1 / th := by positivity
  have htk : ∀ t ∈ B.tasks, (t, K t.id) ∈ (B.withK K).tasks := fun t ht => List.mem_map.mpr ⟨t, ht, rfl⟩
  set σ : Int → ℕ → ℚ := fun i k => ((B.find i).map fun t => execStart S (1 / th) t (K i) k).getD 0 with hσ
  have hσe : ∀ t ∈ B.tasks, ∀ k, σ t.id k = execStart S (1 / th) t (K t.id) k := by
    intro t ht k; rw [hσ]; simp only [find_eq hB ht, Option.map_some, Option.getD_some]
  have hpos : ∀ t ∈ B.tasks, ∀ k, 0 ≤ S ⟨t.id, (k % t.durations.length : ℕ) + 1, ((k / t.durations.length) % K t.id : ℕ) + 1⟩ := by
    intro t ht k
    have hP := (hB.tasks t ht).phases
    set x := k % (K t.id * t.durations.length) with hx
    have hxlt : x < K t.id * t.durations.length := Nat.mod_lt _ (Nat.mul_pos (hK _) hP)
    have := n1 _ (evAt_mem (htk t ht) hP hxlt)
    unfold evAt at this
    have m1 : x % t.durations.length = k % t.durations.length := Nat.mod_mul_left_mod _ _ _
    have m2 : x / t.durations.length = k / t.durations.length % K t.id := by
      rw [hx, Nat.mul_comm, Nat.mod_mul_right_div_self]
    rw [m1, m2] at this
    exact this
  refine ⟨σ, ⟨?_, ?_, ?_⟩, ?_⟩
  · intro t ht k
    rw [hσe t ht]
    unfold execStart
    have h1 := hpos t ht k
    have h2 : (0 : ℚ) < t.ni := by exact_mod_cast (hB.tasks t ht).ni
    positivity
  · intro t ht k
    rw [hσe t ht, hσe t ht]
    exact v1 _ (htk t ht) k
  · intro c hc
    obtain ⟨hs, ht, -⟩ := hB.channels c hc
    have := v2 (c.1, (c.2.1, K c.2.1.id), (c.2.2, K c.2.2.id)) (List.mem_map.mpr ⟨c, hc, rfl⟩)
    unfold ChannelSafe execEnd at this
    have e1 : σ c.2.2.id = execStart S (1 / th) c.2.2 (K c.2.2.id) := funext (hσe _ ht)
    have e2 : (fun k => σ c.2.1.id k + c.2.1.dur k) = fun k => execStart S (1 / th) c.2.1 (K c.2.1.id) k + c.2.1.dur k := by
      funext k; rw [hσe _ hs]
    rw [e1, e2]
    exact this
  · intro t ht
    have hP := (hB.tasks t ht).phases
    have hKP : 0 < K t.id * t.durations.length := Nat.mul_pos (hK _) hP
    refine ⟨∑ x ∈ range (K t.id * t.durations.length), S (evAt t x) + 1 / th / t.ni * (K t.id * t.durations.length), fun k => ?_⟩
    rw [hσe t ht]
    set x := k % (K t.id * t.durations.length) with hx
    have hxlt : x < K t.id * t.durations.length := Nat.mod_lt _ hKP
    have hk : k = x + (k / (K t.id * t.durations.length)) * (K t.id * t.durations.length) := by rw [hx, Nat.mod_add_div']
    have h1 : execStart S (1 / th) t (K t.id) k = S (evAt t x) + (k / (K t.id * t.durations.length) : ℕ) *
        (1 / th * (t.durations.length * K t.id) / t.ni) := by
      conv_lhs => rw [hk]
      rw [per_mul (fun k => execStart_period (S := S) (Ω := 1 / th) hP (hK t.id) k), execStart_first hxlt]
    rw [h1]
    have h2 : S (evAt t x) ≤ ∑ x ∈ range (K t.id * t.durations.length), S (evAt t x) :=
      Finset.single_le_sum (f := fun x => S (evAt t x)) (fun y hy => n1 _ (evAt_mem (htk t ht) hP (by simpa using hy)))
        (by simpa using hxlt)
    have hni : (0 : ℚ) < t.ni := by exact_mod_cast (hB.tasks t ht).ni
    have h3 : ((k / (K t.id * t.durations.length) : ℕ) : ℚ) * (1 / th * (t.durations.length * K t.id) / t.ni) ≤ 1 / th * k / t.ni := by
      have h4 : ((k / (K t.id * t.durations.length) : ℕ) : ℚ) * (K t.id * t.durations.length) ≤ k := by
        exact_mod_cast Nat.div_mul_le_self k (K t.id * t.durations.length)
      have : ((k / (K t.id * t.durations.length) : ℕ) : ℚ) * (1 / th * (t.durations.length * K t.id) / t.ni)
          = 1 / th / t.ni * (((k / (K t.id * t.durations.length) : ℕ) : ℚ) * (K t.id * t.durations.length)) := by ring
      rw [this]
      have h5 : 1 / th * (k : ℚ) / t.ni = 1 / th / t.ni * k := by ring
      rw [h5]
      exact mul_le_mul_of_nonneg_left h4 (by positivity)
    have h6 : 1 / th * k / t.ni - 1 / th / t.ni * (K t.id * t.durations.length) ≤
        ((k / (K t.id * t.durations.length) : ℕ) : ℚ) * (1 / th * (t.durations.length * K t.id) / t.ni) := by
      have h4 : (k : ℚ) - (K t.id * t.durations.length) ≤
          ((k / (K t.id * t.durations.length) : ℕ) : ℚ) * (K t.id * t.durations.length) := by
        have : (k : ℚ) = x + ((k / (K t.id * t.durations.length) : ℕ) : ℚ) * (K t.id * t.durations.length) := by
          exact_mod_cast hk
        have h7 : (x : ℚ) ≤ K t.id * t.durations.length := by exact_mod_cast hxlt.le
        linarith
      have e1 : ((k / (K t.id * t.durations.length) : ℕ) : ℚ) * (1 / th * (t.durations.length * K t.id) / t.ni)
          = 1 / th / t.ni * (((k / (K t.id * t.durations.length) : ℕ) : ℚ) * (K t.id * t.durations.length)) := by ring
      have e2 : 1 / th * k / t.ni - 1 / th / t.ni * (K t.id * t.durations.length)
          = 1 / th / t.ni * ((k : ℚ) - (K t.id * t.durations.length)) := by ring
      rw [e1, e2]
      exact mul_le_mul_of_nonneg_left h4 (by positivity)
    have h7 : 0 ≤ S (evAt t x) := n1 _ (evAt_mem (htk t ht) hP hxlt)
    have h8 : 0 ≤ 1 / th / t.ni * (K t.id * t.durations.length) := by positivity
    rw [abs_le]
    constructor <;> linarith

/-- In particular it sustains the period. -/
theorem attained {B : BaseGraph} (hB : BaseOK B) {K : Int → ℕ} (hK : ∀ i, 0 < K i) {cs : List EvConstraint}
    (hcs : GraphFor B K cs) {th : ℚ} (hth : 0 < th)
    (best : ∀ u q, IsWalk cs u q u → totalD q * th ≤ totalW q) : 1 / th ∈ SustainablePeriods B := by
  obtain ⟨σ, h1, h2⟩ := attained_paced hB hK hcs hth best
  refine ⟨σ, h1, fun t ht => ?_⟩
  obtain ⟨C, hC⟩ := h2 t ht
  exact ⟨C, fun k => by linarith [(abs_le.mp (hC k)).2]⟩

end Kiter
