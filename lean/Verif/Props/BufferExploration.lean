/-
C70-C72: the buffer exploration with the K-periodic analysis returns the Pareto front of throughput and storage of the
graph, over all schedules.
-/
import Verif.Lemmas.Buffers
import Verif.Lemmas.ExactSolver

set_option autoImplicit false

namespace Kiter
open Finset

variable {B : BaseGraph} {solve : List EvConstraint → Option (ℚ × List EvConstraint)} {fuel : ℕ} {D : DSE (B.m + B.m)}
  {init : SD (B.m + B.m)}

/-- The cycle ratio solver answers correctly on the event graphs of the graph and of its extensions by feedback channels
(C65). -/
def SolverOK (B : BaseGraph) (solve : List EvConstraint → Option (ℚ × List EvConstraint)) : Prop :=
  ∀ G, G = B ∨ (∃ q, G = B.bounded q) → BaseOK G → ∀ K cs th p, ((∀ i, 0 < K i) ∧ ∀ t ∈ G.tasks, K t.id ∣ reps t) →
    (∃ cs0, eventGraph (G.withK K) = some cs0 ∧ ∀ c, c ∈ cs ↔ c ∈ cs0) → solve cs = some (th, p) → CycleAnswer cs th p

theorem channel_ok (hB : BaseOK B) (i : Fin B.m) : ChannelOK B.channels[i].1 B.channels[i].2.1 B.channels[i].2.2 :=
  (hB.channels _ (List.getElem_mem _)).2.2

/-- Steps divide the rates and are positive. -/
theorem Explores.step_spec (hB : BaseOK B) (hE : Explores solve B fuel D init) (i : Fin B.m) :
    0 < D.step (Fin.natAdd B.m i) ∧ (∀ r ∈ B.channels[i].1.outPhases, D.step (Fin.natAdd B.m i) ∣ r) ∧
      ∀ r ∈ B.channels[i].1.inPhases, D.step (Fin.natAdd B.m i) ∣ r := by
  have hc := channel_ok hB i
  have hne : B.channels[i].1.outPhases ≠ [] := by
    intro h; have := hc.outPos; rw [h] at this; simp at this
  obtain ⟨g, h1, h2, h3, -⟩ := C34_step_is_gcd B.channels[i].1.outPhases B.channels[i].1.inPhases hne
  rw [hE.step i] at h1
  cases h1
  refine ⟨?_, fun r hr => h3 r (List.mem_append_left _ hr), fun r hr => h3 r (List.mem_append_right _ hr)⟩
  rcases h2.lt_or_eq with h | h
  · exact h
  · exfalso
    have : B.channels[i].1.outPhases.sum = 0 := List.sum_eq_zero fun r hr => by
      have := h3 r (List.mem_append_left _ hr)
      rw [← h] at this
      exact Int.zero_dvd.1 this
    have := hc.outPos
    omega

theorem Explores.start_spec (hB : BaseOK B) (hE : Explores solve B fuel D init)
    (hmax : ∀ i, init.quantity (Fin.natAdd B.m i) < 2147483647) (i : Fin B.m) :
    B.channels[i].1.preload ≤ init.quantity (Fin.natAdd B.m i) ∧
      D.step (Fin.natAdd B.m i) ∣ init.quantity (Fin.natAdd B.m i) - B.channels[i].1.preload := by
  obtain ⟨-, h2, h3⟩ := hE.step_spec hB i
  obtain ⟨p, hp, c, hc, h⟩ := minSize_spec (hE.start i) (hmax i)
  rw [h]
  exact channelBound_spec (channel_ok hB i).preload (h2 p hp) (h3 c hc)

theorem Explores.modelled_feedback (hE : Explores solve B fuel D init) (i : Fin B.m) :
    D.modelled (Fin.natAdd B.m i) = true := by
  rw [hE.modelled, decide_eq_true_eq]
  unfold primeId
  rw [Fin.addCases_right]
  omega

theorem Explores.not_modelled (hids : ∀ c ∈ B.channels, c.1.id ≤ B.m) (hE : Explores solve B fuel D init) (i : Fin B.m) :
    D.modelled (Fin.castAdd B.m i) = false := by
  rw [hE.modelled, decide_eq_false_iff_not]
  unfold primeId
  rw [Fin.addCases_left]
  have := hids _ (List.getElem_mem i.2)
  simpa using this

theorem Explores.step_pos (hB : BaseOK B) (hids : ∀ c ∈ B.channels, c.1.id ≤ B.m) (hE : Explores solve B fuel D init)
    (e : Fin (B.m + B.m)) (he : D.modelled e = true) : 0 < D.step e := by
  induction e using Fin.addCases with
  | left i => rw [hE.not_modelled hids] at he; simp at he
  | right i => exact (hE.step_spec hB i).1

theorem Explores.lattice_iff (hids : ∀ c ∈ B.channels, c.1.id ≤ B.m) (hE : Explores solve B fuel D init)
    {q : Fin (B.m + B.m) → Int} : D.Lattice init.quantity q ↔ (∀ i, q (Fin.castAdd B.m i) = 0) ∧
      ∀ i, ∃ k : ℕ, caps q i = init.quantity (Fin.natAdd B.m i) + k * D.step (Fin.natAdd B.m i) := by
  constructor
  · intro h
    refine ⟨fun i => ?_, fun i => ?_⟩
    · rcases h (Fin.castAdd B.m i) with h | ⟨hm, -⟩
      · rw [h, hE.original]
      · rw [hE.not_modelled hids] at hm; simp at hm
    · rcases h (Fin.natAdd B.m i) with h | ⟨-, k, h⟩
      · exact ⟨0, by simpa [caps] using h⟩
      · exact ⟨k, h⟩
  · rintro ⟨h1, h2⟩ e
    induction e using Fin.addCases with
    | left i => left; rw [h1, hE.original]
    | right i => right; exact ⟨hE.modelled_feedback i, h2 i⟩

theorem sum_caps {q : Fin (B.m + B.m) → Int} (h : ∀ i, q (Fin.castAdd B.m i) = 0) : ∑ e, q e = ∑ i, caps q i := by
  rw [Fin.sum_univ_add]
  simp [h, caps]

/-- Quantities of the extended graph for given capacities. -/
def ofCaps (w : Fin B.m → Int) : Fin (B.m + B.m) → Int := Fin.addCases (fun _ => 0) w

theorem caps_ofCaps (w : Fin B.m → Int) : caps (ofCaps w) = w := by
  funext i; unfold caps ofCaps; exact Fin.addCases_right (motive := fun _ => Int) i

/-- What the analysis of a distribution is. -/
theorem Explores.critical (hB : BaseOK B) (hids : ∀ c ∈ B.channels, c.1.id ≤ B.m) (hE : Explores solve B fuel D init)
    (hsolve : SolverOK B solve) (hmax : ∀ i, init.quantity (Fin.natAdd B.m i) < 2147483647) {q : Fin (B.m + B.m) → Int}
    (hq : ∀ e, init.quantity e ≤ q e) : BaseOK (B.bounded q) ∧ ∃ cc K cs p G, Critical (B.bounded q) (D.analyse q).1 cc K cs p G ∧
      ∀ e, e ∈ (D.analyse q).2 ↔ ∃ c ∈ cc, c.1.id = primeId B e := by
  have hok : BaseOK (B.bounded q) := bounded_ok hB hids fun i => (hE.start_spec hB hmax i).1.trans (hq _)
  have h := hE.analyse q hq
  unfold analyseBounded at h
  obtain ⟨o, ho, h⟩ := Option.map_eq_some_iff.mp h
  obtain ⟨r, rfl, h'⟩ := Option.map_eq_some_iff.mp h
  clear h
  obtain ⟨K, cs, p, G, hcr⟩ := cycles_critical hok solve (hsolve _ (.inr ⟨q, rfl⟩) hok) fuel r ho
  refine ⟨hok, r.2, K, cs, p, G, ?_, fun e => ?_⟩
  · rw [← h']; exact hcr
  · rw [← h']
    simp [List.any_eq_true]

theorem thrOf_nonneg (q : Fin (B.m + B.m) → Int) : 0 ≤ D.thrOf q := by
  unfold DSE.thrOf
  split
  · exact le_rfl
  · rename_i h; exact not_lt.1 h

/-- The recorded throughput is the throughput of the graph with these capacities. -/
theorem Explores.throughput (hB : BaseOK B) (hids : ∀ c ∈ B.channels, c.1.id ≤ B.m) (hE : Explores solve B fuel D init)
    (hsolve : SolverOK B solve) (hmax : ∀ i, init.quantity (Fin.natAdd B.m i) < 2147483647) {q : Fin (B.m + B.m) → Int}
    (hq : ∀ e, init.quantity e ≤ q e) : HasThroughput B (caps q) (D.thrOf q) := by
  obtain ⟨hok, cc, K, cs, p, G, hcr, -⟩ := hE.critical hB hids hsolve hmax hq
  obtain ⟨h1, h2⟩ := hcr.verdict hok
  unfold DSE.thrOf HasThroughput
  rcases lt_or_ge 0 (D.analyse q).1 with h | h
  · rw [if_neg (not_lt.2 h.le), ← bounded_periods]
    exact .inl ⟨h, h1 h⟩
  · refine .inr ⟨?_, ?_⟩
    · split
      · rfl
      · linarith
    · rintro ⟨σ, hσ⟩
      exact h2 h ⟨σ, bounded_valid.2 hσ⟩

theorem HasThroughput.unique {w : Fin B.m → Int} {a b : ℚ} (ha : HasThroughput B w a) (hb : HasThroughput B w b) : a = b := by
  rcases ha with ⟨a0, a1⟩ | ⟨a0, a1⟩ <;> rcases hb with ⟨b0, b1⟩ | ⟨b0, b1⟩
  · have := a1.unique b1
    rw [one_div, one_div] at this
    exact inv_injective this
  · obtain ⟨⟨σ, h, -⟩, -⟩ := a1; exact absurd ⟨σ, h⟩ b1
  · obtain ⟨⟨σ, h, -⟩, -⟩ := b1; exact absurd ⟨σ, h⟩ a1
  · rw [a0, b0]

theorem HasThroughput.congr {w w' : Fin B.m → Int} {a : ℚ} (ha : HasThroughput B w a)
    (h : ∀ σ, BoundedSchedule B w σ ↔ BoundedSchedule B w' σ) : HasThroughput B w' a := by
  unfold HasThroughput at *
  simpa only [h] using ha

/-- **C71** Larger capacities never reduce the throughput. -/
theorem C71_monotone {w w' : Fin B.m → Int} (hw : w ≤ w') {a b : ℚ} (ha : HasThroughput B w a) (hb : HasThroughput B w' b) :
    a ≤ b := by
  have hmono : ∀ σ, BoundedSchedule B w σ → BoundedSchedule B w' σ := fun σ h =>
    ⟨h.valid, fun i => (h.room i).mono (by have : w i ≤ w' i := hw i; linarith)⟩
  rcases ha with ⟨a0, ⟨σ, h1, h2⟩, -⟩ | ⟨rfl, a1⟩ <;> rcases hb with ⟨b0, b1⟩ | ⟨rfl, b1⟩
  · have := b1.2 ⟨σ, hmono σ h1, h2⟩
    exact (one_div_le_one_div b0 a0).1 this
  · exact absurd ⟨σ, hmono σ h1⟩ b1
  · exact b0.le
  · exact le_rfl

/-- To be faster, some of the critical channels reported by the analysis must grow. -/
theorem Explores.complete (hB : BaseOK B) (hids : ∀ c ∈ B.channels, c.1.id ≤ B.m) (hE : Explores solve B fuel D init)
    (hsolve : SolverOK B solve) (hmax : ∀ i, init.quantity (Fin.natAdd B.m i) < 2147483647) {q q' : Fin (B.m + B.m) → Int}
    (hge : ∀ e, init.quantity e ≤ q e) (hle : q ≤ q') (hlt : D.thrOf q < D.thrOf q') :
    ∃ e ∈ (D.analyse q).2, D.modelled e = true ∧ q e < q' e := by
  by_contra hcon
  push Not at hcon
  have hge' : ∀ e, init.quantity e ≤ q' e := fun e => (hge e).trans (hle e)
  obtain ⟨hok, cc, K, cs, p, G, hcr, hmem⟩ := hE.critical hB hids hsolve hmax hge
  obtain ⟨hok', -⟩ := hE.critical hB hids hsolve hmax hge'
  -- critical feedback channels have the same capacity
  have hsame : ∀ i, feedback B i (caps q i) ∈ cc → caps q' i = caps q i := by
    intro i hi
    have hin : Fin.natAdd B.m i ∈ (D.analyse q).2 := by
      rw [hmem]
      refine ⟨_, hi, ?_⟩
      unfold primeId; rw [Fin.addCases_right]; rfl
    exact le_antisymm (hcon _ hin (hE.modelled_feedback i)) (hle _)
  have hkeep : ∀ c ∈ cc, c ∈ (B.bounded q').channels := by
    intro c hc
    have hcB : c ∈ (B.bounded q).channels := by
      have := hc; rw [hcr.edges] at this; exact criticalEdges_sub _ _ c this
    rcases bounded_channels.1 hcB with h | ⟨i, rfl⟩
    · exact bounded_channels.2 (.inl h)
    · exact bounded_channels.2 (.inr ⟨i, by rw [hsame i hc]⟩)
  have hpair : ∀ c' ∈ (B.bounded q').channels, ∃ c ∈ (B.bounded q).channels, c.1.id = c'.1.id ∧ c.2.1 = c'.2.1 := by
    intro c' hc'
    rcases bounded_channels.1 hc' with h | ⟨i, rfl⟩
    · exact ⟨c', bounded_channels.2 (.inl h), rfl, rfl⟩
    · exact ⟨_, bounded_channels.2 (.inr ⟨i, rfl⟩), rfl, rfl⟩
  obtain ⟨t1, t2⟩ := hcr.transfer hok hok' rfl hkeep hpair
  have hthr' := hE.throughput hB hids hsolve hmax hge'
  have hq0 := thrOf_nonneg (D := D) q
  rcases hthr' with ⟨a0, a1⟩ | ⟨a0, -⟩
  · rw [← bounded_periods] at a1
    rcases lt_or_ge 0 (D.analyse q).1 with h | h
    · have h1 := t1 h _ a1.1
      have h2 : D.thrOf q = (D.analyse q).1 := by unfold DSE.thrOf; rw [if_neg (not_lt.2 h.le)]
      rw [h2] at hlt
      have := (one_div_le_one_div h a0).1 h1
      linarith
    · obtain ⟨⟨σ, hσ, -⟩, -⟩ := a1
      exact t2 h ⟨σ, hσ⟩
  · rw [a0] at hlt; linarith

/-- The critical channels reported by the analysis are complete: to be faster, some of them must grow. -/
theorem Explores.criticalComplete (hB : BaseOK B) (hids : ∀ c ∈ B.channels, c.1.id ≤ B.m) (hE : Explores solve B fuel D init)
    (hsolve : SolverOK B solve) (hmax : ∀ i, init.quantity (Fin.natAdd B.m i) < 2147483647) :
    D.CriticalComplete init.quantity := by
  intro q q' hl hl' hle hlt
  have hstep := hE.step_pos hB hids
  obtain ⟨e, h1, h2, h3⟩ := hE.complete hB hids hsolve hmax (DSE.lattice_ge hstep hl) hle hlt
  refine ⟨e, h1, h2, ?_⟩
  induction e using Fin.addCases with
  | left i => rw [hE.not_modelled hids] at h2; simp at h2
  | right i =>
    obtain ⟨k, hk⟩ := ((hE.lattice_iff hids).1 hl).2 i
    obtain ⟨k', hk'⟩ := ((hE.lattice_iff hids).1 hl').2 i
    change caps q i < caps q' i at h3
    change caps q i + _ ≤ caps q' i
    have h5 := (hE.step_spec hB i).1
    rw [hk, hk'] at h3 ⊢
    have h6 : (k : Int) + 1 ≤ k' := by
      by_contra hc
      have : (k' : Int) ≤ k := by omega
      nlinarith
    nlinarith

/-- The target is the throughput without bounds. -/
theorem Explores.target_spec (hB : BaseOK B) (hE : Explores solve B fuel D init) (hsolve : SolverOK B solve) (hpos : 0 < D.target) :
    IsLeast (SustainablePeriods B) (1 / D.target) ∧
      ∃ σ, ValidGen B σ ∧ ∀ t ∈ B.tasks, ∃ C, ∀ k : ℕ, |σ t.id k - 1 / D.target * k / t.ni| ≤ C := by
  obtain ⟨cc, h⟩ := hE.target
  obtain ⟨K, cs, p, G, hcr⟩ := cycles_critical hB solve (hsolve B (.inl rfl) hB) fuel _ h
  exact ⟨(hcr.verdict hB).1 hpos, attained_paced hB hcr.k.1 hcr.graph hpos hcr.answer.best⟩

theorem Explores.bounded_by_target (hB : BaseOK B) (hids : ∀ c ∈ B.channels, c.1.id ≤ B.m) (hE : Explores solve B fuel D init)
    (hsolve : SolverOK B solve) (hmax : ∀ i, init.quantity (Fin.natAdd B.m i) < 2147483647) (hpos : 0 < D.target)
    {q : Fin (B.m + B.m) → Int} (hq : ∀ e, init.quantity e ≤ q e) : D.thrOf q ≤ D.target := by
  rcases hE.throughput hB hids hsolve hmax hq with ⟨a0, ⟨σ, h1, h2⟩, -⟩ | ⟨a0, -⟩
  · have := (hE.target_spec hB hsolve hpos).1.2 ⟨σ, h1.valid, h2⟩
    exact (one_div_le_one_div hpos a0).1 this
  · rw [a0]; exact hpos.le

/-- Some capacities reach the target. -/
theorem Explores.reachable (hB : BaseOK B) (hids : ∀ c ∈ B.channels, c.1.id ≤ B.m) (hE : Explores solve B fuel D init)
    (hsolve : SolverOK B solve) (hmax : ∀ i, init.quantity (Fin.natAdd B.m i) < 2147483647) (hpos : 0 < D.target) :
    ∃ q, D.Lattice init.quantity q ∧ D.thrOf q = D.target := by
  obtain ⟨hleast, σ, hσ, hpace⟩ := hE.target_spec hB hsolve hpos
  have hΩ : 0 < 1 / D.target := by positivity
  have hroom : ∀ i : Fin B.m, ∃ L : Int, ∀ p, L ≤ p → NeverShort (rate B.channels[i].1.outPhases) (rate B.channels[i].1.inPhases) p
      (fun k => σ B.channels[i].2.2.id k + B.channels[i].2.2.dur k) (σ B.channels[i].2.1.id) := by
    intro i
    obtain ⟨hs, ht, hc⟩ := hB.channels B.channels[i] (List.getElem_mem _)
    have ts := hB.tasks _ hs
    have tt := hB.tasks _ ht
    obtain ⟨C1, hC1⟩ := hpace _ hs
    obtain ⟨C2, hC2⟩ := hpace _ ht
    obtain ⟨M, hM⟩ : ∃ M, ∀ k, B.channels[i].2.2.dur k ≤ M := by
      refine ⟨B.channels[i].2.2.durations.sum, fun k => ?_⟩
      have hlt := Nat.mod_lt k tt.phases
      unfold KTask.dur
      rw [List.getD_eq_getElem _ _ hlt]
      exact List.single_le_sum tt.durNonneg _ (List.getElem_mem hlt)
    refine tokens_suffice hc.outNonneg hc.inNonneg (by rw [← hc.dstPhases]; exact tt.phases)
      (by rw [← hc.srcPhases]; exact ts.phases) hc.outPos tt.ni ts.ni (by rw [← hc.srcPhases, ← hc.dstPhases]; exact hc.balance.symm)
      hΩ (A := C2 + M) (A' := C1) (fun k => ?_) fun k => ?_
    · have := (abs_le.1 (hC2 k)).2; have := hM k; linarith
    · have := (abs_le.1 (hC1 k)).1; linarith
  choose L hL using hroom
  -- enough steps
  have hk : ∀ i, ∃ k : ℕ, L i ≤ init.quantity (Fin.natAdd B.m i) + k * D.step (Fin.natAdd B.m i) - B.channels[i].1.preload := by
    intro i
    have h1 := (hE.step_spec hB i).1
    refine ⟨(L i + B.channels[i].1.preload - init.quantity (Fin.natAdd B.m i)).toNat, ?_⟩
    have h2 := Int.self_le_toNat (L i + B.channels[i].1.preload - init.quantity (Fin.natAdd B.m i))
    have h3 : (0 : Int) ≤ (L i + B.channels[i].1.preload - init.quantity (Fin.natAdd B.m i)).toNat := Int.natCast_nonneg _
    have h4 := le_mul_of_one_le_right h3 h1
    linarith
  choose k hk using hk
  set w : Fin B.m → Int := fun i => init.quantity (Fin.natAdd B.m i) + k i * D.step (Fin.natAdd B.m i) with hw
  have hlat : D.Lattice init.quantity (ofCaps w) := by
    rw [hE.lattice_iff hids]
    refine ⟨fun i => by simp [ofCaps], fun i => ⟨k i, ?_⟩⟩
    rw [caps_ofCaps]
  have hbs : BoundedSchedule B w σ := ⟨hσ, fun i => hL i _ (hk i)⟩
  have hthr := hE.throughput hB hids hsolve hmax (DSE.lattice_ge (hE.step_pos hB hids) hlat)
  rw [caps_ofCaps] at hthr
  refine ⟨ofCaps w, hlat, hthr.unique (.inl ⟨hpos, ⟨σ, hbs, fun t ht => ?_⟩, fun Ω ⟨τ, h1, h2⟩ => hleast.2 ⟨τ, h1.valid, h2⟩⟩)⟩
  obtain ⟨C, hC⟩ := hpace t ht
  exact ⟨C, fun k => by linarith [(abs_le.1 (hC k)).2]⟩

/-- Capacities between two steps allow the same schedules. -/
theorem round_schedules (hB : BaseOK B) (hE : Explores solve B fuel D init)
    (hmax : ∀ i, init.quantity (Fin.natAdd B.m i) < 2147483647) (w : Fin B.m → Int)
    (hw : ∀ i, init.quantity (Fin.natAdd B.m i) ≤ w i) :
    ∃ k : Fin B.m → ℕ, (∀ i, init.quantity (Fin.natAdd B.m i) + k i * D.step (Fin.natAdd B.m i) ≤ w i) ∧
      ∀ σ, BoundedSchedule B w σ ↔
        BoundedSchedule B (fun i => init.quantity (Fin.natAdd B.m i) + k i * D.step (Fin.natAdd B.m i)) σ := by
  have key : ∀ i, ∃ k : ℕ, init.quantity (Fin.natAdd B.m i) + k * D.step (Fin.natAdd B.m i) ≤ w i ∧
      (w i - B.channels[i].1.preload) / D.step (Fin.natAdd B.m i) =
      (init.quantity (Fin.natAdd B.m i) + k * D.step (Fin.natAdd B.m i) - B.channels[i].1.preload) / D.step (Fin.natAdd B.m i) := by
    intro i
    obtain ⟨h1, -, -⟩ := hE.step_spec hB i
    obtain ⟨-, z, hz⟩ := hE.start_spec hB hmax i
    have hwi := hw i
    generalize init.quantity (Fin.natAdd B.m i) = q0 at *
    generalize D.step (Fin.natAdd B.m i) = g at *
    generalize B.channels[i].1.preload = t at *
    have hnn : 0 ≤ (w i - q0) / g := Int.ediv_nonneg (by omega) h1.le
    refine ⟨((w i - q0) / g).toNat, ?_, ?_⟩
    · rw [Int.toNat_of_nonneg hnn]
      have := Int.ediv_mul_le (w i - q0) h1.ne'
      linarith
    · rw [Int.toNat_of_nonneg hnn]
      have e1 : w i - t = (w i - q0) + g * z := by linarith
      have e2 : q0 + (w i - q0) / g * g - t = g * ((w i - q0) / g + z) := by linarith [mul_add g ((w i - q0) / g) z, mul_comm g ((w i - q0) / g)]
      rw [e1, e2, Int.add_mul_ediv_left _ _ h1.ne', Int.mul_ediv_cancel_left _ h1.ne']
  choose k hk1 hk2 using key
  refine ⟨k, hk1, fun σ => ⟨fun h => ⟨h.valid, fun i => ?_⟩, fun h => ⟨h.valid, fun i => ?_⟩⟩⟩
  · obtain ⟨h1, h2, h3⟩ := hE.step_spec hB i
    exact neverShort_round h1 h2 h3 (hk2 i) (h.room i)
  · exact (h.room i).mono (by have := hk1 i; omega)

/-- **C70** Let the graph be consistent, its maximal throughput be at least the comparison tolerance, and the cycle ratio
solver be correct. When the exploration stops with result `R`:
* for all capacities not below the initial ones, some retained distribution is no larger and reaches the throughput of
  these capacities (over all schedules) up to twice the tolerance;
* the recorded throughput of every retained distribution is the throughput of the graph with these capacities, and its
  size is their sum;
* no retained distribution dominates another one.
And the exploration does stop. -/
theorem C70_pareto_front (hB : BaseOK B) (hids : ∀ c ∈ B.channels, c.1.id ≤ B.m) (hE : Explores solve B fuel D init)
    (hsolve : SolverOK B solve) (hmax : ∀ i, init.quantity (Fin.natAdd B.m i) < 2147483647) (heps : 0 < D.eps)
    (htarget : D.eps ≤ D.target) :
    (∃ rounds R, D.explore init rounds = some (some R)) ∧
    ∀ rounds R, D.explore init rounds = some (some R) →
      (∀ (w : Fin B.m → Int) (thr : ℚ), (∀ i, init.quantity (Fin.natAdd B.m i) ≤ w i) → HasThroughput B w thr →
        ∃ r ∈ R.members, r.size ≤ ∑ i, w i ∧ thr - 2 * D.eps < r.thr) ∧
      (∀ r ∈ R.members, HasThroughput B (fun i => r.quantity (Fin.natAdd B.m i)) r.thr ∧
        r.size = ∑ i, r.quantity (Fin.natAdd B.m i)) ∧
      (∀ x ∈ R.members, ∀ y ∈ R.members, x ≠ y → ¬ Dominates D.eps x y) := by
  have hpos : 0 < D.target := by linarith
  have hinit : init.size = ∑ e, init.quantity e := by
    rw [hE.size, foldl_add_eq, Fin.sum_univ_def]; simp
  have hstep := hE.step_pos hB hids
  have hbound : ∀ q, D.Lattice init.quantity q → D.thrOf q ≤ D.target := fun q hq =>
    hE.bounded_by_target hB hids hsolve hmax hpos (DSE.lattice_ge hstep hq)
  have hcrit := hE.criticalComplete hB hids hsolve hmax
  obtain ⟨top, htop, hreach⟩ := hE.reachable hB hids hsolve hmax hpos
  refine ⟨C55_terminates D init hinit heps htarget hstep hbound hcrit top htop hreach, fun rounds R hR => ?_⟩
  obtain ⟨c1, c2, c3⟩ := C54_pareto_complete D init hinit heps htarget hstep hbound hcrit rounds R hR
  refine ⟨fun w thr hw hthr => ?_, fun r hr => ?_, c3⟩
  · obtain ⟨k, hk1, hk2⟩ := round_schedules hB hE hmax w hw
    set w' : Fin B.m → Int := fun i => init.quantity (Fin.natAdd B.m i) + k i * D.step (Fin.natAdd B.m i) with hw'
    have hlat : D.Lattice init.quantity (ofCaps w') := by
      rw [hE.lattice_iff hids]
      exact ⟨fun i => by simp [ofCaps], fun i => ⟨k i, by rw [caps_ofCaps]⟩⟩
    have h1 := hE.throughput hB hids hsolve hmax (DSE.lattice_ge hstep hlat)
    rw [caps_ofCaps] at h1
    have h2 := (hthr.congr hk2).unique h1
    obtain ⟨r, hr, h3, h4⟩ := c1 _ hlat
    refine ⟨r, hr, ?_, by rw [h2]; exact h4⟩
    rw [sum_caps (((hE.lattice_iff hids).1 hlat).1), caps_ofCaps] at h3
    exact h3.trans (sum_le_sum fun i _ => hk1 i)
  · obtain ⟨h1, h2, h3⟩ := c2 r hr
    refine ⟨?_, ?_⟩
    · rw [h3]; exact hE.throughput hB hids hsolve hmax (DSE.lattice_ge hstep h1)
    · rw [h2, sum_caps (((hE.lattice_iff hids).1 h1).1)]; rfl

/-- **C72** With one phase per task and positive durations, capacities below the initial ones have no schedule at all, so the
exploration starts low enough: the retained distributions match *all* capacities with a positive throughput. -/
theorem C72_all_capacities (hB : BaseOK B) (hids : ∀ c ∈ B.channels, c.1.id ≤ B.m) (hE : Explores solve B fuel D init)
    (hsolve : SolverOK B solve) (hmax : ∀ i, init.quantity (Fin.natAdd B.m i) < 2147483647) (heps : 0 < D.eps)
    (htarget : D.eps ≤ D.target) (hone : ∀ t ∈ B.tasks, t.durations.length = 1)
    (hdur : ∀ t ∈ B.tasks, ∀ d ∈ t.durations, 0 < d) :
    (∀ w σ, BoundedSchedule B w σ → ∀ i, init.quantity (Fin.natAdd B.m i) ≤ w i) ∧
    ∀ rounds R, D.explore init rounds = some (some R) → ∀ (w : Fin B.m → Int) (thr : ℚ), 0 < thr → HasThroughput B w thr →
      ∃ r ∈ R.members, r.size ≤ ∑ i, w i ∧ thr - 2 * D.eps < r.thr := by
  have key : ∀ w σ, BoundedSchedule B w σ → ∀ i, init.quantity (Fin.natAdd B.m i) ≤ w i := by
    intro w σ h i
    obtain ⟨hs, ht, hc⟩ := hB.channels B.channels[i] (List.getElem_mem _)
    obtain ⟨p, hp⟩ := List.length_eq_one_iff.1 (by rw [← hc.srcPhases]; exact hone _ hs : B.channels[i].1.inPhases.length = 1)
    obtain ⟨c, hcc⟩ := List.length_eq_one_iff.1 (by rw [← hc.dstPhases]; exact hone _ ht : B.channels[i].1.outPhases.length = 1)
    obtain ⟨c', hc', p', hp', hq⟩ := minSize_spec (hE.start i) (hmax i)
    rw [hcc, List.mem_singleton] at hc'
    rw [hp, List.mem_singleton] at hp'
    subst hc' hp'
    have hpp := hc.inPos; rw [hp] at hpp
    have hcp := hc.outPos; rw [hcc] at hcp
    have hr : ∀ x : Int, rate [x] = fun _ => x := fun x => by funext k; simp [rate, Nat.mod_one]
    have h1 := h.valid.channels _ (List.getElem_mem i.2)
    have h2 := h.room i
    have hdp : ∀ t ∈ B.tasks, ∀ k, 0 < t.dur k := fun t ht k => by
      have hlt := Nat.mod_lt k (hB.tasks t ht).phases
      unfold KTask.dur
      rw [List.getD_eq_getElem _ _ hlt]
      exact hdur t ht _ (List.getElem_mem hlt)
    change NeverShort (rate B.channels[i].1.inPhases) (rate B.channels[i].1.outPhases) _ _ _ at h1
    rw [hp, hcc, hr, hr] at h1 h2
    have h3 := capacity_needed (p := p') (c := c') (t := B.channels[i].1.preload) (w := w i) (by simpa using hpp) (by simpa using hcp)
      hc.preload
      (s := σ B.channels[i].2.1.id) (es := fun k => σ B.channels[i].2.1.id k + B.channels[i].2.1.dur k)
      (z := σ B.channels[i].2.2.id) (ez := fun k => σ B.channels[i].2.2.id k + B.channels[i].2.2.dur k)
      (fun k => ⟨by have := hdp _ hs k; linarith, h.valid.noOverlap _ hs k⟩)
      (fun k => ⟨by have := hdp _ ht k; linarith, h.valid.noOverlap _ ht k⟩) (h.valid.nonneg _ ht 0) h1 h2
    rw [hq]
    have hsym : channelBound c' p' B.channels[i].1.preload = channelBound p' c' B.channels[i].1.preload := by
      unfold channelBound
      rw [Int.gcd_comm c' p', add_comm c' p']
    rw [hsym]
    exact h3
  refine ⟨key, fun rounds R hR w thr hthr h => ?_⟩
  refine ((C70_pareto_front hB hids hE hsolve hmax heps htarget).2 rounds R hR).1 w thr ?_ h
  rcases h with ⟨-, ⟨σ, hσ, -⟩, -⟩ | ⟨h0, -⟩
  · exact key w σ hσ
  · rw [h0] at hthr; exact absurd hthr (lt_irrefl _)

/-! ### The exploration is defined for every graph -/

/-- The solver answers on the event graphs of the graph and of its extensions. -/
def SolverTotal (B : BaseGraph) (solve : List EvConstraint → Option (ℚ × List EvConstraint)) : Prop :=
  ∀ G, G = B ∨ (∃ q, G = B.bounded q) → BaseOK G → ∀ K cs, ((∀ i, 0 < K i) ∧ ∀ t ∈ G.tasks, K t.id ∣ reps t) →
    (∃ cs0, eventGraph (G.withK K) = some cs0 ∧ ∀ c, c ∈ cs ↔ c ∈ cs0) → ∃ r, solve cs = some r

theorem cyclesLoop_total {B : BaseGraph} (hB : BaseOK B) (solve : List EvConstraint → Option (ℚ × List EvConstraint))
    (hsolve : ∀ K cs, KOk B K → GraphFor B K cs → ∃ r, solve cs = some r) (fuel : ℕ) (K : Int → ℕ) (hK : KOk B K)
    (cs : List EvConstraint) (hcs : GraphFor B K cs) (cc : List BChannel) (hcc : ∀ e ∈ cc, e ∈ B.channels) (th : ℚ)
    (hfuel : primeBound B < fuel + primeRank B K) : ∃ r, cyclesLoop solve B fuel K cs cc th = some (some r) := by
  induction fuel generalizing K cs cc th with
  | zero => have := rank_le_bound hB hK; omega
  | succ fuel ih =>
    obtain ⟨K', ch, h1, h2⟩ := updateEventGraph_spec hB hK hcc hcs
    rcases h2 with ⟨rfl, h⟩ | ⟨rfl, cs', h, hcs'⟩
    · exact ⟨(th, cc), by unfold cyclesLoop; rw [h]; rfl⟩
    · obtain ⟨hK', hlt⟩ := rank_lt hB hK hcc h1
      have hb' := rank_le_bound hB hK'
      obtain ⟨r, hs⟩ := hsolve K' cs' hK' hcs'
      by_cases hsame : sameset (criticalEdges B r.2) cc = true
      · exact ⟨(r.1, criticalEdges B r.2), by unfold cyclesLoop; rw [h]; simp [hs, hsame]⟩
      · have e : cyclesLoop solve B (fuel + 1) K cs cc th = cyclesLoop solve B fuel K' cs' (criticalEdges B r.2) r.1 := by
          conv_lhs => unfold cyclesLoop
          rw [h]; simp [hs, hsame]
        rw [e]
        exact ih K' hK' cs' hcs' _ (criticalEdges_sub B r.2) r.1 (by omega)

/-- The analysis of one graph answers when the solver does. -/
theorem cycles_total {B : BaseGraph} (hB : BaseOK B) (solve : List EvConstraint → Option (ℚ × List EvConstraint))
    (hsolve : ∀ K cs, KOk B K → GraphFor B K cs → ∃ r, solve cs = some r) (fuel : ℕ) (hfuel : primeBound B < fuel) :
    ∃ r, cycles solve B fuel = some (some r) := by
  obtain ⟨cs, hcs⟩ := eventGraph_total (withK_ok hB (K := fun _ => 1) (fun _ _ => Nat.one_pos))
  obtain ⟨r, hs⟩ := hsolve _ cs kOk_one ⟨cs, hcs, fun _ => Iff.rfl⟩
  by_cases hc : (criticalEdges B r.2).isEmpty = true
  · exact ⟨_, by unfold cycles; simp only [hcs, hs, Option.bind_eq_bind, Option.bind_some, hc, if_true]; rfl⟩
  · have e : cycles solve B fuel = cyclesLoop solve B fuel (fun _ => 1) cs (criticalEdges B r.2) r.1 := by
      unfold cycles; simp only [hcs, hs, Option.bind_eq_bind, Option.bind_some]; rw [if_neg hc]
    rw [e]
    exact cyclesLoop_total hB solve hsolve fuel _ kOk_one cs ⟨cs, hcs, fun _ => Iff.rfl⟩ _ (criticalEdges_sub B r.2) r.1 (by omega)

/-- The exploration of a graph, with the tolerance `eps`, and its initial distribution. -/
def exploration (solve : List EvConstraint → Option (ℚ × List EvConstraint)) (B : BaseGraph) (fuel : ℕ) (eps : ℚ) :
    DSE (B.m + B.m) where
  eps := eps
  modelled e := decide ((B.m : Int) < primeId B e)
  step := Fin.addCases (fun _ => 0) fun i => (findMinimumStepSz B.channels[i].1.outPhases B.channels[i].1.inPhases).getD 0
  target := match cycles solve B fuel with
    | some (some r) => r.1
    | _ => 0
  analyse q := match analyseBounded solve B fuel q with
    | some (some r) => r
    | _ => (0, [])

/-- The initial distribution of a graph. -/
def initialSD (B : BaseGraph) : SD (B.m + B.m) :=
  let q : Fin (B.m + B.m) → Int := Fin.addCases (fun _ => 0) fun i =>
    (findMinimumChannelSz B.channels[i].1.outPhases B.channels[i].1.inPhases B.channels[i].1.preload).getD 0
  ⟨q, q, 0, (List.finRange (B.m + B.m)).foldl (fun acc e => acc + q e) 0⟩

theorem minChannelLoop_total (inV outV : List Int) (t : Int) (hi : inV ≠ []) (ho : outV ≠ []) (k i : ℕ) (best : Int) :
    ∃ r, minChannelLoop inV outV t k i best = some r := by
  have h1 := List.length_pos_iff.2 hi
  have h2 := List.length_pos_iff.2 ho
  induction k generalizing i best with
  | zero => exact ⟨_, rfl⟩
  | succ k ih =>
    unfold minChannelLoop
    rw [if_neg (by omega), List.getElem?_eq_getElem (Nat.mod_lt _ h1), List.getElem?_eq_getElem (Nat.mod_lt _ h2)]
    exact ih _ _

/-- **C70** The exploration is defined for every consistent graph when the solver always answers: no analysis fails, whatever
the capacities. -/
theorem C70_defined (hB : BaseOK B) (hids : ∀ c ∈ B.channels, c.1.id ≤ B.m) (htot : SolverTotal B solve)
    (hfuel : primeBound B < fuel) (eps : ℚ) (hmax : ∀ i, (initialSD B).quantity (Fin.natAdd B.m i) < 2147483647) :
    Explores solve B fuel (exploration solve B fuel eps) (initialSD B) := by
  have hne : ∀ i : Fin B.m, B.channels[i].1.outPhases ≠ [] ∧ B.channels[i].1.inPhases ≠ [] := by
    intro i
    have hc := channel_ok hB i
    constructor
    · intro h; have := hc.outPos; rw [h] at this; simp at this
    · intro h; have := hc.inPos; rw [h] at this; simp at this
  have hstep : ∀ i : Fin B.m, findMinimumStepSz B.channels[i].1.outPhases B.channels[i].1.inPhases =
      some ((exploration solve B fuel eps).step (Fin.natAdd B.m i)) := by
    intro i
    obtain ⟨g, h, -⟩ := C34_step_is_gcd _ B.channels[i].1.inPhases (hne i).1
    have : (exploration solve B fuel eps).step (Fin.natAdd B.m i) =
        (findMinimumStepSz B.channels[i].1.outPhases B.channels[i].1.inPhases).getD 0 := by
      dsimp only [exploration]; rw [Fin.addCases_right]
    rw [this, h]; rfl
  have hstart : ∀ i : Fin B.m, findMinimumChannelSz B.channels[i].1.outPhases B.channels[i].1.inPhases
      B.channels[i].1.preload = some ((initialSD B).quantity (Fin.natAdd B.m i)) := by
    intro i
    obtain ⟨g, h⟩ := minChannelLoop_total B.channels[i].1.outPhases B.channels[i].1.inPhases B.channels[i].1.preload (hne i).1
      (hne i).2 (Nat.gcd B.channels[i].1.outPhases.length B.channels[i].1.inPhases.length) 0 2147483647
    have : (initialSD B).quantity (Fin.natAdd B.m i) =
        (findMinimumChannelSz B.channels[i].1.outPhases B.channels[i].1.inPhases B.channels[i].1.preload).getD 0 := by
      dsimp only [initialSD]; rw [Fin.addCases_right]
    rw [this]
    unfold findMinimumChannelSz
    rw [h]; rfl
  refine ⟨fun e => rfl, hstep, hstart, fun i => by dsimp only [initialSD]; rw [Fin.addCases_left], rfl, ?_, fun q hq => ?_⟩
  · obtain ⟨r, hr⟩ := cycles_total hB solve (htot B (.inl rfl) hB) fuel hfuel
    refine ⟨r.2, ?_⟩
    have : (exploration solve B fuel eps).target = r.1 := by simp only [exploration, hr]
    rw [this, hr]
  · have hok : BaseOK (B.bounded q) := by
      refine bounded_ok hB hids fun i => ?_
      obtain ⟨p, hp, c, hc, h⟩ := minSize_spec (hstart i) (hmax i)
      have := (channelBound_spec (p := p) (c := c) (g := 1) (channel_ok hB i).preload (one_dvd _) (one_dvd _)).1
      have h2 := hq (Fin.natAdd B.m i)
      rw [h] at h2
      exact this.trans h2
    obtain ⟨r, hr⟩ := cycles_total hok solve (htot _ (.inr ⟨q, rfl⟩) hok) fuel hfuel
    have e1 : analyseBounded solve B fuel q = some (some (r.1, (List.finRange (B.m + B.m)).filter fun e => r.2.any fun c => c.1.id == primeId B e)) := by
      unfold analyseBounded; rw [hr]; rfl
    have e2 : (exploration solve B fuel eps).analyse q = (r.1, (List.finRange (B.m + B.m)).filter fun e => r.2.any fun c => c.1.id == primeId B e) := by
      simp only [exploration, e1]
    rw [e1, e2]

/-- Solvers with these properties exist: exhaustive search, for graphs with positive durations. -/
theorem exhaustive_ok (hpos : ∀ t ∈ B.tasks, ∀ d ∈ t.durations, 0 < d) (hne : B.tasks ≠ []) :
    SolverOK B exhaustive ∧ SolverTotal B exhaustive := by
  have ht : ∀ G, G = B ∨ (∃ q, G = B.bounded q) → G.tasks = B.tasks := by
    rintro G (rfl | ⟨q, rfl⟩) <;> rfl
  refine ⟨fun G hG hok K cs th p hK hcs h => ?_, fun G hG hok K cs hK hcs => ?_⟩
  · exact (exhaustive_event hok (by rw [ht G hG]; exact hpos) hK hcs).1 th p h
  · exact (exhaustive_event hok (by rw [ht G hG]; exact hpos) hK hcs).2 (by rw [ht G hG]; exact hne)

namespace BufferExample
/-- Two tasks of durations 2 and 3, two executions of the first feed one of the second. -/
def A : KTask := ⟨0, [2], [], 1, 2⟩
def C : KTask := ⟨1, [3], [], 1, 1⟩
def ch : KChannel := ⟨1, [1], [2], [], [], 0, 1⟩
def G : BaseGraph := ⟨[A, C], [(ch, A, C)]⟩

theorem G_ok : BaseOK G := by
  have ch_ok : ChannelOK ch A C :=
    ⟨rfl, rfl, rfl, rfl, by decide, by decide, by decide, by decide, by decide, by decide, by decide, by decide, by decide⟩
  have A_ok : TaskOK A 1 := ⟨by decide, rfl, by decide, by decide, by decide, by decide⟩
  have C_ok : TaskOK C 1 := ⟨by decide, rfl, by decide, by decide, by decide, by decide⟩
  constructor
  · simp [G, A, C]
  · intro t ht; simp only [G, List.mem_cons, List.not_mem_nil, or_false] at ht
    rcases ht with rfl | rfl
    · exact A_ok
    · exact C_ok
  · simp [G, A, C]
  · intro c hc; simp only [G, List.mem_cons, List.not_mem_nil, or_false] at hc
    rcases hc with rfl
    exact ⟨by simp [G], by simp [G], ch_ok⟩
  · simp [G]

/-- The exploration of this graph retains the capacities 2, 3 and 4, with throughputs 1/7, 1/5 and 1/4. -/
theorem run : (((exploration exhaustive G 5 (1 / 1000)).explore (initialSD G) 20).map fun o => o.map fun r =>
    r.members.map fun x => (x.size, x.thr)) = some (some [(2, 1 / 7), (3, 1 / 5), (4, 1 / 4)]) := by
  decide +kernel

end BufferExample

open BufferExample in
/-- C70 and C72 apply to this graph. Whatever the schedule, a channel with room for `w` tokens does not allow a throughput
above that of the retained distributions with size at most `w` (plus twice the tolerance). -/
example : ∃ R, (exploration exhaustive G 5 (1 / 1000)).explore (initialSD G) 20 = some (some R) ∧
    ∀ (w : Fin G.m → Int) (thr : ℚ), 0 < thr → HasThroughput G w thr → ∃ r ∈ R.members, r.size ≤ ∑ i, w i ∧ thr - 1 / 500 < r.thr := by
  have h := BufferExample.run
  cases hR : (exploration exhaustive G 5 (1 / 1000)).explore (initialSD G) 20 with
  | none => rw [hR] at h; simp at h
  | some o =>
    cases o with
    | none => rw [hR] at h; simp at h
    | some R =>
      have hpos : ∀ t ∈ G.tasks, ∀ d ∈ t.durations, 0 < d := by decide +kernel
      obtain ⟨s1, s2⟩ := exhaustive_ok (B := G) hpos (by decide)
      have hmax : ∀ i, (initialSD G).quantity (Fin.natAdd G.m i) < 2147483647 := by decide +kernel
      have hids : ∀ c ∈ G.channels, c.1.id ≤ G.m := by decide +kernel
      have hE := C70_defined G_ok hids s2 (fuel := 5) (by decide +kernel) (1 / 1000) hmax
      have ht : (exploration exhaustive G 5 (1 / 1000)).target = 1 / 4 := by decide +kernel
      have he : (exploration exhaustive G 5 (1 / 1000)).eps = 1 / 1000 := rfl
      refine ⟨R, rfl, fun w thr h0 hw => ?_⟩
      obtain ⟨r, h1, h2, h3⟩ := (C72_all_capacities G_ok hids hE s1 hmax (by norm_num [he]) (by norm_num [he, ht])
        (by decide +kernel) hpos).2 20 R hR w thr h0 hw
      exact ⟨r, h1, h2, by rw [he] at h3; linarith⟩

end Kiter
