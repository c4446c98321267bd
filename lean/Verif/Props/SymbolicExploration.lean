/-
C87: the buffer exploration with the self-timed analysis and the corrected detection returns the Pareto front of throughput
and storage of the graph, over all schedules.
-/
import Verif.Model.SymbolicExploration
import Verif.Props.AsapThroughput
import Verif.Props.StorageDeps
import Verif.Props.DSE
import Verif.Props.ChannelSize
import Verif.Props.BufferExploration

set_option autoImplicit false

namespace Kiter
open Kiter.Sim Finset

variable {nV nE : Nat} {g : Graph nV nE} {N : Fin nV → Int} {id : Fin nV → Int} {D : DSE nE} {init : SD nE}

/-- Specification: the best throughput of the graph with the channel sizes `w`, in iterations (`N a` executions of task `a`)
per time unit: `thr` is positive and no valid schedule needs less than `1 / thr` per iteration, while one needs no more; or
it is zero and there is no valid schedule. -/
def Sim.HasThroughput (g : Graph nV nE) (N : Fin nV → Int) (w : Fin nE → Int) (thr : ℚ) : Prop :=
  0 < thr ∧ IsLeast {Ω | ∃ σ, Valid g (some w) σ ∧ Sustained (g.withNi N) σ Ω} (1 / thr) ∨
    thr = 0 ∧ ¬ ∃ σ, Valid g (some w) σ

/-- The graphs of the theorems: well-formed, positive integer durations, consistent with repetition vector `N` below
`INT_MAX`, connected, with at least one channel. -/
structure Sim.Explorable (g : Graph nV nE) (N : Fin nV → Int) : Prop where
  ok : OK g
  durations : IntDurations g
  rep : Rep.compute g.toRep = some (some N)
  fits : ∀ a, N a < intMax
  connected : ∀ a b, Relation.ReflTransGen (Adj g) a b
  channel : 0 < nE

theorem Sim.Explorable.vertices (hx : Explorable g N) : 0 < nV :=
  Nat.lt_of_le_of_lt (Nat.zero_le _) (g.src ⟨0, hx.channel⟩).2

theorem Sim.Explorable.balanced (hx : Explorable g N) : Balanced (g.withNi N) := by
  obtain ⟨h1, h2, -⟩ := C12_balance_partial (hx.ok.rep hx.vertices) hx.rep
  obtain ⟨h3, -⟩ := (C14_consistent_iff (hx.ok.rep hx.vertices)).2.1 ⟨N, hx.rep⟩
  exact ⟨h1, h2, fun e => (h3 e).1, fun e => (h3 e).2, hx.connected⟩

theorem Sim.Explorable.guarded (hx : Explorable g N) (w : Fin nE → Int) : Guarded (g.withNi N) (some w) := by
  intro a
  rcases Relation.ReflTransGen.cases_tail (hx.connected (g.tgt ⟨0, hx.channel⟩) a) with h | ⟨b, -, e, h | h⟩
  · exact ⟨⟨0, hx.channel⟩, .inl h.symm⟩
  · exact ⟨e, .inl h.2⟩
  · exact ⟨e, .inr ⟨rfl, h.1⟩⟩

theorem Sim.Explorable.strong (hx : Explorable g N) (w : Fin nE → Int) (a b : Fin nV) :
    Relation.ReflTransGen (Follows (g.withNi N) (some w)) a b :=
  (hx.connected a b).lift _root_.id fun x y ⟨e, h⟩ => by
    rcases h with h | h
    · exact ⟨e, .inl h⟩
    · exact ⟨e, .inr ⟨rfl, h⟩⟩

theorem Sim.Explorable.start (hx : Explorable g N) (w : Fin nE → Int) :
    ∃ c m, Sim.start (g.withNi N) (some w) true = some (c, m) := by
  have h' := hx.ok.withNi N
  obtain ⟨t, ht⟩ := selectMin_some (g := g.withNi N) (hx.fits ⟨0, hx.vertices⟩)
  unfold Sim.start
  rw [if_pos ⟨fun e => ⟨(h'.prodLen e).ge, (h'.consLen e).ge⟩, fun a => ⟨(h'.phases a).ne', fun h0 => by
    have := h'.durLen a; rw [h0] at this; exact (h'.phases a).ne this⟩⟩, ht]
  exact ⟨_, _, rfl⟩

theorem Sim.valid_withNi' {w : Fin nE → Int} {σ : Fin nV → ℕ → ℚ} : Valid (g.withNi N) (some w) σ ↔ Valid g (some w) σ :=
  ⟨fun h => ⟨h.nonneg, h.noOverlap, h.tokens, h.room⟩, fun h => ⟨h.nonneg, h.noOverlap, h.tokens, h.room⟩⟩

theorem Sim.Explorable.causal (hx : Explorable g N) (w : Fin nE → Int) :
    {Ω | ∃ σ, Valid g (some w) σ ∧ Sustained (g.withNi N) σ Ω} = Sustainable (g.withNi N) (some w) := by
  ext Ω
  exact ⟨fun ⟨σ, h1, h2⟩ => ⟨σ, valid_withNi'.2 h1, (valid_withNi'.2 h1).causal (hx.ok.withNi N) hx.durations.pos, h2⟩,
    fun ⟨σ, h1, _, h2⟩ => ⟨σ, valid_withNi'.1 h1, h2⟩⟩

/-- What one analysis gives: the throughput, and critical channels that are complete. -/
theorem Sim.Explorable.analysed (hx : Explorable g N) (hid : Function.Injective id) {n k : ℕ} {q : Fin nE → Int}
    (hq : ∀ e, g.preload e ≤ q e) {r : ℚ × List (Fin nE)} (hr : analyseSized g id true n k q = some r) :
    HasThroughput g N q r.1 ∧ ∀ q' thr', (∀ e ∈ r.2, q' e = q e) → HasThroughput g N q' thr' → thr' ≤ r.1 := by
  obtain ⟨c, m, hs⟩ := hx.start q
  have hok := hx.ok.withNi N
  have hg := hx.guarded q
  have hb := hx.balanced
  unfold analyseSized at hr
  rw [repeated_eq hx.rep] at hr
  simp only [Option.bind_eq_bind, Option.bind_some, hs] at hr
  obtain ⟨thr, h1, hr⟩ := Option.bind_eq_some_iff.1 hr
  obtain ⟨R, h2, hr⟩ := Option.bind_eq_some_iff.1 hr
  cases hr
  have hres : result (run c m n) = some (some thr) := by
    generalize result (run c m n) = x at h1
    cases x with
    | none => simp at h1
    | some x => simpa using h1
  unfold result at hres
  split at hres
  · rename_i hpc
    cases hres
    have hno := fun w (hw : ∀ e ∈ R, w e = q e) => C86_deadlock (w' := w) hok hg hs (hb.ni _) hid hpc h2 hw
    refine ⟨.inr ⟨rfl, fun ⟨σ, hσ⟩ => hno q (fun _ _ => rfl) ⟨σ, valid_withNi'.2 hσ,
      (valid_withNi'.2 hσ).causal hok hx.durations.pos⟩⟩, fun q' thr' hq' hthr' => ?_⟩
    rcases hthr' with ⟨-, ⟨σ, hσ, -⟩, -⟩ | ⟨h0, -⟩
    · exact absurd ⟨σ, valid_withNi'.2 hσ, (valid_withNi'.2 hσ).causal hok hx.durations.pos⟩ (hno q' hq')
    · exact h0.le
  · rename_i t hpc
    cases hres
    obtain ⟨hpos, hleast⟩ := C67_optimal hok hg hb (by rintro w ⟨⟩; exact hq) hs hpc
    rw [← hx.causal] at hleast
    refine ⟨.inl ⟨hpos, hleast⟩, fun q' thr' hq' hthr' => ?_⟩
    rcases hthr' with ⟨h0, h3, -⟩ | ⟨h0, -⟩
    · rw [hx.causal] at h3
      have := C86_periodic hok hg hb hs hid hpc h2 hq' _ h3
      exact (one_div_le_one_div hpos h0).1 this
    · rw [h0]; exact hpos.le
  · simp at hres

theorem Sim.HasThroughput.unique {w : Fin nE → Int} {a b : ℚ} (ha : HasThroughput g N w a) (hb : HasThroughput g N w b) :
    a = b := by
  rcases ha with ⟨a0, a1⟩ | ⟨a0, a1⟩ <;> rcases hb with ⟨b0, b1⟩ | ⟨b0, b1⟩
  · have := a1.unique b1
    rw [one_div, one_div] at this
    exact inv_injective this
  · obtain ⟨⟨σ, h, -⟩, -⟩ := a1; exact absurd ⟨σ, h⟩ b1
  · obtain ⟨⟨σ, h, -⟩, -⟩ := b1; exact absurd ⟨σ, h⟩ a1
  · rw [a0, b0]

theorem Sim.HasThroughput.nonneg {w : Fin nE → Int} {a : ℚ} (ha : HasThroughput g N w a) : 0 ≤ a :=
  ha.elim (fun h => h.1.le) fun h => h.1.ge

theorem Sim.HasThroughput.congr {w w' : Fin nE → Int} {a : ℚ} (ha : HasThroughput g N w a)
    (h : ∀ σ, Valid g (some w) σ ↔ Valid g (some w') σ) : HasThroughput g N w' a := by
  unfold HasThroughput at *
  simpa only [h] using ha

/-! ### The settings of the exploration -/

theorem Sim.Explores.step_spec (hx : Explorable g N) {corr : Bool} (hE : Explores g id corr D init) (e : Fin nE) :
    0 < D.step e ∧ (∀ r ∈ g.prod e, D.step e ∣ r) ∧ ∀ r ∈ g.cons e, D.step e ∣ r := by
  have hp := hx.balanced.prod e
  have hne : g.prod e ≠ [] := by intro h; change 0 < (g.prod e).sum at hp; rw [h] at hp; simp at hp
  obtain ⟨d, h1, h2, h3, -⟩ := C34_step_is_gcd (g.prod e) (g.cons e) hne
  rw [hE.step e] at h1
  cases h1
  refine ⟨?_, fun r hr => h3 r (List.mem_append_left _ hr), fun r hr => h3 r (List.mem_append_right _ hr)⟩
  rcases h2.lt_or_eq with h | h
  · exact h
  · exfalso
    have : (g.prod e).sum = 0 := List.sum_eq_zero fun r hr => by
      have := h3 r (List.mem_append_left _ hr)
      rw [← h] at this
      exact Int.zero_dvd.1 this
    change 0 < (g.prod e).sum at hp
    omega

theorem Sim.Explores.start_spec (hx : Explorable g N) {corr : Bool} (hE : Explores g id corr D init)
    (hmax : ∀ e, init.quantity e < 2147483647) (e : Fin nE) :
    g.preload e ≤ init.quantity e ∧ D.step e ∣ init.quantity e - g.preload e := by
  obtain ⟨-, h2, h3⟩ := hE.step_spec hx e
  obtain ⟨p, hp, c, hc, h⟩ := minSize_spec (hE.start e) (hmax e)
  rw [h]
  exact channelBound_spec (hx.ok.preload e) (h2 p hp) (h3 c hc)

theorem Sim.Explores.lattice {corr : Bool} (hE : Explores g id corr D init) {q : Fin nE → Int} :
    D.Lattice init.quantity q ↔ ∀ e, ∃ k : ℕ, q e = init.quantity e + k * D.step e := by
  constructor
  · intro h e
    rcases h e with h | ⟨-, k, h⟩
    · exact ⟨0, by simpa using h⟩
    · exact ⟨k, h⟩
  · intro h e
    exact .inr ⟨hE.modelled e, h e⟩

theorem Sim.Explores.analysed (hx : Explorable g N) (hid : Function.Injective id) (hE : Explores g id true D init)
    (hmax : ∀ e, init.quantity e < 2147483647) {q : Fin nE → Int} (hq : ∀ e, init.quantity e ≤ q e) :
    HasThroughput g N q (D.thrOf q) ∧
      ∀ q' thr', (∀ e ∈ (D.analyse q).2, q' e = q e) → HasThroughput g N q' thr' → thr' ≤ D.thrOf q := by
  obtain ⟨n, k, h⟩ := hE.analyse q hq
  obtain ⟨h1, h2⟩ := hx.analysed hid (fun e => (hE.start_spec hx hmax e).1.trans (hq e)) h
  have : D.thrOf q = (D.analyse q).1 := by unfold DSE.thrOf; rw [if_neg (not_lt.2 h1.nonneg)]
  rw [this]
  exact ⟨h1, h2⟩

/-- The critical channels reported by the analysis are complete: to be faster, some of them must grow. -/
theorem Sim.Explores.criticalComplete (hx : Explorable g N) (hid : Function.Injective id) (hE : Explores g id true D init)
    (hmax : ∀ e, init.quantity e < 2147483647) : D.CriticalComplete init.quantity := by
  intro q q' hl hl' hle hlt
  by_contra hcon
  push Not at hcon
  have hstep := fun e (_ : D.modelled e = true) => (hE.step_spec hx e).1
  have h1 := hE.analysed hx hid hmax (DSE.lattice_ge hstep hl)
  have h2 := (hE.analysed hx hid hmax (DSE.lattice_ge hstep hl')).1
  refine absurd (h1.2 q' _ (fun e he => ?_) h2) (not_le.2 hlt)
  have h3 := hcon e he (hE.modelled e)
  have h4 := hle e
  obtain ⟨k, hk⟩ := hE.lattice.1 hl e
  obtain ⟨k', hk'⟩ := hE.lattice.1 hl' e
  have h5 := (hE.step_spec hx e).1
  rw [hk, hk'] at h3 h4
  have h6 : (k : Int) ≤ k' := by
    by_contra hc
    have : (k' : Int) + 1 ≤ k := by omega
    nlinarith
  have h7 : (k' : Int) < k + 1 := by
    by_contra hc
    have : (k : Int) + 1 ≤ k' := by omega
    nlinarith
  have : k = k' := by omega
  rw [hk, hk', this]

theorem Sim.component_stays {nV nE : ℕ} {g : Graph nV nE} {n n' : ℕ} (hn : n ≤ n') {r : Fin nV × ℚ}
    (h : componentThroughput g n = some r) : componentThroughput g n' = some r := by
  unfold componentThroughput at h ⊢
  cases hs : Sim.start g none true with
  | none => rw [hs] at h; simp at h
  | some x =>
    rw [hs] at h
    obtain ⟨c, m⟩ := x
    simp only at h ⊢
    split at h
    · rename_i t ht; rw [result_stays hn ht]; exact h
    · simp at h

theorem Sim.scaled_stays {n n' : ℕ} (hn : n ≤ n') {K : List (Fin nV)} {r : Option ℚ}
    (h : scaledThroughput g n K = some r) : scaledThroughput g n' K = some r := by
  unfold scaledThroughput at h ⊢
  split
  · rename_i hlen
    rw [if_pos hlen] at h
    obtain ⟨s, h1, h⟩ := Option.bind_eq_some_iff.1 h
    obtain ⟨t, h2, h⟩ := Option.bind_eq_some_iff.1 h
    rw [h1]
    simp only [Option.bind_eq_bind, Option.bind_some, component_stays hn h2]
    exact h
  · rename_i hlen
    rw [if_neg hlen] at h
    exact h

theorem Sim.mapM_stays {α β : Type} {f f' : α → Option β} (hf : ∀ x y, f x = some y → f' x = some y) (l : List α) {r : List β}
    (h : l.mapM f = some r) : l.mapM f' = some r := by
  induction l generalizing r with
  | nil => simpa using h
  | cons x l ih =>
    rw [List.mapM_cons] at h ⊢
    obtain ⟨y, h1, h⟩ := Option.bind_eq_some_iff.1 h
    obtain ⟨ys, h2, h⟩ := Option.bind_eq_some_iff.1 h
    rw [hf x y h1]
    simp only [Option.bind_eq_bind, Option.bind_some, ih h2]
    exact h

theorem Sim.asap_stays {n n' : ℕ} (hn : n ≤ n') {thr : ℚ} (h : asapThroughput g id n = some thr) :
    asapThroughput g id n' = some thr := by
  unfold asapThroughput at h ⊢
  obtain ⟨G, h1, h⟩ := Option.bind_eq_some_iff.1 h
  obtain ⟨cs, h2, h⟩ := Option.bind_eq_some_iff.1 h
  rw [h1]
  simp only [Option.bind_eq_bind, Option.bind_some, h2]
  split
  · rename_i hlen
    rw [if_pos hlen] at h
    obtain ⟨ts, h3, h⟩ := Option.bind_eq_some_iff.1 h
    rw [mapM_stays (fun x y => scaled_stays hn) cs h3]
    exact h
  · rename_i hlen
    rw [if_neg hlen] at h
    obtain ⟨r, h3, h⟩ := Option.map_eq_some_iff.1 h
    rw [component_stays hn h3, Option.map_some, h]

/-- The target is the throughput without bounds. -/
theorem Sim.Explores.target_spec (hx : Explorable g N) (hid : Function.Injective id) {corr : Bool}
    (hE : Explores g id corr D init) (hpos : 0 < D.target) :
    (∃ σ, Valid g none σ ∧ ∀ a, ∃ C, ∀ k : ℕ, |σ a k - 1 / D.target * k / N a| ≤ C) ∧
      ∀ Ω σ, Valid g none σ → Sustained (g.withNi N) σ Ω → 1 / D.target ≤ Ω := by
  obtain ⟨n, hn⟩ := hE.target
  obtain ⟨n0, thr, h1, h2⟩ := asap_paced hx.ok hx.durations hx.rep hx.fits hid hx.vertices fun _ => hx.channel
  have : thr = D.target := by
    have e1 := h1 (max n n0) (le_max_right ..)
    rw [asap_stays (le_max_left n n0) hn] at e1
    exact (Option.some.inj e1).symm
  rw [this] at h2
  rcases h2 with ⟨-, h3, h4⟩ | ⟨h0, -⟩
  · exact ⟨h3, h4⟩
  · exact absurd h0 hpos.ne'

theorem Sim.valid_unbounded {w : Fin nE → Int} {σ : Fin nV → ℕ → ℚ} (h : Valid g (some w) σ) : Valid g none σ :=
  ⟨h.nonneg, h.noOverlap, h.tokens, fun w hw => by simp at hw⟩

theorem Sim.Explores.bounded_by_target (hx : Explorable g N) (hid : Function.Injective id) (hE : Explores g id true D init)
    (hmax : ∀ e, init.quantity e < 2147483647) (hpos : 0 < D.target) {q : Fin nE → Int} (hq : ∀ e, init.quantity e ≤ q e) :
    D.thrOf q ≤ D.target := by
  rcases (hE.analysed hx hid hmax hq).1 with ⟨a0, ⟨σ, h1, h2⟩, -⟩ | ⟨a0, -⟩
  · have := (hE.target_spec hx hid hpos).2 _ σ (valid_unbounded h1) h2
    exact (one_div_le_one_div hpos a0).1 this
  · rw [a0]; exact hpos.le

/-- Some sizes reach the target. -/
theorem Sim.Explores.reachable (hx : Explorable g N) (hid : Function.Injective id) (hE : Explores g id true D init)
    (hmax : ∀ e, init.quantity e < 2147483647) (hpos : 0 < D.target) :
    ∃ q, D.Lattice init.quantity q ∧ D.thrOf q = D.target := by
  obtain ⟨⟨σ, hσ, hpace⟩, hlow⟩ := hE.target_spec hx hid hpos
  have hok := hx.ok
  have hb := hx.balanced
  have hΩ : 0 < 1 / D.target := by positivity
  have hroom : ∀ e : Fin nE, ∃ L : Int, ∀ p, L ≤ p → NeverShort (rate (g.cons e)) (rate (g.prod e)) p
      (fun k => σ (g.tgt e) k + g.execDur (g.tgt e) k) (σ (g.src e)) := by
    intro e
    obtain ⟨C1, hC1⟩ := hpace (g.src e)
    obtain ⟨C2, hC2⟩ := hpace (g.tgt e)
    obtain ⟨M, hM⟩ : ∃ M, ∀ k, g.execDur (g.tgt e) k ≤ M := by
      refine ⟨(g.dur (g.tgt e)).sum, fun k => ?_⟩
      exact List.single_le_sum (hok.durNonneg _) _ (execDur_mem hok _ k)
    refine tokens_suffice (hok.consNonneg e) (hok.prodNonneg e) (by rw [hok.consLen]; exact hok.phases _)
      (by rw [hok.prodLen]; exact hok.phases _) (hb.cons e) (hb.ni (g.tgt e)) (hb.ni (g.src e))
      (by rw [hok.prodLen, hok.consLen]; exact (hb.bal e).symm)
      hΩ (A := C2 + M) (A' := C1) (fun k => ?_) fun k => ?_
    · have := (abs_le.1 (hC2 k)).2; have := hM k
      show _ ≤ 1 / D.target * k / N (g.tgt e) + _
      linarith
    · have := (abs_le.1 (hC1 k)).1
      show 1 / D.target * k / N (g.src e) - _ ≤ _
      linarith
  choose L hL using hroom
  have hk : ∀ e, ∃ k : ℕ, L e ≤ init.quantity e + k * D.step e - g.preload e := by
    intro e
    have h1 := (hE.step_spec hx e).1
    refine ⟨(L e + g.preload e - init.quantity e).toNat, ?_⟩
    have h2 := Int.self_le_toNat (L e + g.preload e - init.quantity e)
    have h3 : (0 : Int) ≤ (L e + g.preload e - init.quantity e).toNat := Int.natCast_nonneg _
    have h4 := le_mul_of_one_le_right h3 h1
    linarith
  choose k hk using hk
  have hlat : D.Lattice init.quantity fun e => init.quantity e + k e * D.step e := hE.lattice.2 fun e => ⟨k e, rfl⟩
  have hval : Valid g (some fun e => init.quantity e + k e * D.step e) σ :=
    ⟨hσ.nonneg, hσ.noOverlap, hσ.tokens, by rintro w ⟨⟩ e; exact hL e _ (hk e)⟩
  have hstep := fun e (_ : D.modelled e = true) => (hE.step_spec hx e).1
  have hthr := (hE.analysed hx hid hmax (DSE.lattice_ge hstep hlat)).1
  refine ⟨_, hlat, hthr.unique (.inl ⟨hpos, ⟨σ, hval, fun a => ?_⟩, fun Ω ⟨τ, h1, h2⟩ => hlow Ω τ (valid_unbounded h1) h2⟩)⟩
  obtain ⟨C, hC⟩ := hpace a
  exact ⟨C, fun k => by have := (abs_le.1 (hC k)).2; show _ ≤ 1 / D.target * k / N a + C; linarith⟩

/-- Sizes between two steps allow the same schedules. -/
theorem Sim.round_schedules (hx : Explorable g N) {corr : Bool} (hE : Explores g id corr D init)
    (hmax : ∀ e, init.quantity e < 2147483647) (w : Fin nE → Int) (hw : ∀ e, init.quantity e ≤ w e) :
    ∃ k : Fin nE → ℕ, (∀ e, init.quantity e + k e * D.step e ≤ w e) ∧
      ∀ σ, Valid g (some w) σ ↔ Valid g (some fun e => init.quantity e + k e * D.step e) σ := by
  have key : ∀ e, ∃ k : ℕ, init.quantity e + k * D.step e ≤ w e ∧
      (w e - g.preload e) / D.step e = (init.quantity e + k * D.step e - g.preload e) / D.step e := by
    intro e
    obtain ⟨h1, -, -⟩ := hE.step_spec hx e
    obtain ⟨-, z, hz⟩ := hE.start_spec hx hmax e
    have hwi := hw e
    generalize init.quantity e = q0 at *
    generalize D.step e = d at *
    generalize g.preload e = t at *
    have hnn : 0 ≤ (w e - q0) / d := Int.ediv_nonneg (by omega) h1.le
    refine ⟨((w e - q0) / d).toNat, ?_, ?_⟩
    · rw [Int.toNat_of_nonneg hnn]
      have := Int.ediv_mul_le (w e - q0) h1.ne'
      linarith
    · rw [Int.toNat_of_nonneg hnn]
      have e1 : w e - t = (w e - q0) + d * z := by linarith
      have e2 : q0 + (w e - q0) / d * d - t = d * ((w e - q0) / d + z) := by
        linarith [mul_add d ((w e - q0) / d) z, mul_comm d ((w e - q0) / d)]
      rw [e1, e2, Int.add_mul_ediv_left _ _ h1.ne', Int.mul_ediv_cancel_left _ h1.ne']
  choose k hk1 hk2 using key
  refine ⟨k, hk1, fun σ => ⟨fun h => ⟨h.nonneg, h.noOverlap, h.tokens, ?_⟩, fun h => ⟨h.nonneg, h.noOverlap, h.tokens, ?_⟩⟩⟩
  · rintro _ ⟨⟩ e
    obtain ⟨h1, h2, h3⟩ := hE.step_spec hx e
    exact neverShort_round h1 h3 h2 (hk2 e) (h.room _ rfl e)
  · rintro _ ⟨⟩ e
    exact (h.room _ rfl e).mono (by have := hk1 e; omega)

/-! ### The front -/

/-- **C87** Let the graph be consistent and connected, with positive integer durations, and let its maximal throughput be at
least the comparison tolerance. When the exploration with `SYMB_EXEC_CORRECTED` stops with result `R`:
* for all channel sizes not below the initial ones, some retained distribution is no larger and reaches the throughput of
  these sizes (over all schedules) up to twice the tolerance;
* the recorded throughput of every retained distribution is the throughput of the graph with these sizes, and its size is
  their sum;
* no retained distribution dominates another one.
And the exploration does stop. -/
theorem C87_pareto_front (hx : Explorable g N) (hid : Function.Injective id) (hE : Sim.Explores g id true D init)
    (hmax : ∀ e, init.quantity e < 2147483647) (heps : 0 < D.eps) (htarget : D.eps ≤ D.target) :
    (∃ rounds R, D.explore init rounds = some (some R)) ∧
    ∀ rounds R, D.explore init rounds = some (some R) →
      (∀ (w : Fin nE → Int) (thr : ℚ), (∀ e, init.quantity e ≤ w e) → Sim.HasThroughput g N w thr →
        ∃ r ∈ R.members, r.size ≤ ∑ e, w e ∧ thr - 2 * D.eps < r.thr) ∧
      (∀ r ∈ R.members, Sim.HasThroughput g N r.quantity r.thr ∧ r.size = ∑ e, r.quantity e) ∧
      (∀ x ∈ R.members, ∀ y ∈ R.members, x ≠ y → ¬ Dominates D.eps x y) := by
  have hpos : 0 < D.target := by linarith
  have hinit : init.size = ∑ e, init.quantity e := by
    rw [hE.size, foldl_add_eq, Fin.sum_univ_def]; simp
  have hstep := fun e (_ : D.modelled e = true) => (hE.step_spec hx e).1
  have hbound : ∀ q, D.Lattice init.quantity q → D.thrOf q ≤ D.target := fun q hq =>
    hE.bounded_by_target hx hid hmax hpos (DSE.lattice_ge hstep hq)
  have hcrit := hE.criticalComplete hx hid hmax
  obtain ⟨top, htop, hreach⟩ := hE.reachable hx hid hmax hpos
  refine ⟨C55_terminates D init hinit heps htarget hstep hbound hcrit top htop hreach, fun rounds R hR => ?_⟩
  obtain ⟨c1, c2, c3⟩ := C54_pareto_complete D init hinit heps htarget hstep hbound hcrit rounds R hR
  refine ⟨fun w thr hw hthr => ?_, fun r hr => ?_, c3⟩
  · obtain ⟨k, hk1, hk2⟩ := Sim.round_schedules hx hE hmax w hw
    have hlat : D.Lattice init.quantity fun e => init.quantity e + k e * D.step e := hE.lattice.2 fun e => ⟨k e, rfl⟩
    have h1 := (hE.analysed hx hid hmax (DSE.lattice_ge hstep hlat)).1
    have h2 := (hthr.congr hk2).unique h1
    obtain ⟨r, hr, h3, h4⟩ := c1 _ hlat
    exact ⟨r, hr, h3.trans (sum_le_sum fun e _ => hk1 e), by rw [h2]; exact h4⟩
  · obtain ⟨h1, h2, h3⟩ := c2 r hr
    exact ⟨by rw [h3]; exact (hE.analysed hx hid hmax (DSE.lattice_ge hstep h1)).1, h2⟩

/-- **C87** With one phase per task, sizes below the initial ones have no schedule at all, so the exploration starts low
enough: the retained distributions match *all* channel sizes with a positive throughput. -/
theorem C87_all_sizes (hx : Explorable g N) (hid : Function.Injective id) (hE : Sim.Explores g id true D init)
    (hmax : ∀ e, init.quantity e < 2147483647) (heps : 0 < D.eps) (htarget : D.eps ≤ D.target) (hone : ∀ a, g.phases a = 1) :
    (∀ w σ, Valid g (some w) σ → ∀ e, init.quantity e ≤ w e) ∧
    ∀ rounds R, D.explore init rounds = some (some R) → ∀ (w : Fin nE → Int) (thr : ℚ), 0 < thr → Sim.HasThroughput g N w thr →
      ∃ r ∈ R.members, r.size ≤ ∑ e, w e ∧ thr - 2 * D.eps < r.thr := by
  have key : ∀ w σ, Valid g (some w) σ → ∀ e, init.quantity e ≤ w e := by
    intro w σ h e
    obtain ⟨p, hp⟩ := List.length_eq_one_iff.1 (by rw [hx.ok.prodLen]; exact hone _ : (g.prod e).length = 1)
    obtain ⟨c, hc⟩ := List.length_eq_one_iff.1 (by rw [hx.ok.consLen]; exact hone _ : (g.cons e).length = 1)
    obtain ⟨p', hp', c', hc', hq⟩ := minSize_spec (hE.start e) (hmax e)
    rw [hp, List.mem_singleton] at hp'
    rw [hc, List.mem_singleton] at hc'
    subst hp' hc'
    have hpp : 0 < (g.prod e).sum := hx.balanced.prod e
    have hcp : 0 < (g.cons e).sum := hx.balanced.cons e
    rw [hp] at hpp; rw [hc] at hcp
    have hr : ∀ x : Int, rate [x] = fun _ => x := fun x => by funext k; simp [rate, Nat.mod_one]
    have h1 := h.tokens e
    have h2 := h.room w rfl e
    have hdp : ∀ a k, 0 < g.execDur a k := fun a k => hx.durations.pos a _ (execDur_mem hx.ok a k)
    rw [hp, hc, hr, hr] at h1 h2
    rw [hq]
    exact capacity_needed (p := p') (c := c') (by simpa using hpp) (by simpa using hcp) (hx.ok.preload e)
      (s := σ (g.src e)) (es := fun k => σ (g.src e) k + g.execDur (g.src e) k)
      (z := σ (g.tgt e)) (ez := fun k => σ (g.tgt e) k + g.execDur (g.tgt e) k)
      (fun k => ⟨by have := hdp (g.src e) k; linarith, h.noOverlap _ k⟩)
      (fun k => ⟨by have := hdp (g.tgt e) k; linarith, h.noOverlap _ k⟩) (h.nonneg _ 0) h1 h2
  refine ⟨key, fun rounds R hR w thr hthr h => ?_⟩
  refine ((C87_pareto_front hx hid hE hmax heps htarget).2 rounds R hR).1 w thr ?_ h
  rcases h with ⟨-, ⟨σ, hσ, -⟩, -⟩ | ⟨h0, -⟩
  · exact key w σ hσ
  · rw [h0] at hthr; exact absurd hthr (lt_irrefl _)

/-- **C87** Every analysis of the exploration returns, whatever the channel sizes (not below the initial tokens). -/
theorem C87_returns (hx : Explorable g N) (hid : Function.Injective id) {q : Fin nE → Int} (hq : ∀ e, g.preload e ≤ q e) :
    ∃ n k r, analyseSized g id true n k q = some r := by
  obtain ⟨c, m, hs⟩ := hx.start q
  have hok := hx.ok.withNi N
  obtain ⟨n, thr, hres, -⟩ := C68_decides hok (hx.guarded q) hx.balanced hx.durations.pos (by rintro w ⟨⟩; exact hq)
    (hx.strong q) hs
  obtain ⟨k, R, hR⟩ := C86_returns (n := n) hok (hx.guarded q) hs (hx.balanced.ni _) hid (by
    unfold result at hres
    split at hres
    · rename_i h; exact .inr h
    · rename_i t h; cases hres; exact .inl ⟨thr, h⟩
    · simp at hres)
  refine ⟨n, k, (thr, R), ?_⟩
  unfold analyseSized
  rw [repeated_eq hx.rep]
  simp only [Option.bind_eq_bind, Option.bind_some, hs, hres, Option.join_some, hR]

/-- **C87** So the exploration is defined for every such graph: there are settings as `Explores` requires. -/
theorem C87_defined (hx : Explorable g N) (hid : Function.Injective id) (eps : ℚ)
    (hmax : ∀ e, ∀ r, findMinimumChannelSz (g.prod e) (g.cons e) (g.preload e) = some r → r < 2147483647) :
    ∃ (D : DSE nE) (init : SD nE), Sim.Explores g id true D init ∧ D.eps = eps ∧ ∀ e, init.quantity e < 2147483647 := by
  have hok := hx.ok
  have hpl : ∀ e, g.prod e ≠ [] := fun e h => by
    have := hok.prodLen e; rw [h] at this; exact (hok.phases _).ne this
  have hcl : ∀ e, g.cons e ≠ [] := fun e h => by
    have := hok.consLen e; rw [h] at this; exact (hok.phases _).ne this
  have hstep : ∀ e, ∃ s, findMinimumStepSz (g.prod e) (g.cons e) = some s := fun e =>
    (C34_step_is_gcd _ (g.cons e) (hpl e)).imp fun _ h => h.1
  have hstart : ∀ e, ∃ s, findMinimumChannelSz (g.prod e) (g.cons e) (g.preload e) = some s := fun e =>
    minChannelLoop_total _ _ _ (hpl e) (hcl e) _ _ _
  choose step hstep using hstep
  choose q0 hq0 using hstart
  obtain ⟨n0, target, ht, -⟩ := asap_paced hok hx.durations hx.rep hx.fits hid hx.vertices fun _ => hx.channel
  have han : ∀ q : Fin nE → Int, ∃ r, (∀ e, q0 e ≤ q e) → ∃ n k, analyseSized g id true n k q = some r := by
    intro q
    by_cases hq : ∀ e, q0 e ≤ q e
    · obtain ⟨n, k, r, h⟩ := C87_returns hx hid (q := q) fun e => by
        obtain ⟨p, hp, c, hc, h⟩ := minSize_spec (hq0 e) (hmax e _ (hq0 e))
        have := (channelBound_spec (g := 1) (hok.preload e) (one_dvd p) (one_dvd c)).1
        rw [← h] at this
        exact this.trans (hq e)
      exact ⟨r, fun _ => ⟨n, k, h⟩⟩
    · exact ⟨(0, []), fun h => absurd h hq⟩
  choose analyse han using han
  exact ⟨⟨eps, fun _ => true, step, target, analyse⟩,
    ⟨q0, q0, 0, (List.finRange nE).foldl (fun acc e => acc + q0 e) 0⟩,
    ⟨fun _ => rfl, hstep, hq0, rfl, ⟨n0, ht n0 le_rfl⟩, han⟩, rfl, fun e => hmax e _ (hq0 e)⟩

/-! ### An example, and the default detection -/

/-- Three tasks of duration 1: 0 → 2 and 1 → 2 with rates 1 and 2, 0 → 1 with rate 3. -/
def Sim.exFront : Graph 3 3 :=
  ⟨![0, 1, 0], ![2, 2, 1], ![[1], [1], [3]], ![[2], [2], [3]], ![0, 0, 0], ![1, 1, 1], ![[1], [1], [1]], ![0, 0, 0]⟩

theorem Sim.exFront_explorable : Explorable exFront ![2, 2, 1] := by
  refine ⟨by constructor <;> decide +kernel, ⟨fun a d hd => ⟨1, by decide, ?_⟩, by decide +kernel⟩,
    by decide +kernel, by decide +kernel,
    fun a b => ?_, by decide⟩
  · match a with
    | 0 | 1 | 2 => simpa [exFront] using hd
  have h : ∀ a b : Fin 3, a ≠ b → Adj exFront a b := by
    intro a b hab
    match a, b with
    | 0, 0 | 1, 1 | 2, 2 => exact absurd rfl hab
    | 0, 2 => exact ⟨0, .inl ⟨rfl, rfl⟩⟩
    | 2, 0 => exact ⟨0, .inr ⟨rfl, rfl⟩⟩
    | 1, 2 => exact ⟨1, .inl ⟨rfl, rfl⟩⟩
    | 2, 1 => exact ⟨1, .inr ⟨rfl, rfl⟩⟩
    | 0, 1 => exact ⟨2, .inl ⟨rfl, rfl⟩⟩
    | 1, 0 => exact ⟨2, .inr ⟨rfl, rfl⟩⟩
  by_cases hab : a = b
  · exact hab ▸ .refl
  · exact .single (h a b hab)

/-- The results of the analyses, as a table; the initial sizes are 2, 2 and 3 and the target is 1/2. -/
def Sim.exFrontD (table : List ((Fin 3 → Int) × ℚ × List (Fin 3))) : DSE 3 :=
  ⟨1 / 100, fun _ => true, ![1, 1, 3], 1 / 2, fun q => (table.lookup q).getD (0, [])⟩

def Sim.exFrontInit : SD 3 := ⟨![2, 2, 3], ![2, 2, 3], 0, 7⟩

/-- With the corrected detection. -/
def Sim.exFrontTable : List ((Fin 3 → Int) × ℚ × List (Fin 3)) :=
  [(![2, 2, 3], 1 / 5, [0, 2]), (![3, 2, 3], 1 / 4, [1, 2]), (![3, 3, 3], 1 / 4, [2]), (![2, 2, 6], 1 / 4, [0]),
    (![3, 2, 6], 1 / 3, [0, 1, 2]), (![3, 3, 6], 1 / 3, [0]), (![4, 2, 6], 1 / 3, [1]), (![4, 3, 6], 1 / 2, [0, 1, 2])]

/-- With the default one. -/
def Sim.exFrontTable' : List ((Fin 3 → Int) × ℚ × List (Fin 3)) :=
  [(![2, 2, 3], 1 / 5, [2]), (![2, 2, 6], 1 / 4, [0]), (![3, 2, 6], 1 / 3, [1, 2]), (![3, 3, 6], 1 / 3, [0]),
    (![4, 3, 6], 1 / 2, [1, 2])]

/-- The theorems apply to this graph with a tolerance of 1/100. -/
example : ∃ (D : DSE 3) (init : SD 3), Sim.Explores exFront (fun a => (a : Int)) true D init ∧ D.eps = 1 / 100 ∧
    (∀ e, init.quantity e < 2147483647) ∧ D.eps ≤ D.target := by
  obtain ⟨D, init, h1, h2, h3⟩ := C87_defined exFront_explorable (id := fun a => (a : Int))
    (fun a b h => Fin.ext (by simpa using h)) (1 / 100)
    (by
      intro e r h
      have h' : ∀ e : Fin 3, findMinimumChannelSz (exFront.prod e) (exFront.cons e) (exFront.preload e) =
        some ((![2, 2, 3] : Fin 3 → Int) e) := by decide +kernel
      rw [h' e] at h
      rw [← Option.some.inj h]
      exact (by decide : ∀ e : Fin 3, (![2, 2, 3] : Fin 3 → Int) e < 2147483647) e)
  refine ⟨D, init, h1, h2, h3, ?_⟩
  obtain ⟨n, hn⟩ := h1.target
  have h0 : asapThroughput exFront (fun a => (a : Int)) 0 = some (1 / 2) := by decide +kernel
  rw [asap_stays (Nat.zero_le n) h0] at hn
  rw [h2, ← Option.some.inj hn]
  norm_num

/-- The exploration of this graph: sizes 7, 8, 11 and 13 for throughputs 1/5, 1/4, 1/3 and 1/2. -/
example : (∀ x ∈ exFrontTable, analyseSized exFront (fun a => (a : Int)) true 200 200 x.1 = some x.2) ∧
    ((exFrontD exFrontTable).explore exFrontInit 9).map (Option.map fun R => R.members.map fun r => (r.size, r.thr)) =
      some (some [(7, 1 / 5), (8, 1 / 4), (11, 1 / 3), (13, 1 / 2)]) :=
  ⟨by decide +kernel, by decide +kernel⟩

/-- **C87** fails for the default detection `SYMB_EXEC_ORIGINAL`: on `exFront` all settings are as in `Explores` (every
analysis the exploration makes returns, with the result in `D.analyse`), but the smallest sizes with throughput 1/4, 3, 2 and
3 tokens, have no counterpart in the result: every retained distribution of size at most 8, or even 9, has throughput at
most 1/5. -/
theorem C87_default_counterexample : ∃ (D : DSE 3) (init : SD 3) (rounds : ℕ) (R : SDSet 3),
    (∀ e, D.modelled e = true) ∧
    (∀ e, findMinimumStepSz (exFront.prod e) (exFront.cons e) = some (D.step e)) ∧
    (∀ e, findMinimumChannelSz (exFront.prod e) (exFront.cons e) (exFront.preload e) = some (init.quantity e)) ∧
    init.size = (List.finRange 3).foldl (fun acc e => acc + init.quantity e) 0 ∧
    (∃ n, asapThroughput exFront (fun a => (a : Int)) n = some D.target) ∧
    (∀ q ∈ D.trace rounds (SDSet.single init.size init) SDSet.empty,
      ∃ n k, analyseSized exFront (fun a => (a : Int)) false n k q = some (D.analyse q)) ∧
    D.eps = 1 / 100 ∧
    D.explore init rounds = some (some R) ∧
    Sim.HasThroughput exFront ![2, 2, 1] ![3, 2, 3] (1 / 4) ∧
    ∀ r ∈ R.members, r.size ≤ 9 → r.thr ≤ 1 / 5 := by
  have hR : ∃ R, (exFrontD exFrontTable').explore exFrontInit 6 = some (some R) ∧
      ∀ r ∈ R.members, r.size ≤ 9 → r.thr ≤ 1 / 5 := by
    have h : ((exFrontD exFrontTable').explore exFrontInit 6).map
        (Option.map fun R => decide (∀ r ∈ R.members, r.size ≤ 9 → r.thr ≤ 1 / 5)) = some (some true) := by decide +kernel
    obtain ⟨o, h1, h2⟩ := Option.map_eq_some_iff.1 h
    obtain ⟨R, h3, h4⟩ := Option.map_eq_some_iff.1 h2
    exact ⟨R, by rw [h1, h3], of_decide_eq_true h4⟩
  obtain ⟨R, hR1, hR2⟩ := hR
  refine ⟨exFrontD exFrontTable', exFrontInit, 6, R, fun _ => rfl, by decide +kernel, by decide +kernel, by decide +kernel,
    ⟨0, by decide +kernel⟩, ?_, rfl, hR1, ?_, hR2⟩
  · have h1 : (exFrontD exFrontTable').trace 6 (SDSet.single exFrontInit.size exFrontInit) SDSet.empty =
        exFrontTable'.map Prod.fst := by decide +kernel
    have h2 : ∀ q ∈ exFrontTable'.map Prod.fst,
        analyseSized exFront (fun a => (a : Int)) false 200 200 q = some ((exFrontD exFrontTable').analyse q) := by
      decide +kernel
    rw [h1]
    exact fun q hq => ⟨200, 200, h2 q hq⟩
  · exact (exFront_explorable.analysed (id := fun a => (a : Int)) (n := 200) (k := 200) (r := (1 / 4, [1, 2]))
      (fun a b h => Fin.ext (by simpa using h)) (by decide +kernel) (by decide +kernel)).1

end Kiter
