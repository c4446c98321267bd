/-
C86: the critical channels that the self-timed analysis with bounded buffers returns are complete: as long as their sizes
stay the same, no sizes of the others give a better throughput. The default detection does not have this property.
-/
import Verif.Lemmas.StorageReplay

set_option autoImplicit false

namespace Kiter
open Kiter.Sim Finset

variable {nV nE : Nat} {g : Graph nV nE}

/-! ### What is returned -/

/-- **C86** From any recorded dependencies, the corrected detection returns exactly the channels whose source depends on
their target along a cycle of dependencies. -/
theorem C86_cycles (g : Graph nV nE) {id : Fin nV → Int} (hid : Function.Injective id) (d : Dep nV) :
    ∃ R, storageDepsSCC g id d = some R ∧ R.Nodup ∧
      ∀ e, e ∈ R ↔ d (g.src e) (g.tgt e) = true ∧ Relation.ReflTransGen (fun a b => d a b = true) (g.tgt e) (g.src e) :=
  storageDepsSCC_spec g hid d

/-- **C86** The analysis with the corrected detection returns critical channels whenever it finds a recurrent state or a
deadlock: the replay of a period finds the recurrent state again. -/
theorem C86_returns {cap : Option (Fin nE → Int)} (h : OK g) (hg : Guarded g cap) {c : Cfg nV nE} {m : Machine nV nE}
    (hs : start g cap true = some (c, m)) (hni : 0 < g.ni c.minActor) {id : Fin nV → Int} (hid : Function.Injective id)
    {n : ℕ} (hres : (∃ thr, (run c m n).pc = .recurrent (some thr)) ∨ (run c m n).pc = .deadlock) :
    ∃ k R, criticalEdges id true c m n k = some R := by
  rcases hres with ⟨thr, hres⟩ | hres
  · obtain ⟨⟨k, hk⟩, -⟩ := replay_spec h hg hs hni hres
    obtain ⟨R, hR, -⟩ := storageDepsSCC_spec c.g hid (replay c (run c m n) (mainPrev c m n) k).dep
    refine ⟨k, R, ?_⟩
    unfold criticalEdges criticalDeps
    rw [hres]
    simp only [hk, if_true, Option.bind_some, storageDeps]
    exact hR
  · obtain ⟨R, hR, -⟩ := storageDepsSCC_spec c.g hid (deadlockDeps c.g (run c m n).acts (run c m n).st)
    refine ⟨0, R, ?_⟩
    unfold criticalEdges criticalDeps
    rw [hres]
    simp only [Option.bind_some, storageDeps, if_true]
    exact hR

/-! ### Deadlock -/

theorem Sim.sum_le_cum {l : List Int} (hl : ∀ r ∈ l, 0 ≤ r) {P : Finset ℕ} {N : ℕ} (hP : ∀ j ∈ P, j < N) :
    ∑ j ∈ P, rate l j ≤ cum l N := by
  unfold cum
  exact sum_le_sum_of_subset_of_nonneg (fun j hj => mem_range.2 (hP j hj)) fun i _ _ => rate_nonneg hl i

/-- **C86**, deadlock: the analysis reports a deadlock with the buffer sizes `w` and the critical channels `R`. Then the
graph has no causal valid schedule with any sizes `w'` that are those of `w` on the channels of `R`. -/
theorem C86_deadlock {w w' : Fin nE → Int} (h : OK g) (hg : Guarded g (some w)) {c : Cfg nV nE} {m : Machine nV nE}
    (hs : start g (some w) true = some (c, m)) (hni : 0 < g.ni c.minActor) {id : Fin nV → Int}
    (hid : Function.Injective id) {n k : ℕ} (hd : (run c m n).pc = .deadlock) {R : List (Fin nE)}
    (hR : criticalEdges id true c m n k = some R) (hw : ∀ e ∈ R, w' e = w e) :
    ¬ ∃ σ, Valid g (some w') σ ∧ Causal g (some w') σ := by
  rintro ⟨σ, hv, hc⟩
  obtain ⟨h1, h2, -⟩ := start_spec hs
  obtain ⟨hnr, -⟩ := C25_deadlock_real_partial h hg hs hni hd
  have hi := inv_reachable h (run_reachable hs n)
  have gi := ginv_reachable h hg (run_reachable hs n)
  unfold criticalEdges criticalDeps at hR
  rw [hd] at hR
  simp only [Option.bind_some, storageDeps, if_true] at hR
  rw [h1] at hR
  set d := deadlockDeps g (run c m n).acts (run c m n).st with hdd
  obtain ⟨R', hR', -, hmem⟩ := storageDepsSCC_spec g hid d
  rw [hR] at hR'
  simp only [Option.some.injEq] at hR'
  subst hR'
  obtain ⟨a, ha⟩ := exists_terminal d c.minActor
  -- executions of the closed set of actors reached from `a`, beyond those of the deadlock
  obtain ⟨r, hwf, hord, htok, hroom⟩ := hc.order
  obtain ⟨⟨b, j⟩, ⟨hb1, hb2⟩, hmin⟩ := hwf.has_min
    {p : Fin nV × ℕ | d.Reach a p.1 ∧ ((run c m n).acts p.1).numExecs ≤ p.2} ⟨(a, ((run c m n).acts a).numExecs), .refl, le_rfl⟩
  simp only at hb1 hb2
  have hless : ∀ b' j', d.Reach a b' → r (b', j') (b, j) → j' < ((run c m n).acts b').numExecs := by
    intro b' j' hb' hr
    by_contra hcon
    exact hmin (b', j') ⟨hb', Nat.not_lt.1 hcon⟩ hr
  have hj : j = ((run c m n).acts b).numExecs := by
    rcases Nat.lt_or_ge ((run c m n).acts b).numExecs j with hlt | hge
    · exfalso
      have hr := hord b (j - 1)
      rw [show j - 1 + 1 = j by omega] at hr
      have := hless b (j - 1) hb1 hr
      omega
    · omega
  have hcomp : ∀ b, (run c m n).completed b = ((run c m n).acts b).numExecs := by
    intro b
    have hl := hi.len b
    simp only [Machine.core] at hl
    rw [(hnr b).2] at hl; simpa using hl
  have hidle : ((run c m n).acts b).isExecuting = false := by
    rcases gi.one b with ⟨h0, -⟩ | ⟨-, y, hy, -⟩
    · exact h0
    · simp only [Machine.core] at hy; rw [(hnr b).2] at hy; simp at hy
  have hb := (hnr b).1
  unfold ready at hb
  rw [hidle] at hb
  simp only [Bool.false_eq_true, or_false, Bool.and_eq_false_iff, decide_eq_false_iff_not, Bool.or_eq_false_iff] at hb
  rcases hb with hb | ⟨-, hb⟩
  · push Not at hb
    obtain ⟨e, he, hlt⟩ := hb
    have hdep : d b (g.src e) = true := by rw [hdd, deadlockDeps_iff]; exact ⟨e, .inl ⟨he, rfl, hlt⟩⟩
    obtain ⟨P, hP, hle⟩ := htok e j
    rw [he] at hP
    have h3 := sum_le_cum (h.prodNonneg e) fun i hi => hless _ i (hb1.tail hdep) (hP i hi).1
    have h4 := hi.tok e
    simp only [Machine.core] at h4
    rw [he, ← hj, hcomp] at h4
    rw [execRate_tgt h _ he, ← hj] at hlt
    have h5 := cum_succ (g.cons e) j
    have h6 : cum (g.cons e) (j + 1) ≤ g.preload e + ∑ i ∈ P, rate (g.prod e) i := hle
    linarith
  · push Not at hb
    obtain ⟨e, he, hlt⟩ := hb
    have hdep : d b (g.tgt e) = true := by rw [hdd, deadlockDeps_iff]; exact ⟨e, .inr ⟨he, rfl, hlt⟩⟩
    have hwe : w' e = w e := by
      apply hw
      rw [hmem, he]
      exact ⟨hdep, (ha _ (hb1.tail hdep)).trans hb1⟩
    obtain ⟨P, hP, hle⟩ := hroom w' rfl e j
    rw [he] at hP
    have h3 := sum_le_cum (h.consNonneg e) fun i hi => hless _ i (hb1.tail hdep) (hP i hi).1
    have h4 := hi.space w rfl e
    simp only [Machine.core] at h4
    rw [he, ← hj, hcomp] at h4
    rw [execRate_src h _ he, ← hj] at hlt
    have h5 := cum_succ (g.prod e) j
    have h6 : cum (g.prod e) (j + 1) ≤ w' e - g.preload e + ∑ i ∈ P, rate (g.cons e) i := hle
    rw [hwe] at h6
    linarith

/-! ### Periodic execution -/

/-- A schedule in which one actor is never earlier than in the self-timed execution, up to a constant, is not faster. -/
theorem Sim.no_faster {cap cap' : Option (Fin nE → Int)} (h : OK g) (hg : Guarded g cap) (hb : Balanced g)
    {c : Cfg nV nE} {m : Machine nV nE} (hs : start g cap true = some (c, m)) {n : ℕ} {thr : ℚ}
    (hres : (run c m n).pc = .recurrent (some thr)) {σ : Fin nV → ℕ → ℚ} (hv : Valid g cap' σ) {Ω : ℚ} {a : Fin nV}
    (hsus : ∃ C, ∀ k : ℕ, σ a k ≤ Ω * k / g.ni a + C) {T : ℚ}
    (hle : ∀ n, (run c.free m n).clock - T ≤ σ a ((run c.free m n).acts a).numExecs) : 1 / thr ≤ Ω := by
  have hthr := thr_pos h hg hs (hb.ni _) hres
  obtain ⟨-, -, hclock, -⟩ := C26_long_run h hg hs (hb.ni _) hres
  obtain ⟨K, hK⟩ := C26_every_actor h hg hs hb.ni hb.bal hb.prod hb.cons (hb.connected c.minActor) hres a
  have hsf := start_free hs
  obtain ⟨C, hC⟩ := hsus
  have hniq : (0 : ℚ) < g.ni a := by exact_mod_cast hb.ni a
  set N : ℚ := ((g.ni a : ℤ) : ℚ) with hN
  have hΩ : 0 ≤ Ω := by
    by_contra hneg
    push Not at hneg
    obtain ⟨k, hk⟩ := exists_nat_gt (C * N / (-Ω))
    have h1 := le_trans (hv.nonneg a k) (hC k)
    rw [div_lt_iff₀ (by linarith)] at hk
    have h2 : Ω * k / N = -(k * -Ω) / N := by ring
    rw [h2] at h1
    have h3 : C * N / N < k * -Ω / N := by exact div_lt_div_of_pos_right hk hniq
    rw [mul_div_cancel_right₀ _ hniq.ne'] at h3
    have h4 : -(k * -Ω) / N = -(k * -Ω / N) := by ring
    rw [h4] at h1; linarith
  rw [div_le_iff₀ hthr]
  by_contra hlt
  push Not at hlt
  obtain ⟨n0, hn0⟩ := hclock ((Ω * (K + 1 / N) + C + T) / (1 - Ω * thr))
  have hb := hn0 n0 le_rfl
  rw [div_lt_iff₀ (by linarith)] at hb
  have e1 := hle n0
  have e2 := hC ((run c.free m n0).acts a).numExecs
  have e3 := (abs_le.1 (hK n0)).2
  have hl := (inv_reachable h (run_reachable hsf n0)).len a
  have hq : ((run c.free m n0).st.queue a).length ≤ 1 := by
    rcases (ginv_reachable h hg (run_reachable hsf n0)).one a with ⟨-, h0⟩ | ⟨-, y, h0, -⟩ <;>
      simp only [Machine.core] at h0 <;> rw [h0] <;> simp
  simp only [Machine.core] at hl
  have e4 : (((run c.free m n0).acts a).numExecs : ℚ) ≤ (run c.free m n0).completed a + 1 := by
    have : ((run c.free m n0).acts a).numExecs ≤ (run c.free m n0).completed a + 1 := by omega
    exact_mod_cast this
  have e5 : (((run c.free m n0).acts a).numExecs : ℚ) / N ≤ thr * (run c.free m n0).clock + K + 1 / N := by
    calc _ ≤ ((run c.free m n0).completed a + 1 : ℚ) / N := div_le_div_of_nonneg_right e4 hniq.le
      _ = (run c.free m n0).completed a / N + 1 / N := by ring
      _ ≤ _ := by linarith
  have e6 := mul_le_mul_of_nonneg_left e5 hΩ
  rw [mul_div_assoc] at e2
  have : (run c.free m n0).clock ≤ Ω * (thr * (run c.free m n0).clock + K + 1 / N) + C + T := by linarith
  nlinarith

/-- Among enough providers, one comes after a given number of them. -/
theorem Sim.late_provider {l : List Int} (hl : ∀ r ∈ l, 0 ≤ r) {P : Finset ℕ} {j : ℕ} {x y : Int}
    (h1 : x + cum l j < y) (h2 : y ≤ x + ∑ i ∈ P, rate l i) : ∃ i ∈ P, j ≤ i := by
  by_contra hcon
  push Not at hcon
  have := sum_le_cum hl hcon
  linarith

theorem Sim.Valid.end_mono {cap : Option (Fin nE → Int)} (h : OK g) {σ : Fin nV → ℕ → ℚ} (hv : Valid g cap σ) (a : Fin nV)
    {i j : ℕ} (hij : i ≤ j) : σ a i + g.execDur a i ≤ σ a j + g.execDur a j := by
  refine monotone_nat_of_le_succ (f := fun k => σ a k + g.execDur a k) (fun k => ?_) hij
  have h1 := hv.noOverlap a k
  have h2 := execDur_nonneg h a (k + 1)
  linarith

/-- Every execution of the execution carried on forever starts, if it has a recurrent state. -/
theorem Sim.starts_after {cap : Option (Fin nE → Int)} (h : OK g) (hg : Guarded g cap) (hb : Balanced g)
    {c : Cfg nV nE} {m : Machine nV nE} (hs : start g cap true = some (c, m)) {n : ℕ} {thr : ℚ}
    (hres : (run c m n).pc = .recurrent (some thr)) (a : Fin nV) (n0 : ℕ) :
    ∃ n1, n0 ≤ n1 ∧ StartsAt c.free m n1 a ((run c.free m n0).acts a).numExecs (run c.free m n1).clock := by
  have hthr := thr_pos h hg hs (hb.ni _) hres
  obtain ⟨-, -, hclock, -⟩ := C26_long_run h hg hs (hb.ni _) hres
  obtain ⟨K, hK⟩ := C26_every_actor h hg hs hb.ni hb.bal hb.prod hb.cons (hb.connected c.minActor) hres a
  have hsf := start_free hs
  have hni : (0 : ℚ) < g.ni a := by exact_mod_cast hb.ni a
  set k := ((run c.free m n0).acts a).numExecs with hk
  have hbig : ∃ n, k < ((run c.free m n).acts a).numExecs := by
    obtain ⟨n, hn⟩ := hclock (((k : ℚ) / g.ni a + K) / thr)
    have h1 := hn n le_rfl
    rw [div_lt_iff₀ hthr] at h1
    have h2 := (abs_le.1 (hK n)).1
    have h3 : (k : ℚ) / g.ni a < (run c.free m n).completed a / g.ni a := by linarith
    rw [div_lt_div_iff_of_pos_right hni] at h3
    have h4 : k < (run c.free m n).completed a := by exact_mod_cast h3
    have hl := (inv_reachable h (run_reachable hsf n)).len a
    simp only [Machine.core] at hl
    exact ⟨n, by omega⟩
  classical
  have hf := Nat.find_spec hbig
  have hmin := fun j => Nat.find_min (H := hbig) (m := j)
  set n' := Nat.find hbig with hn
  have hlt : n0 < n' := by
    by_contra hcon
    have := numExecs_mono c.free m a (Nat.not_lt.1 hcon)
    omega
  obtain ⟨x, hx⟩ : ∃ x, n' = x + 1 := ⟨n' - 1, by omega⟩
  rw [hx] at hf hmin hlt
  have h6 := hmin x (by omega)
  have h7 := (numExecs_step c.free (run c.free m x) a).2
  have h8 : ((run c.free m (x + 1)).acts a).numExecs ≤ ((run c.free m x).acts a).numExecs + 1 := h7
  exact ⟨x, by omega, by omega, by omega, rfl⟩

/-- **C86**, periodic execution: the analysis reports the throughput `thr` with the buffer sizes `w` and the critical
channels `R`. Then no causal valid schedule, with any sizes `w'` that are those of `w` on the channels of `R`, completes
iterations faster than `thr`. -/
theorem C86_periodic {w w' : Fin nE → Int} (h : OK g) (hg : Guarded g (some w)) (hb : Balanced g) {c : Cfg nV nE}
    {m : Machine nV nE} (hs : start g (some w) true = some (c, m)) {id : Fin nV → Int} (hid : Function.Injective id)
    {n k : ℕ} {thr : ℚ} (hres : (run c m n).pc = .recurrent (some thr)) {R : List (Fin nE)}
    (hR : criticalEdges id true c m n k = some R) (hw : ∀ e ∈ R, w' e = w e) :
    ∀ Ω ∈ Sustainable g (some w'), 1 / thr ≤ Ω := by
  rintro Ω ⟨σ, hv, hc, hsus⟩
  obtain ⟨h1, h2, -⟩ := start_spec hs
  have hsf := start_free hs
  have hfg : c.free.g = g := h1
  have hfc : c.free.cap = some w := h2
  obtain ⟨-, hspec⟩ := replay_spec h hg hs (hb.ni _) hres
  unfold criticalEdges criticalDeps at hR
  rw [hres] at hR
  simp only at hR
  rw [h1] at hR
  by_cases hdone : (replay c (run c m n) (mainPrev c m n) k).done = true
  swap
  · rw [if_neg hdone] at hR; simp at hR
  rw [if_pos hdone] at hR
  simp only [Option.bind_some, storageDeps, if_true] at hR
  obtain ⟨i, j, hst, hcov⟩ := hspec k hdone
  set d := (replay c (run c m n) (mainPrev c m n) k).dep with hdd
  obtain ⟨R', hR', -, hmem⟩ := storageDepsSCC_spec g hid d
  rw [hR] at hR'
  simp only [Option.some.injEq] at hR'
  subst hR'
  obtain ⟨a, ha⟩ := exists_terminal d c.minActor
  obtain ⟨r, -, -, htok, hroom⟩ := hc.order
  obtain ⟨y, -, hy2, hy3⟩ := hst.advance
  -- executions of the closed set of actors reached from `a` are not earlier than from the stop on
  have key : ∀ x b l t, d.Reach a b → StartsAt c.free m x b l t → t - (run c.free m j).clock ≤ σ b l := by
    intro x
    induction x using Nat.strong_induction_on with
    | _ x ih =>
      intro b l t hab hsx
      rcases Nat.lt_or_ge x j with hxj | hxj
      · have h3 := clock_mono h hg hsf hxj.le
        rw [hsx.2.2] at h3
        have := hv.nonneg b l
        linarith
      have hready : (∃ rest, (run c.free m x).pc = .starts (b :: rest)) ∧
          ready c.free.g c.free.cap (run c.free m x).acts (run c.free m x).st b = true := by
        obtain ⟨rest, e1, e2⟩ := step_starts (c := c.free) (m := run c.free m x) (a := b) (by
          have := hsx.1; have := hsx.2.1
          show ((run c.free m (x + 1)).acts b).numExecs ≠ _
          omega)
        exact ⟨⟨rest, e1⟩, e2⟩
      rcases cause h hg hsf (hb.ni _) hsx ⟨y, by omega, hy3⟩ with ⟨x', t', hx', hl, hs', ht⟩ |
        ⟨e, q, x', t', he, hlt, hx', hs', ht, hcum⟩ | ⟨w0, e, q, x', t', hw0, he, hlt, hx', hs', ht, hcum⟩
      · have h3 := ih x' hx' b (l - 1) t' hab hs'
        have h4 := hv.noOverlap b (l - 1)
        rw [show l - 1 + 1 = l by omega] at h4
        linarith
      · have hdep : d b (g.src e) = true := by
          refine hcov x hxj b _ ⟨hready.1, hready.2, e, .inl ⟨?_, ?_, ?_⟩⟩
          · rw [hfg]; exact he
          · rw [hfg]
          · rw [hfg]; exact hlt
        have h3 := ih x' hx' _ q t' (hab.tail hdep) hs'
        obtain ⟨P, hP, hle⟩ := htok e l
        obtain ⟨p, hp, hqp⟩ := late_provider (h.prodNonneg e) hcum hle
        have h4 := (hP p hp).2
        rw [he] at h4
        have h5 := hv.end_mono h (g.src e) hqp
        linarith
      · have hdep : d b (g.tgt e) = true := by
          refine hcov x hxj b _ ⟨hready.1, hready.2, e, .inr ⟨?_, ?_, ?_⟩⟩
          · rw [hfg]; exact he
          · rw [hfg]
          · rw [hfg]; exact hlt
        simp only [Option.some.injEq] at hw0
        subst hw0
        have hwe : w' e = w e := by
          apply hw
          rw [hmem, he]
          exact ⟨hdep, (ha _ (hab.tail hdep)).trans hab⟩
        have h3 := ih x' hx' _ q t' (hab.tail hdep) hs'
        obtain ⟨P, hP, hle⟩ := hroom w' rfl e l
        rw [← hwe] at hcum
        obtain ⟨p, hp, hqp⟩ := late_provider (h.consNonneg e) hcum hle
        have h4 := (hP p hp).2
        rw [he] at h4
        have h5 := hv.end_mono h (g.tgt e) hqp
        linarith
  refine no_faster h hg hb hs hres hv (hsus a) (T := (run c.free m j).clock) fun n0 => ?_
  obtain ⟨n1, hn1, hs1⟩ := starts_after h hg hb hs hres a n0
  have h3 := key n1 a _ _ .refl hs1
  have h4 := clock_mono h hg hsf hn1
  linarith

/-! ### The default detection, and non-vacuity -/

/-- Three actors and three channels with single phases: 1 → 0 (2 tokens produced, 1 consumed, 1 initially), 0 → 2 (1, 1, 2)
and 1 → 2 (2, 1, 2); durations 1, 3, 3. -/
def Sim.exStorage : Graph 3 3 :=
  ⟨![1, 0, 1], ![0, 2, 2], ![[2], [1], [2]], ![[1], [1], [1]], ![1, 2, 2], ![1, 1, 1], ![[1], [3], [3]], ![2, 1, 2]⟩

theorem Sim.exStorage_ok : OK exStorage := by constructor <;> decide +kernel

theorem Sim.exStorage_guarded (w : Fin 3 → Int) : Guarded exStorage (some w) := by
  intro a
  match a with
  | 0 => exact ⟨0, .inl rfl⟩
  | 1 => exact ⟨0, .inr ⟨by simp, rfl⟩⟩
  | 2 => exact ⟨1, .inl rfl⟩

theorem Sim.exStorage_balanced : Balanced exStorage := by
  refine ⟨by decide +kernel, by decide +kernel, by decide +kernel, by decide +kernel, fun a b => ?_⟩
  have h : ∀ a b : Fin 3, a ≠ b → Adj exStorage a b := by
    intro a b hab
    match a, b with
    | 0, 0 | 1, 1 | 2, 2 => exact absurd rfl hab
    | 1, 0 => exact ⟨0, .inl ⟨rfl, rfl⟩⟩
    | 0, 1 => exact ⟨0, .inr ⟨rfl, rfl⟩⟩
    | 0, 2 => exact ⟨1, .inl ⟨rfl, rfl⟩⟩
    | 2, 0 => exact ⟨1, .inr ⟨rfl, rfl⟩⟩
    | 1, 2 => exact ⟨2, .inl ⟨rfl, rfl⟩⟩
    | 2, 1 => exact ⟨2, .inr ⟨rfl, rfl⟩⟩
  by_cases hab : a = b
  · exact hab ▸ .refl
  · exact .single (h a b hab)

/-- Buffers of 2, 2 and 4 tokens: throughput 1/7, and the detection by strongly connected components reports channels 0 and
1, as `C86_periodic` requires. -/
example : ∃ c m, start exStorage (some ![2, 2, 4]) true = some (c, m) ∧ (run c m 105).pc = .recurrent (some (1 / 7)) ∧
    criticalEdges (fun a => (a : Int)) true c m 105 70 = some [0, 1] :=
  ⟨_, _, rfl, by decide +kernel, by decide +kernel⟩

/-- **C86** fails for the default detection: with buffers of 2, 2 and 4 tokens the program reports channel 0 alone, and with
one more token for channel 1, which is not reported, iterations are completed every 6 units of time instead of 7. -/
theorem C86_default_counterexample : ∃ c m, start exStorage (some ![2, 2, 4]) true = some (c, m) ∧
    (∃ n k, (run c m n).pc = .recurrent (some (1 / 7)) ∧
      criticalEdges (fun a => (a : Int)) false c m n k = some [0]) ∧
    IsLeast (Sustainable exStorage (some ![2, 2, 4])) 7 ∧ IsLeast (Sustainable exStorage (some ![2, 3, 4])) 6 := by
  have e1 : ∃ c m, start exStorage (some ![2, 2, 4]) true = some (c, m) ∧ (run c m 105).pc = .recurrent (some (1 / 7)) ∧
    criticalEdges (fun a => (a : Int)) false c m 105 70 = some [0] := ⟨_, _, rfl, by decide +kernel, by decide +kernel⟩
  have e2 : ∃ c m, start exStorage (some ![2, 3, 4]) true = some (c, m) ∧ (run c m 150).pc = .recurrent (some (1 / 6)) :=
    ⟨_, _, rfl, by decide +kernel⟩
  obtain ⟨c, m, hs, hr, hc⟩ := e1
  obtain ⟨c', m', hs', hr'⟩ := e2
  have o1 := (C67_optimal exStorage_ok (exStorage_guarded _) exStorage_balanced
    (by rintro w ⟨⟩; decide +kernel) hs hr).2
  have o2 := (C67_optimal exStorage_ok (exStorage_guarded _) exStorage_balanced
    (by rintro w ⟨⟩; decide +kernel) hs' hr').2
  norm_num at o1 o2
  exact ⟨c, m, hs, ⟨105, 70, hr, hc⟩, o1, o2⟩

/-- Buffers of 1, 2 and 2 tokens: a deadlock, with critical channel 0, as in `C86_deadlock`. -/
example : ∃ c m, start exStorage (some ![1, 2, 2]) true = some (c, m) ∧ 0 < exStorage.ni c.minActor ∧
    (run c m 60).pc = .deadlock ∧ criticalEdges (fun a => (a : Int)) true c m 60 0 = some [0] :=
  ⟨_, _, rfl, by decide +kernel, by decide +kernel, by decide +kernel⟩

end Kiter
