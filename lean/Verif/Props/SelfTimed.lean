/-
C66: the self-timed execution is the earliest valid schedule. C67: the throughput it reports is the best of all
schedules.
-/
import Verif.Lemmas.SelfTimed
import Verif.Props.SymbolicExecution
import Mathlib.Order.Bounds.Defs

set_option autoImplicit false

namespace Kiter
open Kiter.Sim Finset

variable {nV nE : Nat} {g : Graph nV nE} {cap : Option (Fin nE → Int)}

/-! ### C66 -/

theorem Sim.StartsAt.ready {c : Cfg nV nE} {m : Machine nV nE} {n : ℕ} {a : Fin nV} {k : ℕ} {t : ℚ}
    (h : StartsAt c m n a k t) : Sim.ready c.g c.cap (run c m n).acts (run c m n).st a = true ∧
      (run c m (n + 1)).completed = (run c m n).completed := by
  obtain ⟨h1, h2, -⟩ := h
  have hrun : run c m (n + 1) = step c (run c m n) := rfl
  rcases step_kind c (run c m n) with ⟨e1, -⟩ | ⟨b, hr, e1, -, e3, -⟩ | ⟨b, y, rest, -, -, e1, -⟩ |
      ⟨-, e1, -⟩ <;> rw [← hrun] at e1 <;> rw [e1] at h2
  · omega
  · by_cases hab : a = b
    · subst hab; exact ⟨hr, e3⟩
    · rw [Function.update_of_ne hab] at h2; omega
  · by_cases hab : a = b
    · subst hab; rw [Function.update_self] at h2; simp at h2; omega
    · rw [Function.update_of_ne hab] at h2; omega
  · omega

theorem Sim.StartsAt.unique {c : Cfg nV nE} {m : Machine nV nE} {n n' : ℕ} {a : Fin nV} {k : ℕ} {t t' : ℚ}
    (h : StartsAt c m n a k t) (h' : StartsAt c m n' a k t') : n = n' ∧ t = t' := by
  have key : ∀ {n n' : ℕ} {t t' : ℚ}, StartsAt c m n a k t → StartsAt c m n' a k t' → ¬ n < n' := by
    intro n n' t t' h h' hlt
    have := numExecs_mono c m a (show n + 1 ≤ n' from hlt)
    have := h.2.1; have := h'.1; omega
  have hn : n = n' := le_antisymm (Nat.not_lt.1 (key h' h)) (Nat.not_lt.1 (key h h'))
  subst hn
  exact ⟨rfl, h.2.2.symm.trans h'.2.2⟩

/-- **C66** Every execution lasts exactly its duration: when the run has completed more than `k` executions of `a`,
the `k`-th one started at some earlier step, at time `t`, and ended at a later one, at time `t` plus the duration of
that execution. -/
theorem C66_durations (h : OK g) (hg : Guarded g cap) {detect : Bool} {c : Cfg nV nE} {m : Machine nV nE}
    (hs : start g cap detect = some (c, m)) (n : ℕ) (a : Fin nV) (k : ℕ) (hk : k < (run c m n).completed a) :
    ∃ i j t, i < j ∧ j < n ∧ StartsAt c m i a k t ∧ EndsAt c m j a k (t + g.execDur a k) :=
  (timed_run h hg hs n).ended a k hk

/-- **C66** No schedule starts an execution earlier than the run: whatever the causal valid schedule `σ`, an execution
that the run starts at time `t` starts at `t` or later in `σ`, and everything `σ` starts before the current time has
been started by the run. -/
theorem C66_earliest (h : OK g) (hg : Guarded g cap) {detect : Bool} {c : Cfg nV nE} {m : Machine nV nE}
    (hs : start g cap detect = some (c, m)) (hni : 0 < g.ni c.minActor) {σ : Fin nV → ℕ → ℚ} (hv : Valid g cap σ)
    (hc : Causal g cap σ) :
    (∀ n a k t, StartsAt c m n a k t → t ≤ σ a k) ∧
    ∀ n a k, σ a k < (run c m n).clock → k < ((run c m n).acts a).numExecs := by
  refine ⟨fun n a k t hst => ?_, fun n a k hlt => ?_⟩
  · have := earliest h hg hs hni hv hc n a k (by rw [hst.1])
    rwa [hst.2.2] at this
  · by_contra hcon
    have := earliest h hg hs hni hv hc n a k (Nat.not_lt.1 hcon)
    linarith

/-- **C66**, when no execution has zero duration: any valid schedule will do. -/
theorem C66_earliest_positive (h : OK g) (hg : Guarded g cap) (hpos : ∀ a, ∀ d ∈ g.dur a, 0 < d) {detect : Bool}
    {c : Cfg nV nE} {m : Machine nV nE} (hs : start g cap detect = some (c, m)) (hni : 0 < g.ni c.minActor)
    {σ : Fin nV → ℕ → ℚ} (hv : Valid g cap σ) {n : ℕ} {a : Fin nV} {k : ℕ} {t : ℚ} (hst : StartsAt c m n a k t) :
    t ≤ σ a k := (C66_earliest h hg hs hni hv (hv.causal h hpos)).1 n a k t hst

/-- **C66** If every execution starts at some step of the run, the start times of the run form a valid and causal
schedule: with `C66_earliest`, the earliest one. -/
theorem C66_self_timed_valid (h : OK g) (hg : Guarded g cap) (hcap : ∀ w, cap = some w → ∀ e, g.preload e ≤ w e)
    {detect : Bool} {c : Cfg nV nE} {m : Machine nV nE} (hs : start g cap detect = some (c, m))
    {σ : Fin nV → ℕ → ℚ} (hσ : ∀ a k, ∃ n, StartsAt c m n a k (σ a k)) : Valid g cap σ ∧ Causal g cap σ := by
  obtain ⟨h1, h2, -, -, -, -, -, -, h9⟩ := start_spec hs
  choose N hN using hσ
  -- executions completed when another one starts have ended by then
  have hdone : ∀ a k b j, j < (run c m (N a k)).completed b →
      σ b j + g.execDur b j ≤ σ a k ∧ N b j < N a k := by
    intro a k b j hj
    obtain ⟨i, i', t, a1, a2, a3, a4⟩ := C66_durations h hg hs _ b j hj
    obtain ⟨rfl, rfl⟩ := a3.unique (hN b j)
    have := clock_mono h hg hs a2.le
    rw [a4.2.2, (hN a k).2.2] at this
    exact ⟨this, by omega⟩
  have hidle : ∀ a k, (run c m (N a k)).completed a = k := by
    intro a k
    have hr := (hN a k).ready.1
    rw [h1, h2] at hr
    have hid := ready_idle hg hr
    have hl := (inv_reachable h (run_reachable hs (N a k))).len a
    rcases (ginv_reachable h hg (run_reachable hs (N a k))).one a with ⟨-, h0⟩ | ⟨h0, -⟩
    · rw [h0] at hl; simp only [Machine.core] at hl; have := (hN a k).1; simp at hl; omega
    · simp only [Machine.core] at h0; rw [hid] at h0; simp at h0
  have htok : ∀ e k, cum (g.cons e) (k + 1) ≤
      g.preload e + cum (g.prod e) ((run c m (N (g.tgt e) k)).completed (g.src e)) := by
    intro e k
    have hr := (hN (g.tgt e) k).ready.1
    rw [h1, h2] at hr
    have h3 := (ready_tok hr rfl).1
    rw [execRate_tgt h _ rfl] at h3
    have h4 := (inv_reachable h (run_reachable hs (N (g.tgt e) k))).tok e
    simp only [Machine.core] at h4
    rw [(hN (g.tgt e) k).1] at h3 h4
    rw [cum_succ]; linarith
  have hroom : ∀ w, cap = some w → ∀ e k, cum (g.prod e) (k + 1) ≤
      w e - g.preload e + cum (g.cons e) ((run c m (N (g.src e) k)).completed (g.tgt e)) := by
    intro w hw e k
    have hr := (hN (g.src e) k).ready.1
    rw [h1, h2] at hr
    have h3 := (ready_space hr (by simp [hw]) rfl).1
    rw [execRate_src h _ rfl] at h3
    have h4 := (inv_reachable h (run_reachable hs (N (g.src e) k))).space w hw e
    simp only [Machine.core] at h4
    rw [(hN (g.src e) k).1] at h3 h4
    rw [cum_succ]; linarith
  have hgen : ∀ (f v : List Int) (p : Int) (src tgt : Fin nV), (∀ r ∈ v, 0 ≤ r) → 0 ≤ p →
      (∀ k, cum v (k + 1) ≤ p + cum f ((run c m (N tgt k)).completed src)) →
      NeverShort (rate f) (rate v) p (fun k => σ src k + g.execDur src k) (σ tgt) := by
    intro f v p src tgt hv hp hle x C hC
    rcases C.eq_empty_or_nonempty with rfl | hne
    · exact ⟨∅, by simp, by simpa using hp⟩
    · set L := C.max' hne with hL
      refine ⟨range ((run c m (N tgt L)).completed src), fun j hj => ?_, ?_⟩
      · exact le_trans (hdone tgt L src j (mem_range.1 hj)).1 (hC L (C.max'_mem hne))
      · refine le_trans ?_ (hle L)
        unfold cum
        exact sum_le_sum_of_subset_of_nonneg (fun l hl => mem_range.2 (Nat.lt_succ_of_le (C.le_max' l hl)))
          fun i _ _ => rate_nonneg hv i
  refine ⟨⟨fun a k => ?_, fun a k => ?_, fun e => ?_, fun w hw e => ?_⟩, ⟨fun x y => N x.1 x.2 < N y.1 y.2, ?_,
    fun a k => ?_, fun e k => ?_, fun w hw e k => ?_⟩⟩
  · have := clock_mono h hg hs (Nat.zero_le (N a k))
    rw [(hN a k).2.2, show run c m 0 = m from rfl, h9] at this; exact this
  · exact (hdone a (k + 1) a k (by rw [hidle]; omega)).1
  · exact hgen _ _ _ _ _ (h.consNonneg e) (h.preload e) (htok e)
  · exact hgen _ _ _ _ _ (h.prodNonneg e) (by have := hcap w hw e; omega) (hroom w hw e)
  · exact (measure fun x : Fin nV × ℕ => N x.1 x.2).wf
  · exact (hdone a (k + 1) a k (by rw [hidle]; omega)).2
  · refine ⟨_, fun j hj => ?_, htok e k⟩
    obtain ⟨x, y⟩ := hdone (g.tgt e) k (g.src e) j (mem_range.1 hj)
    exact ⟨y, x⟩
  · refine ⟨_, fun j hj => ?_, hroom w hw e k⟩
    obtain ⟨x, y⟩ := hdone (g.src e) k (g.tgt e) j (mem_range.1 hj)
    exact ⟨y, x⟩

/-! ### C67 -/

/-- Periods that some valid causal schedule of the graph sustains. -/
def Sim.Sustainable (g : Graph nV nE) (cap : Option (Fin nE → Int)) : Set ℚ :=
  {Ω | ∃ σ, Valid g cap σ ∧ Causal g cap σ ∧ Sustained g σ Ω}

theorem Sim.thr_pos (h : OK g) (hg : Guarded g cap) {c : Cfg nV nE} {m : Machine nV nE}
    (hs : start g cap true = some (c, m)) (hni : 0 < g.ni c.minActor) {n : ℕ} {thr : ℚ}
    (hres : (run c m n).pc = .recurrent (some thr)) : 0 < thr := by
  obtain ⟨_, _, p, T, _, _, hp, hT, hthr, -⟩ := recurrence_cycle h hg hs hni hres
  have : (0 : ℚ) < p := by exact_mod_cast hp
  exact pos_of_mul_pos_left (hthr ▸ this) hT.le

/-- **C67** A reported throughput is an upper bound: no causal valid schedule, periodic or not, completes iterations
faster. -/
theorem C67_upper_bound (h : OK g) (hg : Guarded g cap) {c : Cfg nV nE} {m : Machine nV nE}
    (hs : start g cap true = some (c, m)) (hni : 0 < g.ni c.minActor) {n : ℕ} {thr : ℚ}
    (hres : (run c m n).pc = .recurrent (some thr)) : ∀ Ω ∈ Sustainable g cap, 1 / thr ≤ Ω := by
  rintro Ω ⟨σ, hv, hc, hsus⟩
  have hthr := thr_pos h hg hs hni hres
  obtain ⟨-, ⟨K, hK⟩, hclock, -⟩ := C26_long_run h hg hs hni hres
  have hsf := start_free hs
  obtain ⟨C, hC⟩ := hsus c.minActor
  have hniq : (0 : ℚ) < g.ni c.minActor := by exact_mod_cast hni
  set N : ℚ := ((g.ni c.minActor : ℤ) : ℚ) with hN
  have hΩ : 0 ≤ Ω := by
    by_contra hneg
    push Not at hneg
    obtain ⟨k, hk⟩ := exists_nat_gt (C * N / (-Ω))
    have h1 := le_trans (hv.nonneg c.minActor k) (hC k)
    rw [div_lt_iff₀ (by linarith)] at hk
    have h2 : Ω * k / N = -(k * -Ω) / N := by ring
    rw [h2] at h1
    have h3 : C * N / N < k * -Ω / N := by exact div_lt_div_of_pos_right hk hniq
    rw [mul_div_cancel_right₀ _ hniq.ne'] at h3
    have h4 : -(k * -Ω) / N = -(k * -Ω / N) := by ring
    rw [h4] at h1; linarith
  rw [div_le_iff₀ hthr]
  by_contra hlt
  push Not at hlt
  obtain ⟨n0, hn0⟩ := hclock ((Ω * (K + 1 / N) + C) / (1 - Ω * thr))
  have hb := hn0 n0 le_rfl
  rw [div_lt_iff₀ (by linarith)] at hb
  have e1 := earliest h hg hsf hni hv hc n0 c.minActor _ le_rfl
  have e2 := hC ((run c.free m n0).acts c.minActor).numExecs
  have e3 := (abs_le.1 (hK n0)).2
  have hl := (inv_reachable h (run_reachable hsf n0)).len c.minActor
  have hq : ((run c.free m n0).st.queue c.minActor).length ≤ 1 := by
    rcases (ginv_reachable h hg (run_reachable hsf n0)).one c.minActor with ⟨-, h0⟩ | ⟨-, y, h0, -⟩ <;>
      simp only [Machine.core] at h0 <;> rw [h0] <;> simp
  simp only [Machine.core] at hl
  have e4 : (((run c.free m n0).acts c.minActor).numExecs : ℚ) ≤ (run c.free m n0).completed c.minActor + 1 := by
    have : ((run c.free m n0).acts c.minActor).numExecs ≤ (run c.free m n0).completed c.minActor + 1 := by omega
    exact_mod_cast this
  have e5 : (((run c.free m n0).acts c.minActor).numExecs : ℚ) / N ≤ thr * (run c.free m n0).clock + K + 1 / N := by
    calc _ ≤ ((run c.free m n0).completed c.minActor + 1 : ℚ) / N := div_le_div_of_nonneg_right e4 hniq.le
      _ = (run c.free m n0).completed c.minActor / N + 1 / N := by ring
      _ ≤ _ := by linarith
  have e6 := mul_le_mul_of_nonneg_left e5 hΩ
  rw [mul_div_assoc] at e2
  have : (run c.free m n0).clock ≤ Ω * (thr * (run c.free m n0).clock + K + 1 / N) + C := by linarith
  nlinarith

/-- The graph is connected and its repetition factors balance every channel. -/
structure Sim.Balanced (g : Graph nV nE) : Prop where
  ni : ∀ a, 0 < g.ni a
  bal : ∀ e, (g.prod e).sum * g.ni (g.src e) * g.phases (g.tgt e) = (g.cons e).sum * g.ni (g.tgt e) * g.phases (g.src e)
  prod : ∀ e, 0 < (g.prod e).sum
  cons : ∀ e, 0 < (g.cons e).sum
  connected : ∀ a b, Relation.ReflTransGen (Adj g) a b

/-- In a connected graph with balanced rates, the start times of the self-timed execution form a valid causal schedule that
follows the reported throughput within a constant, from both sides. -/
theorem Sim.attained (h : OK g) (hg : Guarded g cap) (hb : Balanced g)
    (hcap : ∀ w, cap = some w → ∀ e, g.preload e ≤ w e) {c : Cfg nV nE} {m : Machine nV nE}
    (hs : start g cap true = some (c, m)) {n : ℕ} {thr : ℚ} (hres : (run c m n).pc = .recurrent (some thr)) :
    ∃ σ, Valid g cap σ ∧ Causal g cap σ ∧ ∀ a, ∃ C, ∀ k : ℕ, |σ a k - 1 / thr * k / g.ni a| ≤ C := by
  have hthr := thr_pos h hg hs (hb.ni _) hres
  have hsf := start_free hs
  obtain ⟨-, -, hclock, -⟩ := C26_long_run h hg hs (hb.ni _) hres
  choose K hK using C26_every_actor h hg hs hb.ni hb.bal hb.prod hb.cons (hb.connected c.minActor) hres
  have hni : ∀ a, (0 : ℚ) < g.ni a := fun a => by exact_mod_cast hb.ni a
  obtain ⟨-, -, -, -, h5, -⟩ := start_spec hsf
  -- every execution starts
  have hlive : ∀ a k, ∃ n, StartsAt c.free m n a k (run c.free m n).clock := by
    intro a k
    have hbig : ∃ n, k < ((run c.free m n).acts a).numExecs := by
      obtain ⟨n, hn⟩ := hclock (((k : ℚ) / g.ni a + K a) / thr)
      have h1 := hn n le_rfl
      rw [div_lt_iff₀ hthr] at h1
      have h2 := (abs_le.1 (hK a n)).1
      have h3 : (k : ℚ) / g.ni a < (run c.free m n).completed a / g.ni a := by linarith
      rw [div_lt_div_iff_of_pos_right (hni a)] at h3
      have h4 : k < (run c.free m n).completed a := by exact_mod_cast h3
      have hl := (inv_reachable h (run_reachable hsf n)).len a
      simp only [Machine.core] at hl
      exact ⟨n, by omega⟩
    classical
    have hf := Nat.find_spec hbig
    have hmin := fun j => Nat.find_min (H := hbig) (m := j)
    set n := Nat.find hbig with hn
    cases hn' : n with
    | zero =>
      rw [hn'] at hf
      have : ((run c.free m 0).acts a).numExecs = 0 := by
        show ((m.core.acts) a).numExecs = 0
        rw [h5]; rfl
      omega
    | succ n' =>
      rw [hn'] at hf hmin
      have h6 := hmin n' (by omega)
      have h7 := (numExecs_step c.free (run c.free m n') a).2
      have h8 : ((run c.free m (n' + 1)).acts a).numExecs ≤ ((run c.free m n').acts a).numExecs + 1 := h7
      exact ⟨n', by omega, by omega, rfl⟩
  choose N hN using hlive
  obtain ⟨hv, hc⟩ := C66_self_timed_valid h hg hcap hsf (σ := fun a k => (run c.free m (N a k)).clock) fun a k => ⟨N a k, hN a k⟩
  refine ⟨_, hv, hc, fun a => ⟨(K a + 1 / g.ni a) / thr, fun k => ?_⟩⟩
  obtain ⟨h1, h1'⟩ := abs_le.1 (hK a (N a k))
  have hl := (inv_reachable h (run_reachable hsf (N a k))).len a
  have hone : ((run c.free m (N a k)).acts a).numExecs ≤ (run c.free m (N a k)).completed a + 1 := by
    rcases (ginv_reachable h hg (run_reachable hsf (N a k))).one a with ⟨-, h0⟩ | ⟨-, y, h0, -⟩ <;> rw [h0] at hl <;>
      simp [Machine.core] at hl <;> omega
  simp only [Machine.core] at hl
  have h2 := (hN a k).1
  have h3 : (run c.free m (N a k)).completed a ≤ k := by omega
  have h3' : k ≤ (run c.free m (N a k)).completed a + 1 := by omega
  have h4 : ((run c.free m (N a k)).completed a : ℚ) / g.ni a ≤ k / g.ni a :=
    div_le_div_of_nonneg_right (by exact_mod_cast h3) (hni a).le
  have h4' : (k : ℚ) / g.ni a ≤ ((run c.free m (N a k)).completed a + 1) / g.ni a :=
    div_le_div_of_nonneg_right (by exact_mod_cast h3') (hni a).le
  rw [add_div] at h4'
  have h5 : 0 ≤ 1 / (g.ni a : ℚ) := (div_pos one_pos (hni a)).le
  have h6 : |thr * (run c.free m (N a k)).clock - k / g.ni a| ≤ K a + 1 / g.ni a := by
    rw [abs_le]; constructor <;> linarith
  have e : (run c.free m (N a k)).clock - 1 / thr * k / g.ni a = (thr * (run c.free m (N a k)).clock - k / g.ni a) / thr := by
    field_simp
  show |(run c.free m (N a k)).clock - _| ≤ _
  rw [e, abs_div, abs_of_pos hthr]
  exact div_le_div_of_nonneg_right h6 hthr.le

/-- **C67** In a connected graph with balanced rates, the reported throughput is attained: the inverse of it is the
smallest period that any causal valid schedule of the graph sustains. -/
theorem C67_optimal (h : OK g) (hg : Guarded g cap) (hb : Balanced g)
    (hcap : ∀ w, cap = some w → ∀ e, g.preload e ≤ w e) {c : Cfg nV nE} {m : Machine nV nE}
    (hs : start g cap true = some (c, m)) {n : ℕ} {thr : ℚ} (hres : (run c m n).pc = .recurrent (some thr)) :
    0 < thr ∧ IsLeast (Sustainable g cap) (1 / thr) := by
  have hthr := thr_pos h hg hs (hb.ni _) hres
  refine ⟨hthr, ?_, C67_upper_bound h hg hs (hb.ni _) hres⟩
  obtain ⟨σ, h1, h2, h3⟩ := attained h hg hb hcap hs hres
  refine ⟨σ, h1, h2, fun a => ?_⟩
  obtain ⟨C, hC⟩ := h3 a
  exact ⟨C, fun k => by linarith [(abs_le.1 (hC k)).2]⟩

/-- **C67** When the program reports deadlock (throughput 0), the graph has no causal valid schedule at all. -/
theorem C67_deadlock (h : OK g) (hg : Guarded g cap) {detect : Bool} {c : Cfg nV nE} {m : Machine nV nE}
    (hs : start g cap detect = some (c, m)) (hni : 0 < g.ni c.minActor) {n : ℕ} (hd : (run c m n).pc = .deadlock) :
    ¬ ∃ σ, Valid g cap σ ∧ Causal g cap σ := by
  rintro ⟨σ, hv, hc⟩
  obtain ⟨h1, -⟩ := C25_deadlock_real_partial h hg hs hni hd
  have hi := inv_reachable h (run_reachable hs n)
  obtain ⟨b, hb⟩ := exists_ready (lim := none) h hi (ginv_reachable h hg (run_reachable hs n)) hv hc
    (a := c.minActor) (k := _) (fun b j hj _ => by
      have hl := hi.len b
      simp only [Machine.core] at hl hj ⊢
      rw [(h1 b).2] at hl; simp at hl; omega) le_rfl (by simp)
  have := (h1 b).1
  simp only [Machine.core] at hb
  rw [this] at hb; simp at hb

end Kiter
