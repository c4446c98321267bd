/-
Lemmas on the timing of the self-timed execution: every execution lasts its duration and starts no later than in any
causal schedule.
-/
import Verif.Spec.SelfTimed
import Verif.Lemmas.SymbolicRec
import Mathlib.Algebra.Order.Floor.Ring
import Mathlib.Data.Rat.Floor
import Mathlib.Tactic.FieldSimp
import Mathlib.Algebra.Order.BigOperators.Group.Finset

set_option autoImplicit false

namespace Kiter.Sim
open Finset

variable {nV nE : Nat} {g : Graph nV nE} {cap : Option (Fin nE → Int)}

theorem duration_eq (h : OK g) (a : Fin nV) (k : ℕ) : duration g a (k % g.phases a + 1) = g.execDur a k := by
  unfold duration Graph.execDur
  rw [h.durLen]; simp

theorem execDur_nonneg (h : OK g) (a : Fin nV) (k : ℕ) : 0 ≤ g.execDur a k := by
  rw [← duration_eq h]; exact (duration_bounds h a _).1

/-- What one step does to executions and time. -/
theorem step_kind (c : Cfg nV nE) (m : Machine nV nE) :
    ((step c m).acts = m.acts ∧ (step c m).st.queue = m.st.queue ∧ (step c m).completed = m.completed ∧
      (step c m).clock = m.clock) ∨
    (∃ a, ready c.g c.cap m.acts m.st a = true ∧ (step c m).acts = Function.update m.acts a ⟨(m.acts a).numExecs + 1, true⟩ ∧
      (step c m).st.queue = Function.update m.st.queue a
        (m.st.queue a ++ [(duration c.g a (phaseOf c.g m.acts a), phaseOf c.g m.acts a)]) ∧
      (step c m).completed = m.completed ∧ (step c m).clock = m.clock) ∨
    (∃ a y rest, m.st.queue a = y :: rest ∧ y.1 = 0 ∧
      (step c m).acts = Function.update m.acts a ⟨(m.acts a).numExecs, false⟩ ∧
      (step c m).st.queue = Function.update m.st.queue a rest ∧
      (step c m).completed = Function.update m.completed a (m.completed a + 1) ∧ (step c m).clock = m.clock) ∨
    (m.pc = .advance ∧ (step c m).acts = m.acts ∧ (step c m).completed = m.completed ∧
      nextEvent m.st ≠ longMax ∧ (step c m).clock = m.clock + nextEvent m.st ∧
      (step c m).st.queue = fun a => (m.st.queue a).map fun x => (x.1 - nextEvent m.st, x.2)) := by
  have hend : ∀ (m' : Machine nV nE) (t : Fin nV), readyToEnd m.st t = true → m'.st.queue = m.st.queue →
      m'.acts = m.acts → m'.completed = m.completed → m'.clock = m.clock →
      ∃ a y rest, m.st.queue a = y :: rest ∧ y.1 = 0 ∧
      (endOne c m' t).acts = Function.update m.acts a ⟨(m.acts a).numExecs, false⟩ ∧
      (endOne c m' t).st.queue = Function.update m.st.queue a rest ∧
      (endOne c m' t).completed = Function.update m.completed a (m.completed a + 1) ∧ (endOne c m' t).clock = m.clock := by
    intro m' t hr h1 h2 h3 h4
    obtain ⟨y, rest, hq, hy⟩ := readyToEnd_cons hr
    refine ⟨t, y, rest, hq, hy, ?_, ?_, ?_, ?_⟩ <;> simp [endOne, execEnd, h1, h2, h3, h4, hq, updateState]
  unfold step
  split
  · exact .inl ⟨rfl, rfl, rfl, rfl⟩
  · split
    · rename_i hr
      split
      · split
        · split
          · exact .inl ⟨rfl, rfl, rfl, rfl⟩
          · exact .inr (.inr (.inl (hend _ _ hr rfl rfl rfl rfl)))
        · exact .inr (.inr (.inl (hend _ _ hr rfl rfl rfl rfl)))
      · exact .inr (.inr (.inl (hend _ _ hr rfl rfl rfl rfl)))
    · exact .inl ⟨rfl, rfl, rfl, rfl⟩
  · exact .inl ⟨rfl, rfl, rfl, rfl⟩
  · split
    · rename_i t _ _ hr
      exact .inr (.inl ⟨t, hr, rfl, rfl, rfl, rfl⟩)
    · exact .inl ⟨rfl, rfl, rfl, rfl⟩
  · rename_i hpc
    simp only
    rw [advance_snd]
    split
    · rename_i hl
      refine .inl ⟨rfl, ?_, rfl, rfl⟩
      unfold advanceTime; simp only; split
      · rfl
      · rfl
    · rename_i hl
      refine .inr (.inr (.inr ⟨hpc, rfl, rfl, hl, rfl, ?_⟩))
      unfold advanceTime; simp only; split
      · rename_i h0; funext a; rw [h0]; simp
      · rfl
  · exact .inl ⟨rfl, rfl, rfl, rfl⟩
  · exact .inl ⟨rfl, rfl, rfl, rfl⟩

theorem numExecs_step (c : Cfg nV nE) (m : Machine nV nE) (a : Fin nV) :
    (m.acts a).numExecs ≤ ((step c m).acts a).numExecs ∧ ((step c m).acts a).numExecs ≤ (m.acts a).numExecs + 1 := by
  rcases step_kind c m with ⟨h, -⟩ | ⟨b, -, h, -⟩ | ⟨b, _, _, -, -, h, -⟩ | ⟨-, h, -⟩ <;> rw [h]
  · simp
  · by_cases hb : a = b
    · subst hb; simp
    · simp [hb]
  · by_cases hb : a = b
    · subst hb; simp
    · simp [hb]
  · simp

theorem numExecs_mono (c : Cfg nV nE) (m : Machine nV nE) (a : Fin nV) {i j : ℕ} (h : i ≤ j) :
    ((run c m i).acts a).numExecs ≤ ((run c m j).acts a).numExecs :=
  monotone_nat_of_le_succ (f := fun n => ((run c m n).acts a).numExecs) (fun n => (numExecs_step c (run c m n) a).1) h

/-- Executions in progress and finished executions, with the steps at which they started and ended. -/
structure Timed (g : Graph nV nE) (c : Cfg nV nE) (m : Machine nV nE) (n : ℕ) : Prop where
  running : ∀ a y, (run c m n).st.queue a = [y] → ∃ i t, i < n ∧ 0 < ((run c m n).acts a).numExecs ∧
    StartsAt c m i a (((run c m n).acts a).numExecs - 1) t ∧
    y.1 + (run c m n).clock = t + g.execDur a (((run c m n).acts a).numExecs - 1)
  ended : ∀ a k, k < (run c m n).completed a → ∃ i j t, i < j ∧ j < n ∧ StartsAt c m i a k t ∧
    EndsAt c m j a k (t + g.execDur a k)

theorem timed_run (h : OK g) (hg : Guarded g cap) {detect : Bool} {c : Cfg nV nE} {m : Machine nV nE}
    (hs : start g cap detect = some (c, m)) (n : ℕ) : Timed g c m n := by
  obtain ⟨h1, h2, -, -, h5, -⟩ := start_spec hs
  induction n with
  | zero =>
    have hq : ∀ a, m.st.queue a = [] := fun a => by rw [show m.st = m.core.st from rfl, h5]; rfl
    have hc : ∀ a, m.completed a = 0 := fun a => by rw [show m.completed = m.core.completed from rfl, h5]; rfl
    refine ⟨fun a y hy => ?_, fun a k hk => ?_⟩
    · simp [run, hq a] at hy
    · simp [run, hc a] at hk
  | succ n ih =>
    have hinv := inv_reachable h (run_reachable hs n)
    have hginv := ginv_reachable h hg (run_reachable hs n)
    have hrun : run c m (n + 1) = step c (run c m n) := rfl
    have keepE : ∀ a k, k < (run c m n).completed a → ∃ i j t, i < j ∧ j < n + 1 ∧ StartsAt c m i a k t ∧
        EndsAt c m j a k (t + g.execDur a k) := fun a k hk => by
      obtain ⟨i, j, t, a1, a2, a3, a4⟩ := ih.ended a k hk
      exact ⟨i, j, t, a1, by omega, a3, a4⟩
    rcases step_kind c (run c m n) with ⟨e1, e2, e3, e4⟩ | ⟨b, hr, e1, e2, e3, e4⟩ | ⟨b, y, rest, hq, hy, e1, e2, e3, e4⟩ |
      ⟨-, e1, e3, -, e4, e2⟩ <;> rw [← hrun] at e1 e2 e3 e4
    · refine ⟨fun a y hy => ?_, fun a k hk => ?_⟩
      · rw [e2] at hy; rw [e1, e4]
        obtain ⟨i, t, a1, a2, a3, a4⟩ := ih.running a y hy
        exact ⟨i, t, by omega, a2, a3, a4⟩
      · rw [e3] at hk; exact keepE a k hk
    · refine ⟨fun a y hy => ?_, fun a k hk => ?_⟩
      · by_cases hab : a = b
        · subst hab
          have hidle := ready_idle (g := g) (cap := cap) hg (by rw [← h1, ← h2]; exact hr)
          have hq0 : (run c m n).st.queue a = [] := by
            rcases hginv.one a with ⟨-, h0⟩ | ⟨h0, -⟩
            · exact h0
            · simp only [Machine.core] at h0; rw [hidle] at h0; simp at h0
          rw [e2, hq0] at hy
          simp only [Function.update_self, List.nil_append, List.cons.injEq, and_true] at hy
          have hnum : ((run c m (n + 1)).acts a).numExecs = ((run c m n).acts a).numExecs + 1 := by rw [e1]; simp
          refine ⟨n, (run c m n).clock, by omega, by omega, ⟨by omega, by omega, rfl⟩, ?_⟩
          rw [hnum, ← hy, e4, Nat.add_sub_cancel]
          show duration c.g a (phaseOf c.g _ a) + _ = _
          unfold phaseOf
          rw [h1, duration_eq h]; ring
        · rw [e2, Function.update_of_ne hab] at hy
          rw [e1, e4, Function.update_of_ne hab]
          obtain ⟨i, t, a1, a2, a3, a4⟩ := ih.running a y hy
          exact ⟨i, t, by omega, a2, a3, a4⟩
      · rw [e3] at hk; exact keepE a k hk
    · have hone : rest = [] := by
        rcases hginv.one b with ⟨-, h0⟩ | ⟨-, z, h0, -⟩
        · simp only [Machine.core] at h0; rw [hq] at h0; simp at h0
        · simp only [Machine.core] at h0; rw [hq] at h0; exact (List.cons.inj h0).2
      subst hone
      refine ⟨fun a z hz => ?_, fun a k hk => ?_⟩
      · by_cases hab : a = b
        · subst hab; rw [e2] at hz; simp at hz
        · rw [e2, Function.update_of_ne hab] at hz
          rw [e1, e4, Function.update_of_ne hab]
          obtain ⟨i, t, a1, a2, a3, a4⟩ := ih.running a z hz
          exact ⟨i, t, by omega, a2, a3, a4⟩
      · by_cases hab : a = b
        · subst hab
          rcases Nat.lt_or_ge k ((run c m n).completed a) with hlt | hge
          · exact keepE a k hlt
          · have hk' : k = (run c m n).completed a := by rw [e3] at hk; simp at hk; omega
            obtain ⟨i, t, a1, a2, a3, a4⟩ := ih.running a y hq
            have hl := hinv.len a
            simp only [Machine.core] at hl
            rw [hq] at hl
            have hk2 : ((run c m n).acts a).numExecs - 1 = k := by simp at hl; omega
            rw [hk2] at a3 a4
            refine ⟨i, n, t, a1, by omega, a3, hk'.symm, ?_, ?_⟩
            · rw [e3]; simp [hk']
            · rw [hy] at a4; linarith
        · rw [e3, Function.update_of_ne hab] at hk; exact keepE a k hk
    · refine ⟨fun a y hy => ?_, fun a k hk => ?_⟩
      · rw [e2] at hy
        have hz : ∃ z, (run c m n).st.queue a = [z] ∧ z.1 - nextEvent (run c m n).st = y.1 := by
          simp only at hy
          cases hq : (run c m n).st.queue a with
          | nil => rw [hq] at hy; simp at hy
          | cons z l =>
            rw [hq] at hy
            simp only [List.map_cons, List.cons.injEq, List.map_eq_nil_iff] at hy
            rw [hy.2]
            exact ⟨z, rfl, by rw [← hy.1]⟩
        obtain ⟨z, hz1, hz2⟩ := hz
        obtain ⟨i, t, a1, a2, a3, a4⟩ := ih.running a z hz1
        rw [e1, e4]
        exact ⟨i, t, by omega, a2, a3, by linarith⟩
      · rw [e3] at hk; exact keepE a k hk

/-- Nothing is ready when time advances. -/
theorem advance_none (h : OK g) (hg : Guarded g cap) {detect : Bool} {c : Cfg nV nE} {m : Machine nV nE}
    (hs : start g cap detect = some (c, m)) (hni : 0 < g.ni c.minActor) {n : ℕ} (hpc : (run c m n).pc = .advance)
    (a : Fin nV) : ready g cap (run c m n).acts (run c m n).st a = false := by
  obtain ⟨h1, h2, -⟩ := start_spec hs
  have := (minv_run hs h hg hni n).advanceDone hpc a
  rwa [h1, h2] at this

/-- If a causal schedule starts some further execution before `lim`, and every execution of the schedule that ends before
`lim` has been completed if it has been started, then some actor is ready. -/
theorem exists_ready (h : OK g) {x : Core nV nE} (hx : Inv g cap x) (hgx : GInv x)
    {σ : Fin nV → ℕ → ℚ} (hv : Valid g cap σ) (hc : Causal g cap σ) {lim : Option ℚ}
    (hdone : ∀ b j, j < (x.acts b).numExecs → (∀ L ∈ lim, σ b j + g.execDur b j < L) → j < x.completed b)
    {a : Fin nV} {k : ℕ} (hk : (x.acts a).numExecs ≤ k) (hlt : ∀ L ∈ lim, σ a k < L) :
    ∃ b, ready g cap x.acts x.st b = true := by
  obtain ⟨r, hwf, hord, htok, hroom⟩ := hc.order
  obtain ⟨⟨b, k⟩, ⟨hb1, hb2⟩, hmin⟩ := hwf.has_min
    {p : Fin nV × ℕ | (x.acts p.1).numExecs ≤ p.2 ∧ ∀ L ∈ lim, σ p.1 p.2 < L} ⟨(a, k), hk, hlt⟩
  simp only at hb1 hb2
  have hmin' : ∀ b' j, r (b', j) (b, k) → (∀ L ∈ lim, σ b' j < L) → j < (x.acts b').numExecs := by
    intro b' j hr hL
    by_contra hc
    exact hmin (b', j) ⟨Nat.not_lt.1 hc, hL⟩ hr
  have hfin : ∀ b' j, r (b', j) (b, k) → σ b' j + g.execDur b' j ≤ σ b k → j < x.completed b' := by
    intro b' j hr he
    have hd := execDur_nonneg h b' j
    exact hdone b' j (hmin' b' j hr fun L hL => by have := hb2 L hL; linarith) fun L hL => by have := hb2 L hL; linarith
  -- the execution is the next one of its actor
  have hkk : k = (x.acts b).numExecs := by
    rcases Nat.lt_or_ge (x.acts b).numExecs k with hlt | hge
    · exfalso
      have h1 := hord b (k - 1)
      rw [show k - 1 + 1 = k by omega] at h1
      have h2 := hv.noOverlap b (k - 1)
      rw [show k - 1 + 1 = k by omega] at h2
      have := hfin b (k - 1) h1 h2
      have := hx.len b
      omega
    · omega
  have hcomp : x.completed b = (x.acts b).numExecs := by
    have hl := hx.len b
    rcases Nat.eq_zero_or_pos k with h0 | hpos
    · omega
    · have h1 := hord b (k - 1)
      rw [show k - 1 + 1 = k by omega] at h1
      have h2 := hv.noOverlap b (k - 1)
      rw [show k - 1 + 1 = k by omega] at h2
      have := hfin b (k - 1) h1 h2
      omega
  have hidle : (x.acts b).isExecuting = false := by
    rcases hgx.one b with ⟨h0, -⟩ | ⟨-, y, hy, -⟩
    · exact h0
    · have hl := hx.len b; rw [hy] at hl; simp at hl; omega
  have hsum : ∀ (l : List Int) (hl : ∀ r ∈ l, 0 ≤ r) (P : Finset ℕ) (N : ℕ), (∀ j ∈ P, j < N) →
      ∑ j ∈ P, rate l j ≤ cum l N := by
    intro l hl P N hP
    unfold cum
    exact sum_le_sum_of_subset_of_nonneg (fun j hj => mem_range.2 (hP j hj)) fun i _ _ => rate_nonneg hl i
  refine ⟨b, ?_⟩
  unfold ready
  simp only [Bool.and_eq_true, Bool.or_eq_true, decide_eq_true_eq]
  refine ⟨fun e he => ?_, ?_⟩
  · obtain ⟨P, hP, hle⟩ := htok e k
    rw [he] at hP
    have h3 := hsum (g.prod e) (h.prodNonneg e) P _ fun j hj => hfin _ _ (hP j hj).1 (hP j hj).2
    have h4 := hx.tok e
    rw [he] at h4
    have h5 := cum_succ (g.cons e) k
    have h6 : cum (g.cons e) (k + 1) ≤ g.preload e + ∑ j ∈ P, rate (g.prod e) j := hle
    rw [execRate_tgt h _ he, ← hkk, hidle]
    rw [← hkk] at h4
    push Not
    exact ⟨by linarith, by simp⟩
  · cases hcap : cap with
    | none => simp
    | some w =>
      right
      intro e he
      obtain ⟨P, hP, hle⟩ := hroom w hcap e k
      rw [he] at hP
      have h3 := hsum (g.cons e) (h.consNonneg e) P _ fun j hj => hfin _ _ (hP j hj).1 (hP j hj).2
      have h4 := hx.space w hcap e
      rw [he] at h4
      have h5 := cum_succ (g.prod e) k
      have h6 : cum (g.prod e) (k + 1) ≤ w e - g.preload e + ∑ j ∈ P, rate (g.cons e) j := hle
      rw [execRate_src h _ he, ← hkk, hidle]
      rw [← hkk] at h4
      push Not
      exact ⟨by linarith, by simp⟩

/-- Executions that have not started yet do not start earlier in any causal schedule. -/
theorem earliest (h : OK g) (hg : Guarded g cap) {detect : Bool} {c : Cfg nV nE} {m : Machine nV nE}
    (hs : start g cap detect = some (c, m)) (hni : 0 < g.ni c.minActor) {σ : Fin nV → ℕ → ℚ} (hv : Valid g cap σ)
    (hc : Causal g cap σ) (n : ℕ) : ∀ a k, ((run c m n).acts a).numExecs ≤ k → (run c m n).clock ≤ σ a k := by
  obtain ⟨-, -, -, -, -, -, -, -, h9⟩ := start_spec hs
  induction n using Nat.strong_induction_on with
  | _ n ih =>
    cases n with
    | zero => intro a k _; show m.clock ≤ _; rw [h9]; exact hv.nonneg a k
    | succ n =>
      intro a k hk
      have hrun : run c m (n + 1) = step c (run c m n) := rfl
      have hk0 := le_trans (numExecs_step c (run c m n) a).1 hk
      rcases step_kind c (run c m n) with ⟨-, -, -, e4⟩ | ⟨b, -, -, -, -, e4⟩ | ⟨b, y, rest, -, -, -, -, -, e4⟩ |
        ⟨hpc, e1, -, -, e4, -⟩ <;> rw [← hrun] at e4 <;> rw [e4]
      · exact ih n (by omega) a k hk0
      · exact ih n (by omega) a k hk0
      · exact ih n (by omega) a k hk0
      · by_contra hcon
        push Not at hcon
        have hinv := inv_reachable h (run_reachable hs n)
        have hginv := ginv_reachable h hg (run_reachable hs n)
        obtain ⟨b, hb⟩ := exists_ready (lim := some ((run c m n).clock + nextEvent (run c m n).st)) h hinv hginv hv hc
          (a := a) (k := k) (fun b j hj hL => by
            by_contra hcon2
            have hL := hL _ rfl
            have hl := hinv.len b
            simp only [Machine.core] at hl hj hcon2
            rcases hginv.one b with ⟨-, h0⟩ | ⟨-, y, hy, -⟩
            · simp only [Machine.core] at h0; rw [h0] at hl; simp at hl; omega
            · simp only [Machine.core] at hy; rw [hy] at hl; simp at hl
              obtain ⟨i, t, a1, a2, a3, a4⟩ := (timed_run h hg hs n).running b y hy
              rw [show ((run c m n).acts b).numExecs - 1 = j by omega] at a3 a4
              have h5 := ih i (by omega) b j (by rw [a3.1])
              rw [a3.2.2] at h5
              have h6 := nextEvent_le_head _ hy
              linarith) hk0 (fun L hL => by
            simp only [Option.mem_def, Option.some.injEq] at hL
            rw [← hL]; exact hcon)
        have := advance_none h hg hs hni hpc b
        simp only [Machine.core] at hb
        rw [hb] at this; simp at this

/-- With positive durations every valid schedule is causal. -/
theorem Valid.causal {σ : Fin nV → ℕ → ℚ} (hv : Valid g cap σ) (h : OK g) (hpos : ∀ a, ∀ d ∈ g.dur a, 0 < d) :
    Causal g cap σ := by
  have hd : ∀ a k, g.execDur a k ∈ g.dur a := by
    intro a k
    unfold Graph.execDur
    have hlen : 0 < (g.dur a).length := by rw [h.durLen]; exact h.phases a
    have := Nat.mod_lt k hlen
    rw [List.getD_eq_getElem?_getD, List.getElem?_eq_getElem this]
    exact List.getElem_mem _
  obtain ⟨δ, hδ, hle⟩ : ∃ δ : ℚ, 0 < δ ∧ ∀ a, ∀ d ∈ g.dur a, δ ≤ d := by
    have : ∀ l : List ℚ, (∀ d ∈ l, 0 < d) → ∃ δ : ℚ, 0 < δ ∧ ∀ d ∈ l, δ ≤ d := by
      intro l
      induction l with
      | nil => intro _; exact ⟨1, by norm_num, by simp⟩
      | cons x l ih =>
        intro hl
        obtain ⟨δ, h1, h2⟩ := ih fun d hd => hl d (by simp [hd])
        refine ⟨min x δ, lt_min (hl x (by simp)) h1, fun d hd => ?_⟩
        rcases List.mem_cons.1 hd with rfl | hd
        · exact min_le_left _ _
        · exact le_trans (min_le_right _ _) (h2 d hd)
    obtain ⟨δ, h1, h2⟩ := this ((List.finRange nV).flatMap g.dur) fun d hd => by
      obtain ⟨a, -, ha⟩ := List.mem_flatMap.1 hd; exact hpos a d ha
    exact ⟨δ, h1, fun a d hd => h2 d (List.mem_flatMap.2 ⟨a, List.mem_finRange a, hd⟩)⟩
  have hdur : ∀ a k, δ ≤ g.execDur a k := fun a k => hle a _ (hd a k)
  refine ⟨fun x y => σ x.1 x.2 + δ ≤ σ y.1 y.2, ?_, fun a k => ?_, fun e k => ?_, fun w hw e k => ?_⟩
  · refine Subrelation.wf ?_ (measure fun x : Fin nV × ℕ => ⌊σ x.1 x.2 / δ⌋₊).wf
    intro x y hxy
    show ⌊σ x.1 x.2 / δ⌋₊ < ⌊σ y.1 y.2 / δ⌋₊
    have h0 : 0 ≤ σ x.1 x.2 / δ := div_nonneg (hv.nonneg _ _) hδ.le
    have h1 : σ x.1 x.2 / δ + 1 ≤ σ y.1 y.2 / δ := by
      rw [le_div_iff₀ hδ, add_mul, div_mul_cancel₀ _ hδ.ne', one_mul]; exact hxy
    have h2 : ⌊σ x.1 x.2 / δ + 1⌋₊ ≤ ⌊σ y.1 y.2 / δ⌋₊ := Nat.floor_le_floor h1
    rw [Nat.floor_add_one h0] at h2
    omega
  · have := hv.noOverlap a k; have := hdur a k
    show _ + _ ≤ _; linarith
  · have hmono : ∀ l ∈ range (k + 1), σ (g.tgt e) l ≤ σ (g.tgt e) k := by
      intro l hl
      refine monotone_nat_of_le_succ (f := σ (g.tgt e)) (fun n => ?_) (by simp at hl; omega)
      have := hv.noOverlap (g.tgt e) n; have := hdur (g.tgt e) n; linarith
    obtain ⟨P, hP1, hP2⟩ := hv.tokens e (σ (g.tgt e) k) (range (k + 1)) hmono
    refine ⟨P, fun j hj => ⟨?_, hP1 j hj⟩, hP2⟩
    have := hP1 j hj; have := hdur (g.src e) j
    show _ + _ ≤ _
    simp only at *; linarith
  · have hmono : ∀ l ∈ range (k + 1), σ (g.src e) l ≤ σ (g.src e) k := by
      intro l hl
      refine monotone_nat_of_le_succ (f := σ (g.src e)) (fun n => ?_) (by simp at hl; omega)
      have := hv.noOverlap (g.src e) n; have := hdur (g.src e) n; linarith
    obtain ⟨P, hP1, hP2⟩ := hv.room w hw e (σ (g.src e) k) (range (k + 1)) hmono
    refine ⟨P, fun j hj => ⟨?_, hP1 j hj⟩, hP2⟩
    have := hP1 j hj; have := hdur (g.tgt e) j
    show _ + _ ≤ _
    simp only at *; linarith

end Kiter.Sim
