/-
Deadlocks, records and recurrence of the machine of the main loop.
-/
import Verif.Lemmas.SymbolicRun
import Mathlib.Tactic.FieldSimp

set_option autoImplicit false

namespace Kiter.Sim
open Finset

variable {nV nE : Nat} {g : Graph nV nE} {cap : Option (Fin nE → Int)}

/-! ### Starting an actor makes no other actor ready -/

theorem rateAt_nonneg (h : OK g) (a : Fin nV) (e : Fin nE) (p : Nat) : 0 ≤ rateAt g a e p := by
  have key : ∀ (n : Nat) (l : List Int), (∀ r ∈ l, 0 ≤ r) → 0 ≤ rateMap n l p := by
    intro n l hl
    unfold rateMap
    split
    · rw [List.getD_eq_getElem?_getD]
      cases hk : l[p - 1]? with
      | none => simp
      | some r => exact hl r (List.mem_of_getElem? hk)
    · exact le_refl _
  unfold rateAt
  split
  · exact key _ _ (h.prodNonneg e)
  · exact key _ _ (h.consNonneg e)

theorem not_ready_start (h : OK g) {acts : Fin nV → Act} {s : St nV nE} {a b : Fin nV} (hab : b ≠ a)
    (hb : ready g cap acts s b = false) :
    ready g cap (execStart g cap acts s a).1 (updateState g (execStart g cap acts s a).1 (execStart g cap acts s a).2) b
      = false := by
  have hrate : ∀ e, execRate g (execStart g cap acts s a).1 b e = execRate g acts b e := by
    intro e; simp [execRate, execStart, hab]
  have hexe : ((execStart g cap acts s a).1 b).isExecuting = (acts b).isExecuting := by simp [execStart, hab]
  by_contra hc
  simp only [Bool.not_eq_false] at hc
  have key : ready g cap acts s b = true := by
    unfold ready
    simp only [Bool.and_eq_true, Bool.or_eq_true, decide_eq_true_eq]
    refine ⟨fun e he => ?_, ?_⟩
    · obtain ⟨h1, h2⟩ := ready_tok hc he
      rw [hrate] at h1; rw [hexe] at h2
      have : (updateState g (execStart g cap acts s a).1 (execStart g cap acts s a).2).tokens e ≤ s.tokens e := by
        have := rateAt_nonneg h a e ((acts a).numExecs % phaseCount g a e + 1)
        simp only [updateState, execStart, execRate]
        split <;> omega
      rw [h2]; push Not
      exact ⟨h1.trans this, by simp⟩
    · cases hcap : cap with
      | none => simp
      | some k =>
        right
        intro e he
        obtain ⟨h1, h2⟩ := ready_space hc (by simp [hcap]) he
        rw [hrate] at h1; rw [hexe] at h2
        have : (updateState g (execStart g cap acts s a).1 (execStart g cap acts s a).2).space e ≤ s.space e := by
          have := rateAt_nonneg h a e ((acts a).numExecs % phaseCount g a e + 1)
          simp only [updateState, execStart, execRate]
          split <;> omega
        rw [h2]; push Not
        exact ⟨h1.trans this, by simp⟩
  rw [key] at hb; simp at hb

theorem ready_congr_advance (acts : Fin nV → Act) (s : St nV nE) (a : Fin nV) :
    ready g cap acts (advanceTime s).1 a = ready g cap acts s a := by
  obtain ⟨-, h2, h3, -⟩ := advance_fields s
  unfold ready; rw [h2, h3]

theorem advance_snd (s : St nV nE) : (advanceTime s).2 = nextEvent s := by
  unfold advanceTime; simp only; split
  · rfl
  · split <;> rfl

/-! ### Machine invariant -/

/-- Position in the loops, actors known not to be ready, and accounting of records. -/
structure MInv (c : Cfg nV nE) (m : Machine nV nE) : Prop where
  endsSuffix : ∀ l, m.pc = .ends l → ∃ pre, pre ++ l = List.finRange nV
  startsSuffix : ∀ l, m.pc = .starts l → ∃ pre, pre ++ l = List.finRange nV
  startsDone : ∀ l, m.pc = .starts l → ∀ a, a ∉ l → ready c.g c.cap m.acts m.st a = false
  advanceDone : m.pc = .advance → ∀ a, ready c.g c.cap m.acts m.st a = false
  deadDone : m.pc = .deadlock → (∀ a, ready c.g c.cap m.acts m.st a = false) ∧ ∀ a, m.st.queue a = []
  acc : (∀ t, m.pc ≠ .recurrent t) →
    (m.completed c.minActor : Int) = m.visited.length * c.g.ni c.minActor + m.count ∧ 0 ≤ m.count ∧
      m.count < c.g.ni c.minActor
  clock : m.clock = (m.visited.map fun s => s.elapsed).sum + m.st.elapsed

theorem minv_step {c : Cfg nV nE} {m : Machine nV nE} (h : OK c.g) (hx : GInv m.core)
    (hm : MInv c m) : MInv c (step c m) := by
  unfold step
  split
  · rename_i hpc
    refine ⟨by simp, fun l hl => ⟨[], by simpa using hl.symm⟩, fun l hl a ha => ?_, by simp, by simp, ?_, hm.clock⟩
    · simp only [Pc.starts.injEq] at hl; subst hl; exact absurd (List.mem_finRange a) ha
    · intro _; exact hm.acc (by simp [hpc])
  · rename_i t rest hpc
    obtain ⟨hc1, hc2, hc3⟩ := hm.acc (by simp [hpc])
    have hsuf := hm.endsSuffix _ hpc
    split
    · rename_i hr
      obtain ⟨y, q, hq, -⟩ := readyToEnd_cons hr
      have hel : ∀ s : St nV nE, (updateState c.g (execEnd c.g c.cap m.acts s t).1
          (execEnd c.g c.cap m.acts s t).2).elapsed = s.elapsed := by
        intro s; unfold execEnd; split <;> rfl
      split
      · rename_i hmin
        split
        · rename_i hcount
          split
          · refine ⟨by simp, by simp, by simp, by simp, by simp, fun hn => absurd rfl (hn _), hm.clock⟩
          · refine ⟨fun l hl => hsuf.imp fun pre hp => ?_, ?_, ?_, ?_, ?_, fun _ => ⟨?_, le_refl _, by simp only [endOne]; omega⟩, ?_⟩
            · have : l = t :: rest := by simpa [endOne, hpc] using hl.symm
              rw [this]; exact hp
            · simp [endOne, hpc]
            · simp [endOne, hpc]
            · simp [endOne, hpc]
            · simp [endOne, hpc]
            · simp only [endOne, ← hmin, Function.update_self, List.length_append, List.length_singleton]
              rw [← hmin] at hc1 hcount; push_cast; rw [hc1]; linarith
            · simp only [endOne, List.map_append, List.sum_append, List.map_cons, List.map_nil, List.sum_cons,
                List.sum_nil, hel]
              rw [hm.clock]; ring
        · rename_i hcount
          refine ⟨fun l hl => hsuf.imp fun pre hp => ?_, ?_, ?_, ?_, ?_, fun _ => ⟨?_, ?_, ?_⟩, ?_⟩
          · have : l = t :: rest := by simpa [endOne, hpc] using hl.symm
            rw [this]; exact hp
          · simp [endOne, hpc]
          · simp [endOne, hpc]
          · simp [endOne, hpc]
          · simp [endOne, hpc]
          · simp only [endOne, ← hmin, Function.update_self]
            rw [← hmin] at hc1; push_cast; rw [hc1]; ring
          · simp only [endOne]; omega
          · simp only [endOne]; omega
          · simp only [endOne, hel]; exact hm.clock
      · rename_i hmin
        refine ⟨fun l hl => hsuf.imp fun pre hp => ?_, ?_, ?_, ?_, ?_, fun _ => ⟨?_, ?_, ?_⟩, ?_⟩
        · have : l = t :: rest := by simpa [endOne, hpc] using hl.symm
          rw [this]; exact hp
        · simp [endOne, hpc]
        · simp [endOne, hpc]
        · simp [endOne, hpc]
        · simp [endOne, hpc]
        · have hmin' : c.minActor ≠ t := fun e => hmin e.symm
          simp only [endOne, ne_eq, hmin', not_false_eq_true, Function.update_of_ne]; exact hc1
        · exact hc2
        · exact hc3
        · simp only [endOne, hel]; exact hm.clock
    · refine ⟨fun l hl => ?_, by simp, by simp, by simp, by simp, fun _ => ⟨hc1, hc2, hc3⟩, hm.clock⟩
      simp only [Pc.ends.injEq] at hl; subst hl
      obtain ⟨pre, hp⟩ := hsuf
      exact ⟨pre ++ [t], by simpa using hp⟩
  · rename_i hpc
    refine ⟨by simp, by simp, by simp, fun _ a => hm.startsDone _ hpc a (by simp), by simp,
      fun _ => hm.acc (by simp [hpc]), hm.clock⟩
  · rename_i t rest hpc
    have hacc := hm.acc (by simp [hpc])
    have hsuf := hm.startsSuffix _ hpc
    have hdone := hm.startsDone _ hpc
    split
    · rename_i hr
      refine ⟨by simp [hpc], fun l hl => hsuf.imp fun pre hp => ?_, fun l hl a ha => ?_, by simp [hpc], by simp [hpc],
        fun _ => hacc, hm.clock⟩
      · have : l = t :: rest := by simpa [hpc] using hl.symm
        rw [this]; exact hp
      · have : l = t :: rest := by simpa [hpc] using hl.symm
        subst this
        exact not_ready_start h (fun e => ha (by simp [e])) (hdone a ha)
    · rename_i hr
      refine ⟨by simp, fun l hl => ?_, fun l hl a ha => ?_, by simp, by simp, fun _ => hacc, hm.clock⟩
      · simp only [Pc.starts.injEq] at hl; subst hl
        obtain ⟨pre, hp⟩ := hsuf
        exact ⟨pre ++ [t], by simpa using hp⟩
      · simp only [Pc.starts.injEq] at hl; subst hl
        by_cases hat : a = t
        · subst hat; simpa using hr
        · exact hdone a (by simp [hat, ha])
  · rename_i hpc
    have hacc := hm.acc (by simp [hpc])
    have hdone := hm.advanceDone hpc
    simp only
    split
    · rename_i hd
      have hlm : nextEvent m.st = longMax := by rw [← advance_snd]; exact hd
      refine ⟨by simp, by simp, by simp, by simp, fun _ => ⟨fun a => ?_, fun a => ?_⟩, fun _ => hacc, ?_⟩
      · rw [ready_congr_advance]; exact hdone a
      · have hq : m.st.queue a = [] := by
          rcases hx.one a with ⟨-, h2⟩ | ⟨-, y, hy, -, h4⟩
          · exact h2
          · have := nextEvent_le_head m.st (show m.st.queue a = y :: [] from hy)
            rw [hlm] at this; exact absurd this (not_le.2 h4)
        obtain ⟨-, -, -, d, h4⟩ := advance_fields m.st
        rw [h4]; simp [hq]
      · have : (advanceTime m.st).1 = m.st := by
          unfold advanceTime; simp only [hlm, if_true, longMax_pos.ne', if_false]
        rw [this]; exact hm.clock
    · refine ⟨fun l hl => ⟨[], by simpa using hl.symm⟩, by simp, by simp, by simp, by simp, fun _ => hacc, ?_⟩
      rename_i hd
      have : (advanceTime m.st).1.elapsed = m.st.elapsed + (advanceTime m.st).2 := by
        unfold advanceTime at hd ⊢; simp only at hd ⊢
        split
        · rename_i h0; simp [h0]
        · split
          · rename_i h2; simp [h2] at hd
          · rfl
      simp only [this, hm.clock]; ring
  · exact hm
  · exact hm

theorem minv_start {detect : Bool} {c : Cfg nV nE} {m : Machine nV nE} (h : start g cap detect = some (c, m))
    (hni : 0 < g.ni c.minActor) : MInv c m := by
  obtain ⟨h1, -, -, -, h5, h6, h7, h8, h9⟩ := start_spec h
  have hst : m.st = (Core.init g cap).st := congrArg Core.st h5
  have hco : m.completed = (Core.init g cap).completed := congrArg Core.completed h5
  refine ⟨fun l hl => ⟨[], ?_⟩, by simp [h6], by simp [h6], by simp [h6], by simp [h6], fun _ => ⟨?_, ?_, ?_⟩, ?_⟩
  · rw [h6] at hl; simpa using (Pc.ends.inj hl).symm
  · simp [hco, h7, h8, Core.init]
  · omega
  · rw [h7, h1]; exact hni
  · simp [h9, h8, hst, Core.init]

theorem minv_run {detect : Bool} {c : Cfg nV nE} {m : Machine nV nE} (hs : start g cap detect = some (c, m))
    (h : OK g) (hg : Guarded g cap) (hni : 0 < g.ni c.minActor) (n : ℕ) : MInv c (run c m n) := by
  obtain ⟨h1, h2, -⟩ := start_spec hs
  induction n with
  | zero => exact minv_start hs hni
  | succ n ih => exact minv_step (h1 ▸ h) (ginv_reachable h hg (run_reachable hs n)) ih

/-! ### Equivalent situations have the same future -/

/-- Same loop position, same state, same counters up to full turns of the phases. -/
structure Equiv (c : Cfg nV nE) (m m' : Machine nV nE) : Prop where
  pc : m.pc = m'.pc
  st : m.st = m'.st
  count : m.count = m'.count
  exec : ∀ a, (m.acts a).isExecuting = (m'.acts a).isExecuting
  num : ∀ a, (m.acts a).numExecs % c.g.phases a = (m'.acts a).numExecs % c.g.phases a

theorem mod_succ_congr {a b n : ℕ} (h : a % n = b % n) : (a + 1) % n = (b + 1) % n := by
  rw [Nat.add_mod, h, ← Nat.add_mod]

theorem execRate_congr (h : OK g) {acts acts' : Fin nV → Act} {a : Fin nV} {e : Fin nE}
    (he : g.src e = a ∨ g.tgt e = a) (hn : (acts a).numExecs % g.phases a = (acts' a).numExecs % g.phases a) :
    execRate g acts a e = execRate g acts' a e := by
  unfold execRate; rw [phaseCount_eq h he, hn]

theorem ready_congr (h : OK g) {acts acts' : Fin nV → Act} (s : St nV nE) {a : Fin nV}
    (hn : (acts a).numExecs % g.phases a = (acts' a).numExecs % g.phases a)
    (hx : (acts a).isExecuting = (acts' a).isExecuting) : ready g cap acts s a = ready g cap acts' s a := by
  unfold ready
  rw [hx]
  congr 1
  · apply decide_eq_decide.2
    exact forall_congr' fun e => forall_congr' fun he => by rw [execRate_congr h (.inr he) hn]
  · congr 1
    apply decide_eq_decide.2
    exact forall_congr' fun e => forall_congr' fun he => by rw [execRate_congr h (.inl he) hn]

theorem phaseOf_congr {acts acts' : Fin nV → Act}
    (hn : ∀ a, (acts a).numExecs % g.phases a = (acts' a).numExecs % g.phases a) : phaseOf g acts = phaseOf g acts' := by
  funext a; unfold phaseOf; rw [hn]

theorem start_congr (h : OK g) {acts acts' : Fin nV → Act} (s : St nV nE) (a : Fin nV)
    (hn : ∀ a, (acts a).numExecs % g.phases a = (acts' a).numExecs % g.phases a) :
    updateState g (execStart g cap acts s a).1 (execStart g cap acts s a).2 =
      updateState g (execStart g cap acts' s a).1 (execStart g cap acts' s a).2 ∧
    (∀ b, ((execStart g cap acts s a).1 b).numExecs % g.phases b =
      ((execStart g cap acts' s a).1 b).numExecs % g.phases b) := by
  have h2 : ∀ b, ((execStart g cap acts s a).1 b).numExecs % g.phases b =
      ((execStart g cap acts' s a).1 b).numExecs % g.phases b := by
    intro b
    by_cases hb : b = a
    · subst hb; simp only [execStart, Function.update_self]; exact mod_succ_congr (hn b)
    · simpa [execStart, hb] using hn b
  refine ⟨?_, h2⟩
  unfold updateState
  rw [phaseOf_congr h2]
  unfold execStart
  simp only [St.mk.injEq, and_true, true_and]
  refine ⟨by rw [phaseOf_congr hn], ?_, ?_⟩
  · funext e
    by_cases he : g.tgt e = a
    · simp only [he, if_true]; rw [execRate_congr h (.inr he) (hn a)]
    · simp [he]
  · funext e
    by_cases he : g.src e = a
    · simp only [he]; rw [execRate_congr h (.inl he) (hn a)]
    · simp [he]

theorem end_congr {acts acts' : Fin nV → Act} (s : St nV nE) (a : Fin nV)
    (hn : ∀ a, (acts a).numExecs % g.phases a = (acts' a).numExecs % g.phases a) :
    updateState g (execEnd g cap acts s a).1 (execEnd g cap acts s a).2 =
      updateState g (execEnd g cap acts' s a).1 (execEnd g cap acts' s a).2 ∧
    (∀ b, ((execEnd g cap acts s a).1 b).numExecs % g.phases b =
      ((execEnd g cap acts' s a).1 b).numExecs % g.phases b) := by
  unfold execEnd
  split
  · refine ⟨?_, hn⟩
    unfold updateState; rw [phaseOf_congr hn]
  · have h2 : ∀ b, (Function.update acts a ⟨(acts a).numExecs, false⟩ b).numExecs % g.phases b =
      (Function.update acts' a ⟨(acts' a).numExecs, false⟩ b).numExecs % g.phases b := by
      intro b
      by_cases hb : b = a
      · subst hb; simpa using hn b
      · simpa [hb] using hn b
    refine ⟨?_, h2⟩
    unfold updateState; simp only; rw [phaseOf_congr h2]

theorem endOne_equiv {c : Cfg nV nE} {m m' : Machine nV nE} (he : Equiv c m m') (t : Fin nV) :
    Equiv c (endOne c m t) (endOne c m' t) := by
  obtain ⟨h1, h2⟩ := end_congr (g := c.g) (cap := c.cap) m.st t he.num
  refine ⟨he.pc, ?_, he.count, ?_, ?_⟩
  · simp only [endOne]; rw [h1, he.st]
  · intro b
    simp only [endOne, execEnd, ← he.st]
    split
    · exact he.exec b
    · by_cases hb : b = t
      · subst hb; simp
      · simpa [hb] using he.exec b
  · intro b
    simp only [endOne]
    rw [h2 b, he.st]

/-- Effects of a step other than on the compared part. -/
structure SameEffect (m n m' n' : Machine nV nE) : Prop where
  clock : n.clock - m.clock = n'.clock - m'.clock
  completed : ∀ a, ∃ k, n.completed a = m.completed a + k ∧ n'.completed a = m'.completed a + k
  visited : ∃ l, n.visited = m.visited ++ l ∧ n'.visited = m'.visited ++ l

theorem SameEffect.rfl' (m m' : Machine nV nE) : SameEffect m m m' m' :=
  ⟨by ring, fun _ => ⟨0, rfl, rfl⟩, [], by simp, by simp⟩

theorem endOne_effect {c : Cfg nV nE} (m m' : Machine nV nE) (t : Fin nV) :
    SameEffect m (endOne c m t) m' (endOne c m' t) := by
  refine ⟨by simp [endOne], fun a => ?_, [], by simp [endOne], by simp [endOne]⟩
  by_cases ha : a = t
  · subst ha; exact ⟨1, by simp [endOne], by simp [endOne]⟩
  · exact ⟨0, by simp [endOne, ha], by simp [endOne, ha]⟩

theorem step_equiv {c : Cfg nV nE} (h : OK c.g) (hd : c.detect = false) {m m' : Machine nV nE} (he : Equiv c m m') :
    Equiv c (step c m) (step c m') ∧ SameEffect m (step c m) m' (step c m') := by
  obtain ⟨pc, acts, st, count, vis, clk, comp⟩ := m
  obtain ⟨pc', acts', st', count', vis', clk', comp'⟩ := m'
  obtain ⟨hpc, hst, hco, hex, hnum⟩ := he
  simp only at hpc hst hco hex hnum
  subst hpc hst hco
  unfold step
  simp only [hd, Bool.false_eq_true, if_false]
  split
  · exact ⟨⟨rfl, rfl, rfl, hex, hnum⟩, by constructor <;> simp⟩
  · rename_i t rest
    by_cases hr : readyToEnd st t = true
    · simp only [hr, if_true]
      by_cases hmin : t = c.minActor
      · simp only [hmin, if_true]
        by_cases hcnt : count + 1 = c.g.ni c.minActor
        · simp only [hcnt, if_true]
          refine ⟨by apply endOne_equiv; exact ⟨rfl, rfl, rfl, hex, hnum⟩, ?_⟩
          have := endOne_effect (c := c)
              (⟨.ends (t :: rest), acts, { st with elapsed := 0 }, 0, vis ++ [st], clk, comp⟩)
              (⟨.ends (t :: rest), acts', { st with elapsed := 0 }, 0, vis' ++ [st], clk', comp'⟩) c.minActor
          exact ⟨this.clock, this.completed, [st], rfl, rfl⟩
        · simp only [hcnt, if_false]
          have := endOne_effect (c := c)
              (⟨.ends (t :: rest), acts, st, count + 1, vis, clk, comp⟩)
              (⟨.ends (t :: rest), acts', st, count + 1, vis', clk', comp'⟩) c.minActor
          exact ⟨by apply endOne_equiv; exact ⟨rfl, rfl, rfl, hex, hnum⟩, ⟨this.clock, this.completed, this.visited⟩⟩
      · simp only [hmin, if_false]
        exact ⟨by apply endOne_equiv; exact ⟨rfl, rfl, rfl, hex, hnum⟩, endOne_effect _ _ t⟩
    · simp only [hr, Bool.false_eq_true, if_false]
      exact ⟨⟨rfl, rfl, rfl, hex, hnum⟩, by constructor <;> simp⟩
  · exact ⟨⟨rfl, rfl, rfl, hex, hnum⟩, by constructor <;> simp⟩
  · rename_i t rest
    have hrd : ready c.g c.cap acts' st t = ready c.g c.cap acts st t :=
      (ready_congr h st (hnum t) (hex t)).symm
    rw [hrd]
    by_cases hr : ready c.g c.cap acts st t = true
    · simp only [hr, if_true]
      obtain ⟨h1, h2⟩ := start_congr (cap := c.cap) h st t hnum
      refine ⟨⟨rfl, h1, rfl, fun b => ?_, h2⟩, by constructor <;> simp⟩
      by_cases hb : b = t
      · subst hb; simp [execStart]
      · simpa [execStart, hb] using hex b
    · simp only [hr, Bool.false_eq_true, if_false]
      exact ⟨⟨rfl, rfl, rfl, hex, hnum⟩, by constructor <;> simp⟩
  · split
    · exact ⟨⟨rfl, rfl, rfl, hex, hnum⟩, by constructor <;> simp⟩
    · exact ⟨⟨rfl, rfl, rfl, hex, hnum⟩, by constructor <;> simp⟩
  · exact ⟨⟨rfl, rfl, rfl, hex, hnum⟩, SameEffect.rfl' _ _⟩
  · exact ⟨⟨rfl, rfl, rfl, hex, hnum⟩, SameEffect.rfl' _ _⟩

theorem SameEffect.trans {m n o m' n' o' : Machine nV nE} (h1 : SameEffect m n m' n') (h2 : SameEffect n o n' o') :
    SameEffect m o m' o' := by
  refine ⟨by linarith [h1.clock, h2.clock], fun a => ?_, ?_⟩
  · obtain ⟨k, hk1, hk2⟩ := h1.completed a
    obtain ⟨l, hl1, hl2⟩ := h2.completed a
    exact ⟨k + l, by omega, by omega⟩
  · obtain ⟨k, hk1, hk2⟩ := h1.visited
    obtain ⟨l, hl1, hl2⟩ := h2.visited
    exact ⟨k ++ l, by simp [hl1, hk1], by simp [hl2, hk2]⟩

theorem run_equiv {c : Cfg nV nE} (h : OK c.g) (hd : c.detect = false) (m : Machine nV nE) {i j : ℕ}
    (he : Equiv c (run c m i) (run c m j)) (n : ℕ) :
    Equiv c (run c m (i + n)) (run c m (j + n)) ∧
    SameEffect (run c m i) (run c m (i + n)) (run c m j) (run c m (j + n)) := by
  induction n with
  | zero => exact ⟨he, SameEffect.rfl' _ _⟩
  | succ n ih =>
    obtain ⟨h1, h2⟩ := step_equiv h hd ih.1
    exact ⟨h1, ih.2.trans h2⟩

/-! ### Records -/

/-- The machine is about to record its state. -/
structure Recording (c : Cfg nV nE) (m : Machine nV nE) : Prop where
  pc : ∃ rest, m.pc = .ends (c.minActor :: rest)
  ends : readyToEnd m.st c.minActor = true
  count : m.count + 1 = c.g.ni c.minActor

theorem suffix_unique {l : List (Fin nV)} (hl : l.Nodup) {p q r s : List (Fin nV)} {t : Fin nV}
    (h1 : p ++ t :: r = l) (h2 : q ++ t :: s = l) : r = s := by
  induction p generalizing q l with
  | nil =>
    cases q with
    | nil => simp at h1 h2; rw [← h1] at h2; simpa using h2.symm
    | cons b q =>
      simp at h1 h2
      rw [← h1] at h2
      obtain ⟨rfl, h3⟩ := List.cons.inj h2
      rw [← h1, List.nodup_cons, ← h3] at hl
      simp at hl
  | cons a p ih =>
    cases q with
    | nil =>
      simp at h1 h2
      rw [← h2] at h1
      obtain ⟨rfl, h3⟩ := List.cons.inj h1
      rw [← h2, List.nodup_cons, ← h3] at hl
      simp at hl
    | cons b q =>
      cases l with
      | nil => simp at h1
      | cons x l =>
        simp only [List.cons_append, List.cons.injEq] at h1 h2
        exact ih (List.nodup_cons.1 hl).2 h1.2 h2.2

theorem St.eq_of {s t : St nV nE} (h1 : s.queue = t.queue) (h2 : s.phase = t.phase) (h3 : s.tokens = t.tokens)
    (h4 : s.space = t.space) (h5 : s.elapsed = t.elapsed) : s = t := by
  cases s; cases t; simp_all

theorem recording_equiv {c : Cfg nV nE} {m m' : Machine nV nE} (h : OK c.g)
    (i : Inv c.g c.cap m.core) (i' : Inv c.g c.cap m'.core) (gi : GInv m.core) (gi' : GInv m'.core)
    (mi : MInv c m) (mi' : MInv c m') (hr : Recording c m) (hr' : Recording c m')
    (hcap : c.cap = none → m.st.space = m'.st.space) (hs : same m.st m'.st) : Equiv c m m' := by
  obtain ⟨hs1, hs2, hs3, hs4⟩ := hs
  obtain ⟨r, hp⟩ := hr.pc
  obtain ⟨r', hp'⟩ := hr'.pc
  have hph : ∀ a, (m.acts a).numExecs % c.g.phases a = (m'.acts a).numExecs % c.g.phases a := by
    intro a
    have h1 := i.phase a
    have h2 := i'.phase a
    have h3 := hs2 a
    simp only [Machine.core] at h1 h2
    omega
  have hlen : ∀ a, (m.st.queue a).length = (m'.st.queue a).length := fun a => by rw [hs4 a]
  have hsp : m.st.space = m'.st.space := by
    cases hc : c.cap with
    | none => exact hcap hc
    | some k =>
      funext e
      have a1 := i.space k hc e
      have a2 := i'.space k hc e
      have b1 := i.tok e
      have b2 := i'.tok e
      have b3 := hs3 e
      -- started = completed + running; the running executions are the same on both sides
      have key : ∀ (l : List Int) (a : Fin nV), l.length = c.g.phases a →
          cum l (m.acts a).numExecs - cum l (m.completed a) = cum l (m'.acts a).numExecs - cum l (m'.completed a) := by
        intro l a hl
        have l1 := i.len a
        have l2 := i'.len a
        simp only [Machine.core] at l1 l2
        rcases gi.one a with ⟨-, q⟩ | ⟨-, y, q, -⟩
        · have q' : m'.st.queue a = [] := by rw [← hs4 a]; exact q
          simp only [Machine.core] at q
          rw [q] at l1; rw [q'] at l2
          simp at l1 l2
          rw [l1, l2]; ring
        · have q' : m'.st.queue a = [y] := by rw [← hs4 a]; exact q
          simp only [Machine.core] at q
          rw [q] at l1; rw [q'] at l2
          simp at l1 l2
          rw [← l1, ← l2, cum_succ, cum_succ]
          have p1 := i.phs a 0 y (by simp [Machine.core, q])
          have p2 := i'.phs a 0 y (by simp [Machine.core, q'])
          simp only [Machine.core] at p1 p2
          have : rate l (m.completed a) = rate l (m'.completed a) := by
            unfold rate; rw [hl]; congr 1; simp at p1 p2; omega
          rw [this]; ring
      have k1 := key (c.g.prod e) (c.g.src e) (h.prodLen e)
      have k2 := key (c.g.cons e) (c.g.tgt e) (h.consLen e)
      simp only [Machine.core] at a1 a2 b1 b2
      linarith
  refine ⟨?_, ?_, ?_, fun a => ?_, hph⟩
  · obtain ⟨p, hp2⟩ := mi.endsSuffix _ hp
    obtain ⟨q, hq2⟩ := mi'.endsSuffix _ hp'
    rw [hp, hp', suffix_unique (List.nodup_finRange nV) hp2 hq2]
  · exact St.eq_of (funext hs4) (funext hs2) (funext hs3) hsp hs1
  · have := hr.count; have := hr'.count; omega
  · rcases gi.one a with ⟨x, q⟩ | ⟨x, y, q, -⟩ <;> rcases gi'.one a with ⟨x', q'⟩ | ⟨x', y', q', -⟩
    · exact x.trans x'.symm
    · have := hs4 a; simp only [Machine.core] at q q'; rw [q, q'] at this; simp at this
    · have := hs4 a; simp only [Machine.core] at q q'; rw [q, q'] at this; simp at this
    · exact x.trans x'.symm

theorem step_visited (c : Cfg nV nE) (m : Machine nV nE) :
    (step c m).visited = m.visited ∨ (Recording c m ∧ (step c m).visited = m.visited ++ [m.st]) := by
  unfold step
  split
  · exact .inl rfl
  · rename_i t rest hpc
    split
    · rename_i hr
      split
      · rename_i ht
        split
        · rename_i hcn
          split
          · exact .inl rfl
          · subst ht
            exact .inr ⟨⟨⟨rest, hpc⟩, hr, hcn⟩, rfl⟩
        · exact .inl rfl
      · exact .inl rfl
    · exact .inl rfl
  · exact .inl rfl
  · split <;> exact .inl rfl
  · simp only; split <;> exact .inl rfl
  · exact .inl rfl
  · exact .inl rfl

theorem record_origin (c : Cfg nV nE) (m : Machine nV nE) (hv : m.visited = []) (n i : ℕ) {s : St nV nE}
    (h : (run c m n).visited[i]? = some s) :
    ∃ k < n, Recording c (run c m k) ∧ (run c m k).visited.length = i ∧ (run c m k).st = s := by
  induction n with
  | zero => simp [run, hv] at h
  | succ n ih =>
    rcases step_visited c (run c m n) with h1 | ⟨hr, h1⟩
    · simp only [run] at h; rw [h1] at h
      obtain ⟨k, hk, hk2⟩ := ih h
      exact ⟨k, by omega, hk2⟩
    · simp only [run] at h; rw [h1, List.getElem?_append] at h
      split at h
      · obtain ⟨k, hk, hk2⟩ := ih h
        exact ⟨k, by omega, hk2⟩
      · rename_i hi
        have : i = (run c m n).visited.length := by
          by_contra hne
          rw [List.getElem?_eq_none (by simp; omega)] at h; simp at h
        subst this
        simp at h
        exact ⟨n, by omega, hr, rfl, h⟩

theorem visited_prefix (c : Cfg nV nE) (m : Machine nV nE) (k d : ℕ) :
    ∃ l, (run c m (k + d)).visited = (run c m k).visited ++ l := by
  induction d with
  | zero => exact ⟨[], by simp⟩
  | succ d ih =>
    obtain ⟨l, hl⟩ := ih
    rcases step_visited c (run c m (k + d)) with h1 | ⟨-, h1⟩
    · exact ⟨l, by rw [show k + (d + 1) = (k + d) + 1 from rfl]; simp only [run]; rw [h1, hl]⟩
    · exact ⟨l ++ [(run c m (k + d)).st], by
        rw [show k + (d + 1) = (k + d) + 1 from rfl]; simp only [run]; rw [h1, hl]; simp⟩

theorem findState_spec {l : List (St nV nE)} {s : St nV nE} {i : ℕ} (h : findState l s = some i) :
    ∃ v, l[i]? = some v ∧ same v s := by
  induction l generalizing i with
  | nil => simp [findState] at h
  | cons v l ih =>
    unfold findState at h
    split at h
    · rename_i hs
      simp at h; subst h
      exact ⟨v, rfl, hs⟩
    · simp only [Option.map_eq_some_iff] at h
      obtain ⟨k, hk, rfl⟩ := h
      obtain ⟨w, hw, hs⟩ := ih hk
      exact ⟨w, by simpa using hw, hs⟩

/-! ### The program and the same execution carried on forever -/

theorem step_recurrent {c : Cfg nV nE} {m : Machine nV nE} (hn : ∀ t, m.pc ≠ .recurrent t) {thr : Option ℚ}
    (h : (step c m).pc = .recurrent thr) :
    c.detect = true ∧ Recording c m ∧ ∃ i, findState m.visited m.st = some i ∧ thr = throughput m.visited i := by
  unfold step at h
  split at h
  · simp at h
  · rename_i t rest hpc
    split at h
    · rename_i hr
      split at h
      · rename_i ht
        split at h
        · rename_i hcn
          split at h
          · rename_i i hi
            split at hi
            · rename_i hd
              simp only [Pc.recurrent.injEq] at h
              subst ht
              exact ⟨hd, ⟨⟨rest, hpc⟩, hr, hcn⟩, i, hi, h.symm⟩
            · simp at hi
          · simp [endOne, hpc] at h
        · simp [endOne, hpc] at h
      · simp [endOne, hpc] at h
    · simp at h
  · simp at h
  · rename_i hpc; split at h <;> simp [hpc] at h
  · simp only at h; split at h <;> simp at h
  · rename_i hpc; exact absurd h (hn thr)
  · rename_i t hpc; exact absurd hpc (hn t)

theorem step_detect {c : Cfg nV nE} {m : Machine nV nE} (h : ∀ t, (step c m).pc ≠ .recurrent t) :
    step c.free m = step c m := by
  unfold Cfg.free
  unfold step at h ⊢
  split
  · rfl
  · rename_i t rest hpc
    simp only [hpc] at h
    split
    · rename_i hr
      simp only [hr, if_true] at h
      split
      · rename_i ht
        simp only [ht, if_true] at h
        split
        · rename_i hcn
          simp only [hcn, if_true] at h
          cases hf : (if c.detect = true then findState m.visited m.st else none) with
          | some i => simp only [hf] at h; exact absurd rfl (h _)
          | none => simp [endOne]
        · simp [endOne]
      · simp [endOne]
    · rfl
  · rfl
  · rfl
  · rfl
  · rfl
  · rfl

theorem run_free {c : Cfg nV nE} (m : Machine nV nE) (n : ℕ) (h : ∀ t, (run c m n).pc ≠ .recurrent t) :
    run c.free m n = run c m n := by
  induction n with
  | zero => rfl
  | succ n ih =>
    have hn : ∀ t, (run c m n).pc ≠ .recurrent t := by
      intro t ht
      apply h t
      simp only [run]
      unfold step; rw [ht]; exact ht
    simp only [run]
    rw [ih hn]
    exact step_detect h

theorem recurrent_first {c : Cfg nV nE} {m : Machine nV nE} (h0 : ∀ t, m.pc ≠ .recurrent t) (n : ℕ) {thr : Option ℚ}
    (h : (run c m n).pc = .recurrent thr) :
    ∃ k < n, (∀ t, (run c m k).pc ≠ .recurrent t) ∧ (step c (run c m k)).pc = .recurrent thr := by
  induction n with
  | zero => exact absurd h (h0 thr)
  | succ n ih =>
    by_cases hn : ∀ t, (run c m n).pc ≠ .recurrent t
    · exact ⟨n, by omega, hn, h⟩
    · push Not at hn
      obtain ⟨t, ht⟩ := hn
      have : (run c m (n + 1)).pc = .recurrent t := by
        simp only [run]; unfold step; rw [ht]; exact ht
      rw [h] at this
      obtain ⟨k, hk, hk2⟩ := ih (by rw [ht, this])
      exact ⟨k, by omega, hk2⟩

theorem space_const (hc : cap = none) {x : Core nV nE} (hr : Reachable g cap x) :
    x.st.space = (Core.init g cap).st.space := by
  induction hr with
  | refl => rfl
  | tail _ hm ih =>
    cases hm with
    | start a hr => rw [← ih]; funext e; simp [execStart, updateState, hc]
    | finish a hr => rw [← ih]; funext e; unfold execEnd; split <;> simp [updateState, hc]
    | advance => rw [← ih]; exact (advance_fields _).2.2.1
    | reset => exact ih

theorem start_free {c : Cfg nV nE} {m : Machine nV nE} (h : start g cap true = some (c, m)) :
    start g cap false = some (c.free, m) := by
  unfold start at h ⊢
  split
  · rename_i h1
    rw [if_pos h1] at h
    split
    · rename_i h2; rw [h2] at h; simp at h
    · rename_i t h2; rw [h2] at h; simp at h; obtain ⟨rfl, rfl⟩ := h; rfl
  · rename_i h1; rw [if_neg h1] at h; simp at h

/-- When the program returns a throughput, the infinite execution has two equivalent situations, `thr` being the number
of records between them over the time between them. The second one is where the program stops. -/
theorem recurrence_at (h : OK g) (hg : Guarded g cap) {c : Cfg nV nE} {m : Machine nV nE}
    (hs : start g cap true = some (c, m)) (hni : 0 < g.ni c.minActor) {n : ℕ} {thr : ℚ}
    (hres : (run c m n).pc = .recurrent (some thr)) :
    ∃ i j, i < j ∧ j < n ∧ (∀ t, (run c m j).pc ≠ .recurrent t) ∧
      (step c (run c m j)).pc = .recurrent (some thr) ∧ Equiv c.free (run c.free m i) (run c.free m j) ∧
      Recording c.free (run c.free m i) ∧ Recording c.free (run c.free m j) ∧
      (run c.free m i).visited.length < (run c.free m j).visited.length ∧
      (run c.free m j).clock ≠ (run c.free m i).clock ∧
      thr * ((run c.free m j).clock - (run c.free m i).clock) =
        ((run c.free m j).visited.length : ℚ) - (run c.free m i).visited.length := by
  set f := c.free with hf
  obtain ⟨h1, h2, -, -, h5, h6, -, h8, -⟩ := start_spec hs
  have hsf := start_free hs
  obtain ⟨j, hj, hnr, hstep⟩ := recurrent_first (by simp [h6]) n hres
  obtain ⟨-, hrec, i, hfind, hthr⟩ := step_recurrent hnr hstep
  have ej : run f m j = run c m j := run_free m j hnr
  obtain ⟨v, hv, hsame⟩ := findState_spec hfind
  rw [← ej] at hv
  obtain ⟨k, hk, hrk, hlen, hst⟩ := record_origin f m h8 j i hv
  rw [← ej] at hsame
  have hrj : Recording f (run f m j) := by rw [ej]; exact ⟨hrec.pc, hrec.ends, hrec.count⟩
  have hg1 : f.g = g := h1
  have hg2 : f.cap = cap := h2
  have mk := minv_run hsf h hg hni k
  have mj := minv_run hsf h hg hni j
  have rk := run_reachable hsf k
  have rj := run_reachable hsf j
  refine ⟨k, j, hk, hj, hnr, hstep, ?_, hrk, hrj, ?_, ?_⟩
  · refine recording_equiv (by rw [hg1]; exact h) ?_ ?_ (ginv_reachable h hg rk) (ginv_reachable h hg rj) mk mj hrk hrj
      (fun hc => ?_) (by rw [hst]; exact hsame)
    · rw [hg1, hg2]; exact inv_reachable h rk
    · rw [hg1, hg2]; exact inv_reachable h rj
    · rw [hg2] at hc
      have a := space_const hc rk
      have b := space_const hc rj
      simp only [Machine.core] at a b
      rw [a, b]
  · have := (List.getElem?_eq_some_iff.1 hv).1
    omega
  · obtain ⟨l, hl⟩ := visited_prefix f m k (j - k)
    rw [show k + (j - k) = j by omega] at hl
    have ck := mk.clock
    have cj := mj.clock
    have hel : (run f m k).st.elapsed = (run f m j).st.elapsed := by rw [hst]; exact hsame.1
    have hdrop : (run c m j).visited.drop i = l := by
      rw [← ej, hl, ← hlen]; simp
    have hT : (run f m j).clock - (run f m k).clock = (l.map fun s => s.elapsed).sum := by
      rw [ck, cj, hl, List.map_append, List.sum_append, hel]; ring
    have hL : ((run f m j).visited.length : ℚ) - (run f m k).visited.length = l.length := by
      rw [hl, List.length_append]; push_cast; ring
    unfold throughput at hthr
    rw [hdrop] at hthr
    simp only at hthr
    split at hthr
    · simp at hthr
    · rename_i hne
      simp only [Option.some.injEq] at hthr
      refine ⟨fun e => hne (by rw [← hT, e]; ring), ?_⟩
      rw [hT, hL, hthr]
      field_simp

/-- When the program returns a throughput, the infinite execution has two equivalent situations, `thr` being the number
of records between them over the time between them (`recurrence_at`). -/
theorem recurrence (h : OK g) (hg : Guarded g cap) {c : Cfg nV nE} {m : Machine nV nE}
    (hs : start g cap true = some (c, m)) (hni : 0 < g.ni c.minActor) {n : ℕ} {thr : ℚ}
    (hres : (run c m n).pc = .recurrent (some thr)) :
    ∃ i j, i < j ∧ Equiv c.free (run c.free m i) (run c.free m j) ∧
      Recording c.free (run c.free m i) ∧ Recording c.free (run c.free m j) ∧
      (run c.free m i).visited.length < (run c.free m j).visited.length ∧
      (run c.free m j).clock ≠ (run c.free m i).clock ∧
      thr * ((run c.free m j).clock - (run c.free m i).clock) =
        ((run c.free m j).visited.length : ℚ) - (run c.free m i).visited.length := by
  obtain ⟨i, j, h1, -, -, -, h2⟩ := recurrence_at h hg hs hni hres
  exact ⟨i, j, h1, h2⟩

end Kiter.Sim
