/-
Why an execution starts when it does: at the same instant another one ends, that the state before did not allow for.
-/
import Verif.Lemmas.StorageDeps
import Verif.Props.SelfTimed

set_option autoImplicit false

namespace Kiter.Sim
open Finset

variable {nV nE : Nat} {g : Graph nV nE} {cap : Option (Fin nE → Int)}

/-! ### Shape of the loops -/

/-- Actors before the position of the loop that ends executions have nothing to end. -/
def EndsDone (m : Machine nV nE) : Prop := ∀ l, m.pc = .ends l → ∀ a, a ∉ l → readyToEnd m.st a = false

theorem endsDone_step {c : Cfg nV nE} {m : Machine nV nE} (h : EndsDone m) : EndsDone (step c m) := by
  have hend : ∀ (m' : Machine nV nE) (t : Fin nV) (rest : List (Fin nV)), m'.pc = .ends (t :: rest) →
      (∀ a, a ∉ t :: rest → readyToEnd m'.st a = false) → EndsDone (endOne c m' t) := by
    intro m' t rest hpc h' l hl a ha
    simp only [endOne, hpc, Pc.ends.injEq] at hl
    subst hl
    have h1 := h' a ha
    have hat : a ≠ t := fun e => ha (by simp [e])
    have hq : (endOne c m' t).st.queue a = m'.st.queue a := by
      simp only [endOne, execEnd, updateState]
      split
      · rfl
      · simp [hat]
    unfold readyToEnd at h1 ⊢
    rw [hq]; exact h1
  unfold step
  split
  · intro l hl; simp at hl
  · rename_i t rest hpc
    split
    · split
      · split
        · split
          · intro l hl; simp at hl
          · exact hend _ t rest hpc (fun a ha => h _ hpc a ha)
        · exact hend _ t rest hpc (fun a ha => h _ hpc a ha)
      · exact hend _ t rest hpc (fun a ha => h _ hpc a ha)
    · rename_i hr
      intro l hl a ha
      simp only [Pc.ends.injEq] at hl
      subst hl
      by_cases hat : a = t
      · subst hat; simpa using hr
      · exact h _ hpc a (by simp [hat, ha])
  · intro l hl; simp at hl
  · rename_i hpc
    split
    · intro l hl; simp [hpc] at hl
    · intro l hl; simp at hl
  · simp only
    split
    · intro l hl; simp at hl
    · intro l hl a ha
      simp only [Pc.ends.injEq] at hl
      subst hl
      exact absurd (List.mem_finRange a) ha
  · exact h
  · exact h

theorem endsDone_run {c : Cfg nV nE} {m : Machine nV nE} (h : m.pc = .ends (List.finRange nV)) (n : ℕ) :
    EndsDone (run c m n) := by
  induction n with
  | zero =>
    intro l hl a ha
    simp only [run, h, Pc.ends.injEq] at hl
    subst hl
    exact absurd (List.mem_finRange a) ha
  | succ n ih => exact endsDone_step ih

/-- Where executions start. -/
theorem step_starts {c : Cfg nV nE} {m : Machine nV nE} {a : Fin nV}
    (h : ((step c m).acts a).numExecs ≠ (m.acts a).numExecs) :
    ∃ rest, m.pc = .starts (a :: rest) ∧ ready c.g c.cap m.acts m.st a = true := by
  have hend : ∀ (m' : Machine nV nE) (t : Fin nV), m'.acts = m.acts →
      ((endOne c m' t).acts a).numExecs = (m.acts a).numExecs := by
    intro m' t h'
    simp only [endOne, execEnd]
    split
    · rw [h']
    · by_cases hat : a = t
      · subst hat; simp [h']
      · simp [hat, h']
  unfold step at h
  split at h
  · exact absurd rfl h
  · split at h
    · split at h
      · split at h
        · split at h
          · exact absurd rfl h
          · refine absurd (hend _ _ ?_) h; rfl
        · exact absurd (hend _ _ (by rfl)) h
      · exact absurd (hend _ _ (by rfl)) h
    · exact absurd rfl h
  · exact absurd rfl h
  · rename_i t rest hpc
    split at h
    · rename_i hr
      by_cases hat : a = t
      · subst hat; exact ⟨rest, hpc, hr⟩
      · simp [execStart, hat] at h
    · exact absurd rfl h
  · simp only at h
    split at h <;> exact absurd rfl h
  · exact absurd rfl h
  · exact absurd rfl h

theorem completed_step (c : Cfg nV nE) (m : Machine nV nE) (a : Fin nV) : m.completed a ≤ (step c m).completed a := by
  rcases step_kind c m with ⟨-, -, h, -⟩ | ⟨b, -, -, -, h, -⟩ | ⟨b, _, _, -, -, -, -, h, -⟩ | ⟨-, -, h, -⟩ <;> rw [h]
  by_cases hb : a = b
  · subst hb; simp
  · simp [hb]

theorem completed_mono (c : Cfg nV nE) (m : Machine nV nE) (a : Fin nV) {i j : ℕ} (h : i ≤ j) :
    (run c m i).completed a ≤ (run c m j).completed a :=
  monotone_nat_of_le_succ (f := fun n => (run c m n).completed a) (fun n => completed_step c (run c m n) a) h

/-! ### Since the last advance of time -/

/-- Step `i` advances time, and no later step before `n` does. -/
structure Since (c : Cfg nV nE) (m : Machine nV nE) (i n : ℕ) : Prop where
  lt : i < n
  adv : (run c m i).pc = .advance
  none : ∀ j, i < j → j < n → (run c m j).pc ≠ .advance

theorem exists_since {c : Cfg nV nE} {m : Machine nV nE} {n : ℕ} (h : ∃ i < n, (run c m i).pc = .advance) :
    ∃ i, Since c m i n := by
  induction n with
  | zero => obtain ⟨i, hi, -⟩ := h; omega
  | succ n ih =>
    by_cases hn : (run c m n).pc = .advance
    · exact ⟨n, by omega, hn, fun j h1 h2 => by omega⟩
    · obtain ⟨i, hi, hp⟩ := h
      have : i ≠ n := fun e => hn (e ▸ hp)
      obtain ⟨k, hk⟩ := ih ⟨i, by omega, hp⟩
      refine ⟨k, by have := hk.lt; omega, hk.adv, fun j h1 h2 => ?_⟩
      by_cases hj : j = n
      · subst hj; exact hn
      · exact hk.none j h1 (by omega)

theorem step_advance_st {c : Cfg nV nE} {m : Machine nV nE} (h : m.pc = .advance) :
    (step c m).st.tokens = m.st.tokens ∧ (step c m).st.space = m.st.space ∧ (step c m).acts = m.acts ∧
      (step c m).completed = m.completed := by
  have h2 := advance_fields m.st
  unfold step
  rw [h]
  simp only
  split <;> exact ⟨h2.2.1, h2.2.2.1, rfl, rfl⟩

theorem mainPrev_since {c : Cfg nV nE} {m : Machine nV nE} {i n : ℕ} (h : Since c m i n) :
    mainPrev c m n = ((run c m i).st.tokens, (run c m i).st.space) := by
  obtain ⟨h1, h2, h3⟩ := h
  obtain ⟨d, rfl⟩ : ∃ d, n = i + 1 + d := ⟨n - i - 1, by omega⟩
  induction d with
  | zero =>
    have := step_advance_st (c := c) h2
    show (if (run c m i).pc = .advance then _ else _) = _
    rw [if_pos h2, ← this.1, ← this.2.1]; rfl
  | succ d ih =>
    have hne := h3 (i + 1 + d) (by omega) (by omega)
    show (if (run c m (i + 1 + d)).pc = .advance then _ else _) = _
    rw [if_neg hne]
    exact ih (by omega) fun j a b => h3 j a (by omega)

theorem clock_since {c : Cfg nV nE} {m : Machine nV nE} {i n : ℕ} (h : Since c m i n) {j : ℕ} (hj : i < j) (hjn : j ≤ n) :
    (run c m j).clock = (run c m n).clock := by
  obtain ⟨h1, h2, h3⟩ := h
  obtain ⟨d, rfl⟩ : ∃ d, n = j + d := ⟨n - j, by omega⟩
  induction d with
  | zero => rfl
  | succ d ih =>
    by_cases hd : j = j + d + 1
    · omega
    rw [ih (by omega) (by omega) (fun x a b => h3 x a (by omega))]
    have hne := h3 (j + d) (by omega) (by omega)
    show _ = (step c (run c m (j + d))).clock
    rcases step_kind c (run c m (j + d)) with ⟨-, -, -, e⟩ | ⟨b, -, -, -, -, e⟩ | ⟨b, _, _, -, -, -, -, -, e⟩ | ⟨hp, -⟩
    · exact e.symm
    · exact e.symm
    · exact e.symm
    · exact absurd hp hne

/-- Between two advances of time, an actor that has started is still executing. -/
theorem numExecs_since {c : Cfg nV nE} {m : Machine nV nE} {i n : ℕ} (h : Since c m i n) {l : List (Fin nV)}
    (hpc : (run c m n).pc = .starts l) (a : Fin nV) :
    ((run c m n).acts a).numExecs = ((run c m i).acts a).numExecs ∨ ((run c m n).acts a).isExecuting = true := by
  obtain ⟨h1, h2, h3⟩ := h
  obtain ⟨d, rfl⟩ : ∃ d, n = i + 1 + d := ⟨n - i - 1, by omega⟩
  have key : ∀ d, (∀ j, i < j → j < i + 1 + d → (run c m j).pc ≠ .advance) →
      (∃ l, (run c m (i + 1 + d)).pc = .ends l ∧ ((run c m (i + 1 + d)).acts a).numExecs = ((run c m i).acts a).numExecs) ∨
      (∃ l, (run c m (i + 1 + d)).pc = .starts l ∧ (((run c m (i + 1 + d)).acts a).numExecs = ((run c m i).acts a).numExecs ∨
        ((run c m (i + 1 + d)).acts a).isExecuting = true)) ∨
      ((∀ l, (run c m (i + 1 + d)).pc ≠ .ends l) ∧ ∀ l, (run c m (i + 1 + d)).pc ≠ .starts l) := by
    intro d
    induction d with
    | zero =>
      intro _
      have e1 := (step_advance_st (c := c) h2).2.2.1
      have hrun : run c m (i + 1) = step c (run c m i) := rfl
      rw [Nat.add_zero, hrun, e1]
      unfold step
      rw [h2]
      simp only
      split
      · right; right; constructor <;> simp
      · left; exact ⟨_, by rfl, by simp⟩
    | succ d ih =>
      intro h3
      have ih := ih fun j a b => h3 j a (by omega)
      have hne := h3 (i + 1 + d) (by omega) (by omega)
      have hrun : run c m (i + 1 + (d + 1)) = step c (run c m (i + 1 + d)) := rfl
      rw [hrun]
      generalize run c m (i + 1 + d) = x at ih hne
      have hend : ∀ (m' : Machine nV nE) (t : Fin nV) (rest : List (Fin nV)), m'.acts = x.acts → m'.pc = .ends (t :: rest) →
          (x.acts a).numExecs = ((run c m i).acts a).numExecs →
          ∃ l, (endOne c m' t).pc = .ends l ∧ ((endOne c m' t).acts a).numExecs = ((run c m i).acts a).numExecs := by
        intro m' t rest h' h'' h0
        refine ⟨t :: rest, h'', ?_⟩
        rw [← h0, ← h']
        simp only [endOne, execEnd]
        split
        · rfl
        · by_cases hat : a = t
          · subst hat; simp
          · simp [hat]
      unfold step
      rcases ih with ⟨l, hl, hn⟩ | ⟨l, hl, hn⟩ | ⟨hl1, hl2⟩
      · cases l with
        | nil => rw [hl]; right; left; exact ⟨_, rfl, .inl hn⟩
        | cons t rest =>
          rw [hl]
          simp only
          split
          · split
            · split
              · split
                · right; right; constructor <;> simp
                · left; exact hend _ t rest rfl rfl hn
              · left; exact hend _ t rest rfl rfl hn
            · left; exact hend _ t rest rfl hl hn
          · left; exact ⟨rest, rfl, hn⟩
      · cases l with
        | nil => rw [hl]; right; right; constructor <;> simp
        | cons t rest =>
          rw [hl]
          simp only
          split
          · right; left
            refine ⟨t :: rest, rfl, ?_⟩
            by_cases hat : a = t
            · subst hat; right; simp [execStart]
            · simpa [execStart, hat] using hn
          · right; left; exact ⟨rest, rfl, hn⟩
      · split
        · rename_i hp; exact absurd hp (hl1 _)
        · rename_i hp; exact absurd hp (hl1 _)
        · rename_i hp; exact absurd hp (hl2 _)
        · rename_i hp; exact absurd hp (hl2 _)
        · rename_i hp; exact absurd hp hne
        · rename_i hp; right; right; rw [hp]; constructor <;> simp
        · rename_i hp; right; right; rw [hp]; constructor <;> simp
  rcases key d h3 with ⟨l', hl, -⟩ | ⟨l', hl, h⟩ | ⟨-, hl⟩
  · rw [hpc] at hl; simp at hl
  · exact h
  · exact absurd hpc (hl l)

theorem not_ready_executing (hg : Guarded g cap) {acts : Fin nV → Act} {s : St nV nE} {a : Fin nV}
    (h : ready g cap acts s a = true) : (acts a).isExecuting = false := by
  obtain ⟨e, he | ⟨hc, he⟩⟩ := hg a
  · exact (ready_tok h he).2
  · exact (ready_space h hc he).2

/-- An execution that ended since the last advance of time started a duration before now. -/
theorem ended_since (h : OK g) (hg : Guarded g cap) {detect : Bool} {c : Cfg nV nE} {m : Machine nV nE}
    (hs : start g cap detect = some (c, m)) {i n : ℕ} (hi : Since c m i n) {b : Fin nV}
    (hb : (run c m i).completed b < (run c m n).completed b) :
    ∃ i' t', i' < n ∧ StartsAt c m i' b ((run c m i).completed b) t' ∧
      t' + g.execDur b ((run c m i).completed b) = (run c m n).clock := by
  obtain ⟨i', j, t', h1, h2, h3, h4, h5, h6⟩ := C66_durations h hg hs n b _ hb
  refine ⟨i', t', by omega, h3, ?_⟩
  have hij : i < j := by
    rcases Nat.lt_trichotomy i j with hlt | heq | hgt
    · exact hlt
    · subst heq
      have := (step_advance_st (c := c) hi.adv).2.2.2
      have e : (run c m (i + 1)).completed b = (run c m i).completed b := by
        show (step c (run c m i)).completed b = _
        rw [this]
      omega
    · have := completed_mono c m b (show j + 1 ≤ i from hgt)
      omega
  rw [← h6]
  exact clock_since hi hij (by omega)

/-- What an execution that starts at step `n` waited for: the end of the previous execution of the same actor, or tokens
or room that were missing in `prevState`, provided by an execution that ends at that instant. -/
theorem cause (h : OK g) (hg : Guarded g cap) {detect : Bool} {c : Cfg nV nE} {m : Machine nV nE}
    (hs : start g cap detect = some (c, m)) (hni : 0 < g.ni c.minActor) {n : ℕ} {a : Fin nV} {k : ℕ} {t : ℚ}
    (hst : StartsAt c m n a k t) (hadv : ∃ i < n, (run c m i).pc = .advance) :
    (∃ i' t', i' < n ∧ 0 < k ∧ StartsAt c m i' a (k - 1) t' ∧ t' + g.execDur a (k - 1) = t) ∨
    (∃ e j i' t', g.tgt e = a ∧ (mainPrev c m n).1 e < execRate g (run c m n).acts a e ∧ i' < n ∧
      StartsAt c m i' (g.src e) j t' ∧ t' + g.execDur (g.src e) j = t ∧
      g.preload e + cum (g.prod e) j < cum (g.cons e) (k + 1)) ∨
    (∃ w e j i' t', cap = some w ∧ g.src e = a ∧ (mainPrev c m n).2 e < execRate g (run c m n).acts a e ∧ i' < n ∧
      StartsAt c m i' (g.tgt e) j t' ∧ t' + g.execDur (g.tgt e) j = t ∧
      w e - g.preload e + cum (g.cons e) j < cum (g.prod e) (k + 1)) := by
  obtain ⟨h1, h2, -⟩ := start_spec hs
  obtain ⟨i, hi⟩ := exists_since hadv
  obtain ⟨l, hpc, hr⟩ := step_starts (c := c) (m := run c m n) (a := a) (by
    have := hst.1; have := hst.2.1
    show ((run c m (n + 1)).acts a).numExecs ≠ _
    omega)
  rw [h1, h2] at hr
  have hidle := not_ready_executing hg hr
  have hnum : ((run c m i).acts a).numExecs = k := by
    rcases numExecs_since hi hpc a with e | e
    · rw [← e, hst.1]
    · rw [hidle] at e; simp at e
  have ii := inv_reachable h (run_reachable hs i)
  have ij := inv_reachable h (run_reachable hs n)
  have gi := ginv_reachable h hg (run_reachable hs i)
  have gn := ginv_reachable h hg (run_reachable hs n)
  have hn := advance_none h hg hs hni hi.adv a
  have hclk : (run c m n).clock = t := hst.2.2
  have hmp := mainPrev_since hi
  cases hex : ((run c m i).acts a).isExecuting with
  | true =>
    left
    have hci : (run c m i).completed a + 1 = k := by
      have hl := ii.len a
      rcases gi.one a with ⟨h0, -⟩ | ⟨-, y, hy, -⟩
      · simp only [Machine.core] at h0; rw [hex] at h0; simp at h0
      · rw [hy] at hl; simp only [Machine.core] at hl; rw [hnum] at hl; simpa using hl
    have hcn : (run c m n).completed a = k := by
      have hl := ij.len a
      rcases gn.one a with ⟨-, h0⟩ | ⟨h0, -⟩
      · rw [h0] at hl; simp only [Machine.core] at hl; rw [hst.1] at hl; simpa using hl
      · simp only [Machine.core] at h0; rw [hidle] at h0; simp at h0
    obtain ⟨i', t', a1, a2, a3⟩ := ended_since h hg hs hi (b := a) (by omega)
    rw [show (run c m i).completed a = k - 1 by omega] at a2 a3
    exact ⟨i', t', a1, by omega, a2, a3.trans hclk⟩
  | false =>
    right
    unfold ready at hn
    rw [hex] at hn
    simp only [Bool.false_eq_true, or_false, Bool.and_eq_false_iff, decide_eq_false_iff_not, Bool.or_eq_false_iff] at hn
    rcases hn with hn | ⟨hc, hn⟩
    · left
      push Not at hn
      obtain ⟨e, he, hlt⟩ := hn
      rw [execRate_tgt h _ he, hnum] at hlt
      have ti := ii.tok e
      have tn := ij.tok e
      simp only [Machine.core] at ti tn
      rw [he] at ti tn
      rw [hnum] at ti
      rw [hst.1] at tn
      have hrt := (ready_tok hr he).1
      rw [execRate_tgt h _ he, hst.1] at hrt
      have hcs := cum_succ (g.cons e) k
      have hlt' : (run c m i).completed (g.src e) < (run c m n).completed (g.src e) := by
        by_contra hcon
        have := cum_mono (h.prodNonneg e) (Nat.not_lt.1 hcon)
        linarith
      obtain ⟨i', t', a1, a2, a3⟩ := ended_since h hg hs hi hlt'
      refine ⟨e, _, i', t', he, ?_, a1, a2, a3.trans hclk, by linarith⟩
      rw [hmp, execRate_tgt h _ he, hst.1]
      exact hlt
    · right
      push Not at hn
      obtain ⟨e, he, hlt⟩ := hn
      obtain ⟨w, hw⟩ : ∃ w, cap = some w := by
        cases cap with
        | none => simp at hc
        | some w => exact ⟨w, rfl⟩
      rw [execRate_src h _ he, hnum] at hlt
      have ti := ii.space w hw e
      have tn := ij.space w hw e
      simp only [Machine.core] at ti tn
      rw [he] at ti tn
      rw [hnum] at ti
      rw [hst.1] at tn
      have hrt := (ready_space hr (by rw [hw]; rfl) he).1
      rw [execRate_src h _ he, hst.1] at hrt
      have hcs := cum_succ (g.prod e) k
      have hlt' : (run c m i).completed (g.tgt e) < (run c m n).completed (g.tgt e) := by
        by_contra hcon
        have := cum_mono (h.consNonneg e) (Nat.not_lt.1 hcon)
        linarith
      obtain ⟨i', t', a1, a2, a3⟩ := ended_since h hg hs hi hlt'
      refine ⟨w, e, _, i', t', hw, he, ?_, a1, a2, a3.trans hclk, by linarith⟩
      rw [hmp, execRate_src h _ he, hst.1]
      exact hlt

end Kiter.Sim
