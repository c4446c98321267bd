/-
Invariants of the self-timed execution.
-/
import Verif.Spec.SymbolicExecution
import Mathlib.Tactic.Ring
import Mathlib.Tactic.Linarith
import Mathlib.Algebra.Order.BigOperators.Group.Finset
import Mathlib.Algebra.BigOperators.Intervals

set_option autoImplicit false

namespace Kiter.Sim
open Finset

variable {nV nE : Nat} {g : Graph nV nE} {cap : Option (Fin nE → Int)}

theorem cum_succ (l : List Int) (n : ℕ) : cum l (n + 1) = cum l n + rate l n := by
  unfold cum; rw [sum_range_succ]

@[simp] theorem cum_zero (l : List Int) : cum l 0 = 0 := by simp [cum]

theorem rate_nonneg {l : List Int} (h : ∀ r ∈ l, 0 ≤ r) (k : ℕ) : 0 ≤ rate l k := by
  unfold rate
  rw [List.getD_eq_getElem?_getD]
  cases hk : l[k % l.length]? with
  | none => simp
  | some r => exact h r (List.mem_of_getElem? hk)

theorem cum_mono {l : List Int} (h : ∀ r ∈ l, 0 ≤ r) {m n : ℕ} (hmn : m ≤ n) : cum l m ≤ cum l n := by
  unfold cum
  exact sum_le_sum_of_subset_of_nonneg (range_mono hmn) fun i _ _ => rate_nonneg h i

theorem rateMap_eq {n : Nat} {l : List Int} (hl : l.length = n) (hn : 0 < n) (k : Nat) :
    rateMap n l (k % n + 1) = rate l k := by
  have h := Nat.mod_lt k hn
  unfold rateMap rate
  rw [if_pos ⟨by omega, by omega⟩, hl]; simp

theorem rateAt_src (h : OK g) {a : Fin nV} {e : Fin nE} (he : g.src e = a) (k : Nat) :
    rateAt g a e (k % g.phases a + 1) = rate (g.prod e) k := by
  unfold rateAt; rw [if_pos he]; exact rateMap_eq (by rw [h.prodLen, he]) (h.phases a) k

theorem rateAt_tgt (h : OK g) {a : Fin nV} {e : Fin nE} (he : g.tgt e = a) (k : Nat) :
    rateAt g a e (k % g.phases a + 1) = rate (g.cons e) k := by
  by_cases hs : g.src e = a
  · rw [rateAt_src h hs, h.selfEdge e (hs.trans he.symm)]
  · unfold rateAt; rw [if_neg hs]; exact rateMap_eq (by rw [h.consLen, he]) (h.phases a) k

theorem phaseCount_eq (h : OK g) {a : Fin nV} {e : Fin nE} (he : g.src e = a ∨ g.tgt e = a) :
    phaseCount g a e = g.phases a := by
  unfold phaseCount
  split
  · rename_i h1; rw [h.consLen, h1]
  · rename_i h1; rw [h.prodLen, he.resolve_right h1]

theorem execRate_src (h : OK g) (acts : Fin nV → Act) {a : Fin nV} {e : Fin nE} (he : g.src e = a) :
    execRate g acts a e = rate (g.prod e) (acts a).numExecs := by
  unfold execRate; rw [phaseCount_eq h (.inl he)]; exact rateAt_src h he _

theorem execRate_tgt (h : OK g) (acts : Fin nV → Act) {a : Fin nV} {e : Fin nE} (he : g.tgt e = a) :
    execRate g acts a e = rate (g.cons e) (acts a).numExecs := by
  unfold execRate; rw [phaseCount_eq h (.inr he)]; exact rateAt_tgt h he _

/-- What holds in every situation of every execution. -/
structure Inv (g : Graph nV nE) (cap : Option (Fin nE → Int)) (x : Core nV nE) : Prop where
  len : ∀ a, x.completed a + (x.st.queue a).length = (x.acts a).numExecs
  phs : ∀ a i, ∀ y, (x.st.queue a)[i]? = some y → y.2 = (x.completed a + i) % g.phases a + 1
  phase : ∀ a, x.st.phase a = (x.acts a).numExecs % g.phases a + 1
  tok : ∀ e, x.st.tokens e =
    g.preload e + cum (g.prod e) (x.completed (g.src e)) - cum (g.cons e) (x.acts (g.tgt e)).numExecs
  tokNonneg : ∀ e, 0 ≤ x.st.tokens e
  space : ∀ k, cap = some k → ∀ e, x.st.space e =
    k e - g.preload e - cum (g.prod e) (x.acts (g.src e)).numExecs + cum (g.cons e) (x.completed (g.tgt e))
  spaceNonneg : ∀ k, cap = some k → (∀ e, g.preload e ≤ k e) → ∀ e, 0 ≤ x.st.space e

theorem inv_init (h : OK g) : Inv g cap (Core.init g cap) where
  len a := by simp [Core.init]
  phs a i y hy := by simp [Core.init] at hy
  phase a := rfl
  tok e := by simp [Core.init]
  tokNonneg e := h.preload e
  space k hk e := by simp [Core.init, hk]
  spaceNonneg k hk hc e := by have := hc e; simp [Core.init, hk]; omega

theorem ready_tok {acts : Fin nV → Act} {s : St nV nE} {a : Fin nV} (h : ready g cap acts s a = true) {e : Fin nE}
    (he : g.tgt e = a) : execRate g acts a e ≤ s.tokens e ∧ (acts a).isExecuting = false := by
  unfold ready at h
  simp only [Bool.and_eq_true, decide_eq_true_eq] at h
  have := h.1 e he
  push Not at this
  exact ⟨this.1, by simpa using this.2⟩

theorem ready_space {acts : Fin nV → Act} {s : St nV nE} {a : Fin nV} (h : ready g cap acts s a = true)
    (hc : cap.isSome) {e : Fin nE} (he : g.src e = a) :
    execRate g acts a e ≤ s.space e ∧ (acts a).isExecuting = false := by
  unfold ready at h
  simp only [Bool.and_eq_true, Bool.or_eq_true, decide_eq_true_eq] at h
  rcases h.2 with h2 | h2
  · cases cap <;> simp at hc h2
  · have := h2 e he
    push Not at this
    exact ⟨this.1, by simpa using this.2⟩

theorem inv_start (h : OK g) {x : Core nV nE} (hx : Inv g cap x) {a : Fin nV}
    (hr : ready g cap x.acts x.st a = true) :
    Inv g cap ⟨(execStart g cap x.acts x.st a).1,
        updateState g (execStart g cap x.acts x.st a).1 (execStart g cap x.acts x.st a).2, x.completed⟩ := by
  refine ⟨fun b => ?_, fun b i y hy => ?_, fun b => rfl, fun e => ?_, fun e => ?_, fun k hk e => ?_,
    fun k hk hc e => ?_⟩
  · have := hx.len b
    by_cases hb : b = a
    · subst hb; simp [execStart, updateState]; omega
    · simpa [execStart, updateState, hb] using this
  · by_cases hb : b = a
    · subst hb
      simp only [execStart, updateState, Function.update_self] at hy
      rw [List.getElem?_append] at hy
      split at hy
      · exact hx.phs b i y hy
      · rename_i hi
        have hi' : i = (x.st.queue b).length := by
          by_contra hne
          rw [List.getElem?_eq_none (by simp; omega)] at hy
          simp at hy
        subst hi'
        simp at hy
        subst hy
        have := hx.len b
        simp only [phaseOf, this]
    · simp only [execStart, updateState, ne_eq, hb, not_false_eq_true, Function.update_of_ne] at hy
      exact hx.phs b i y hy
  · have ht := hx.tok e
    by_cases he : g.tgt e = a
    · simp only [execStart, updateState, he, if_true, Function.update_self, cum_succ]
      rw [execRate_tgt h _ he, ht, he]; ring
    · simp only [execStart, updateState, he, if_false, ne_eq, not_false_eq_true, Function.update_of_ne]
      exact ht
  · by_cases he : g.tgt e = a
    · have := (ready_tok hr he).1
      simp only [execStart, updateState, he, if_true]; omega
    · simp only [execStart, updateState, he, if_false]; exact hx.tokNonneg e
  · have ht := hx.space k hk e
    by_cases he : g.src e = a
    · simp only [execStart, updateState, he, hk, Option.isSome_some, true_and, if_true, Function.update_self, cum_succ]
      rw [execRate_src h _ he, ht, he]; ring
    · simp only [execStart, updateState, he, and_false, if_false, ne_eq, not_false_eq_true, Function.update_of_ne]
      exact ht
  · by_cases he : g.src e = a
    · have := (ready_space hr (by simp [hk]) he).1
      simp only [execStart, updateState, he, hk, Option.isSome_some, true_and, if_true]; omega
    · simp only [execStart, updateState, he, and_false, if_false]; exact hx.spaceNonneg k hk hc e

theorem readyToEnd_cons {s : St nV nE} {a : Fin nV} (h : readyToEnd s a = true) :
    ∃ y rest, s.queue a = y :: rest ∧ y.1 = 0 := by
  unfold readyToEnd at h
  split at h
  · simp at h
  · rename_i y rest hq; exact ⟨y, rest, hq, by simpa using h⟩

theorem inv_finish (h : OK g) {x : Core nV nE} (hx : Inv g cap x) {a : Fin nV}
    (hr : readyToEnd x.st a = true) :
    Inv g cap ⟨(execEnd g cap x.acts x.st a).1,
        updateState g (execEnd g cap x.acts x.st a).1 (execEnd g cap x.acts x.st a).2,
        Function.update x.completed a (x.completed a + 1)⟩ := by
  obtain ⟨y, rest, hq, -⟩ := readyToEnd_cons hr
  have hy2 : y.2 = x.completed a % g.phases a + 1 := by
    have := hx.phs a 0 y (by simp [hq]); simpa using this
  have hexec : execEnd g cap x.acts x.st a =
    (Function.update x.acts a ⟨(x.acts a).numExecs, false⟩,
     { x.st with
       tokens := fun e => if g.src e = a then x.st.tokens e + rateAt g a e y.2 else x.st.tokens e
       space := fun e => if cap.isSome ∧ g.tgt e = a then x.st.space e + rateAt g a e y.2 else x.st.space e
       queue := Function.update x.st.queue a rest }) := by
    unfold execEnd; rw [hq]
  rw [hexec]
  have hnum : ∀ b, (Function.update x.acts a ⟨(x.acts a).numExecs, false⟩ b).numExecs = (x.acts b).numExecs := by
    intro b
    by_cases hb : b = a
    · subst hb; simp
    · simp [hb]
  refine ⟨fun b => ?_, fun b i z hz => ?_, fun b => rfl, fun e => ?_, fun e => ?_, fun k hk e => ?_,
    fun k hk hc e => ?_⟩
  · have := hx.len b
    by_cases hb : b = a
    · subst hb; rw [hq] at this; simp [updateState] at this ⊢; omega
    · simpa [updateState, hb] using this
  · by_cases hb : b = a
    · subst hb
      simp only [updateState, Function.update_self] at hz ⊢
      rw [hx.phs b (i + 1) z (by simpa [hq] using hz)]
      congr 2; omega
    · simp only [updateState, ne_eq, hb, not_false_eq_true, Function.update_of_ne] at hz ⊢
      exact hx.phs b i z hz
  · have ht := hx.tok e
    by_cases he : g.src e = a
    · simp only [updateState, he, if_true, Function.update_self, cum_succ, hnum]
      rw [hy2, rateAt_src h he, ht, he]; ring
    · simp only [updateState, he, if_false, ne_eq, not_false_eq_true, Function.update_of_ne, hnum]
      exact ht
  · by_cases he : g.src e = a
    · have := rate_nonneg (h.prodNonneg e) (x.completed a)
      have := hx.tokNonneg e
      simp only [updateState, he, if_true]
      rw [hy2, rateAt_src h he]; omega
    · simp only [updateState, he, if_false]; exact hx.tokNonneg e
  · have ht := hx.space k hk e
    by_cases he : g.tgt e = a
    · simp only [updateState, he, hk, Option.isSome_some, true_and, if_true, Function.update_self, cum_succ, hnum]
      rw [hy2, rateAt_tgt h he, ht, he]; ring
    · simp only [updateState, he, and_false, if_false, ne_eq, not_false_eq_true, Function.update_of_ne, hnum]
      exact ht
  · by_cases he : g.tgt e = a
    · have := rate_nonneg (h.consNonneg e) (x.completed a)
      have := hx.spaceNonneg k hk hc e
      simp only [updateState, he, hk, Option.isSome_some, true_and, if_true]
      rw [hy2, rateAt_tgt h he]; omega
    · simp only [updateState, he, and_false, if_false]; exact hx.spaceNonneg k hk hc e

theorem advance_fields (s : St nV nE) :
    (advanceTime s).1.phase = s.phase ∧ (advanceTime s).1.tokens = s.tokens ∧ (advanceTime s).1.space = s.space ∧
    ∃ d, (advanceTime s).1.queue = fun a => (s.queue a).map fun x => (x.1 - d, x.2) := by
  unfold advanceTime
  simp only
  split
  · exact ⟨rfl, rfl, rfl, 0, by funext a; simp⟩
  · split
    · exact ⟨rfl, rfl, rfl, 0, by funext a; simp⟩
    · exact ⟨rfl, rfl, rfl, _, rfl⟩

theorem inv_move (h : OK g) {x y : Core nV nE} (hx : Inv g cap x) (hm : Move g cap x y) : Inv g cap y := by
  cases hm with
  | start a hr => exact inv_start h hx hr
  | finish a hr => exact inv_finish h hx hr
  | advance =>
    obtain ⟨h1, h2, h3, d, h4⟩ := advance_fields x.st
    refine ⟨fun a => ?_, fun a i z hz => ?_, ?_, ?_, ?_, ?_, ?_⟩
    · simp only [h4, List.length_map]; exact hx.len a
    · simp only [h4, List.getElem?_map, Option.map_eq_some_iff] at hz
      obtain ⟨w, hw, rfl⟩ := hz
      exact hx.phs a i w hw
    · simp only [h1]; exact hx.phase
    · simp only [h2]; exact hx.tok
    · simp only [h2]; exact hx.tokNonneg
    · simp only [h3]; exact hx.space
    · simp only [h3]; exact hx.spaceNonneg
  | reset => exact ⟨hx.len, hx.phs, hx.phase, hx.tok, hx.tokNonneg, hx.space, hx.spaceNonneg⟩

theorem inv_reachable (h : OK g) {x : Core nV nE} (hr : Reachable g cap x) : Inv g cap x := by
  induction hr with
  | refl => exact inv_init h
  | tail _ hm ih => exact inv_move h ih hm

end Kiter.Sim
