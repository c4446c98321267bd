/-
The machine of the main loop: it follows moves, its clock, its records, its deadlocks and its recurrence.
-/
import Verif.Lemmas.SymbolicExecution

set_option autoImplicit false

namespace Kiter.Sim
open Finset

variable {nV nE : Nat} {g : Graph nV nE} {cap : Option (Fin nE → Int)}

/-! ### Time advance -/

theorem nextEvent_aux (s : St nV nE) (l : List (Fin nV)) (m : ℚ) :
    let r := l.foldl (fun m a => match s.queue a with | [] => m | x :: _ => min m x.1) m
    r ≤ m ∧ (∀ a ∈ l, ∀ x rest, s.queue a = x :: rest → r ≤ x.1) ∧
    (r = m ∨ ∃ a ∈ l, ∃ x rest, s.queue a = x :: rest ∧ r = x.1) := by
  induction l generalizing m with
  | nil => simp
  | cons b l ih =>
    simp only [List.foldl_cons]
    cases hq : s.queue b with
    | nil =>
      obtain ⟨h1, h2, h3⟩ := ih m
      refine ⟨h1, fun a ha x rest hx => ?_, ?_⟩
      · rcases List.mem_cons.1 ha with rfl | ha
        · rw [hq] at hx; simp at hx
        · exact h2 a ha x rest hx
      · rcases h3 with h3 | ⟨a, ha, x⟩
        · exact .inl h3
        · exact .inr ⟨a, List.mem_cons_of_mem _ ha, x⟩
    | cons y ys =>
      obtain ⟨h1, h2, h3⟩ := ih (min m y.1)
      refine ⟨h1.trans (min_le_left _ _), fun a ha x rest hx => ?_, ?_⟩
      · rcases List.mem_cons.1 ha with rfl | ha
        · rw [hq] at hx
          obtain ⟨rfl, -⟩ := List.cons.inj hx
          exact h1.trans (min_le_right _ _)
        · exact h2 a ha x rest hx
      · rcases h3 with h3 | ⟨a, ha, x⟩
        · rcases min_choice m y.1 with hm | hm
          · exact .inl (h3.trans hm)
          · exact .inr ⟨b, List.mem_cons_self, y, ys, hq, h3.trans hm⟩
        · exact .inr ⟨a, List.mem_cons_of_mem _ ha, x⟩

theorem nextEvent_le (s : St nV nE) : nextEvent s ≤ longMax := (nextEvent_aux s _ _).1

theorem nextEvent_le_head (s : St nV nE) {a : Fin nV} {x rest} (h : s.queue a = x :: rest) : nextEvent s ≤ x.1 :=
  (nextEvent_aux s _ _).2.1 a (List.mem_finRange a) x rest h

theorem nextEvent_cases (s : St nV nE) :
    nextEvent s = longMax ∨ ∃ a x rest, s.queue a = x :: rest ∧ nextEvent s = x.1 := by
  rcases (nextEvent_aux s (List.finRange nV) longMax).2.2 with h | ⟨a, -, x, rest, h⟩
  · exact .inl h
  · exact .inr ⟨a, x, rest, h⟩

theorem longMax_pos : (0 : ℚ) < longMax := by decide +kernel

/-! ### With guarded actors at most one execution of each actor is running -/

/-- At most one execution per actor, `isExecuting` tells which, remaining times are sensible. -/
structure GInv (x : Core nV nE) : Prop where
  one : ∀ a, (x.acts a).isExecuting = false ∧ x.st.queue a = [] ∨
    (x.acts a).isExecuting = true ∧ ∃ y, x.st.queue a = [y] ∧ 0 ≤ y.1 ∧ y.1 < longMax

theorem ginv_init : GInv (Core.init g cap) := ⟨fun _ => .inl ⟨rfl, rfl⟩⟩

theorem duration_bounds (h : OK g) (a : Fin nV) (k : Nat) : 0 ≤ duration g a k ∧ duration g a k < longMax := by
  unfold duration
  rw [List.getD_eq_getElem?_getD]
  cases hk : (g.dur a)[(k - 1) % (g.dur a).length]? with
  | none => exact ⟨le_refl _, longMax_pos⟩
  | some r => exact ⟨h.durNonneg a r (List.mem_of_getElem? hk), h.durMax a r (List.mem_of_getElem? hk)⟩

theorem ready_idle (hg : Guarded g cap) {acts : Fin nV → Act} {s : St nV nE} {a : Fin nV}
    (h : ready g cap acts s a = true) : (acts a).isExecuting = false := by
  obtain ⟨e, he | ⟨hc, he⟩⟩ := hg a
  · exact (ready_tok h he).2
  · exact (ready_space h hc he).2

theorem ginv_move (h : OK g) (hg : Guarded g cap) {x y : Core nV nE} (hx : GInv x) (hm : Move g cap x y) : GInv y := by
  cases hm with
  | start a hr =>
    refine ⟨fun b => ?_⟩
    by_cases hb : b = a
    · subst hb
      rcases hx.one b with ⟨h1, h2⟩ | ⟨h1, -⟩
      · refine .inr ⟨by simp [execStart], _, by simp [execStart, updateState, h2]; rfl, ?_, ?_⟩
        · exact (duration_bounds h b _).1
        · exact (duration_bounds h b _).2
      · rw [ready_idle hg hr] at h1; simp at h1
    · simpa [execStart, updateState, hb] using hx.one b
  | finish a hr =>
    obtain ⟨z, rest, hq, -⟩ := readyToEnd_cons hr
    refine ⟨fun b => ?_⟩
    by_cases hb : b = a
    · subst hb
      rcases hx.one b with ⟨-, h2⟩ | ⟨-, w, hw, -⟩
      · rw [hq] at h2; simp at h2
      · rw [hq] at hw
        obtain ⟨rfl, rfl⟩ := List.cons.inj hw
        left; simp [execEnd, updateState, hq]
    · simpa [execEnd, updateState, hb, hq] using hx.one b
  | advance =>
    refine ⟨fun b => ?_⟩
    simp only [advanceTime]
    split
    · exact hx.one b
    · split
      · exact hx.one b
      · rcases hx.one b with ⟨h1, h2⟩ | ⟨h1, w, hw, h3, h4⟩
        · exact .inl ⟨h1, by simp [h2]⟩
        · have h5 := nextEvent_le_head x.st hw
          have h6 : 0 ≤ nextEvent x.st := by
            rcases nextEvent_cases x.st with h | ⟨c, z, rest, hz, he⟩
            · rw [h]; exact longMax_pos.le
            · rcases hx.one c with ⟨-, h2⟩ | ⟨-, w', hw', h7, -⟩
              · rw [hz] at h2; simp at h2
              · rw [hz] at hw'; obtain ⟨rfl, -⟩ := List.cons.inj hw'
                rw [he]; exact h7
          exact .inr ⟨h1, _, by simp [hw]; rfl, by simpa using h5, by simp; linarith⟩
  | reset => exact ⟨hx.one⟩

theorem ginv_reachable (h : OK g) (hg : Guarded g cap) {x : Core nV nE} (hr : Reachable g cap x) : GInv x := by
  induction hr with
  | refl => exact ginv_init
  | tail _ hm ih => exact ginv_move h hg ih hm

/-! ### The machine only makes moves -/

theorem endOne_move (c : Cfg nV nE) (m : Machine nV nE) {t : Fin nV} (h : readyToEnd m.st t = true) :
    Move c.g c.cap m.core (endOne c m t).core := Move.finish m.core t h

theorem step_moves (c : Cfg nV nE) (m : Machine nV nE) :
    Relation.ReflTransGen (Move c.g c.cap) m.core (step c m).core := by
  unfold step
  split
  · exact .refl
  · rename_i t rest hpc
    split
    · rename_i hr
      split
      · split
        · split
          · exact .refl
          · refine .tail (.single (Move.reset m.core)) ?_
            exact endOne_move c { m with visited := m.visited ++ [m.st], st := { m.st with elapsed := 0 }, count := 0 }
              (t := t) (by simpa [readyToEnd] using hr)
        · exact .single (endOne_move c { m with count := m.count + 1 } (t := t) hr)
      · exact .single (endOne_move c m hr)
    · exact .refl
  · exact .refl
  · split
    · rename_i hr
      exact .single (Move.start m.core _ hr)
    · exact .refl
  · simp only
    split
    · exact .single (Move.advance m.core)
    · exact .single (Move.advance m.core)
  · exact .refl
  · exact .refl

theorem start_spec {detect : Bool} {c : Cfg nV nE} {m : Machine nV nE} (h : start g cap detect = some (c, m)) :
    c.g = g ∧ c.cap = cap ∧ c.detect = detect ∧ selectMin g = some c.minActor ∧ m.core = Core.init g cap ∧
    m.pc = .ends (List.finRange nV) ∧ m.count = 0 ∧ m.visited = [] ∧ m.clock = 0 := by
  unfold start at h
  split at h
  · split at h
    · simp at h
    · rename_i t ht
      simp only [Option.some.injEq, Prod.mk.injEq] at h
      obtain ⟨rfl, rfl⟩ := h
      exact ⟨rfl, rfl, rfl, ht, rfl, rfl, rfl, rfl, rfl⟩
  · simp at h

theorem run_reachable {detect : Bool} {c : Cfg nV nE} {m : Machine nV nE} (h : start g cap detect = some (c, m))
    (n : ℕ) : Reachable g cap (run c m n).core := by
  obtain ⟨h1, h2, -, -, h5, -⟩ := start_spec h
  induction n with
  | zero => unfold run; rw [h5]; exact .refl
  | succ n ih =>
    have := step_moves c (run c m n)
    rw [h1, h2] at this
    exact ih.trans this

end Kiter.Sim
