/-
C93: the exploration of buffer sizes by periodic schedules.
-/
import Verif.Model.PeriodicDSE
import Mathlib.Algebra.BigOperators.Group.List.Basic
import Mathlib.Data.List.Forall2
import Mathlib.Tactic.Linarith
import Mathlib.Tactic.Ring
import Mathlib.Tactic.FieldSimp
import Mathlib.Tactic.NormNum
import Mathlib.Tactic.Positivity

set_option autoImplicit false

namespace Kiter.Freq

/-! ### Maps -/

section
variable {α β : Type} [LinearOrder α]

theorem get_set (k k' : α) (v : β) (l : List (α × β)) : mapGet k' (mapSet k v l) = if k = k' then some v else mapGet k' l := by
  induction l with
  | nil => simp only [mapSet, mapGet]
  | cons a l ih =>
    obtain ⟨a, w⟩ := a
    unfold mapSet
    split
    · simp only [mapGet]
    · rename_i h1
      split
      · rename_i h2
        simp only [mapGet, ih]
        by_cases h3 : a = k'
        · subst h3; simp [h2.ne']
        · simp [h3]
      · rename_i h2
        have : a = k := le_antisymm (not_lt.1 h1) (not_lt.1 h2)
        subst this
        simp only [mapGet]
        by_cases h : a = k' <;> simp [h]

/-- The keys are in order. -/
def Sorted (l : List (α × β)) : Prop := l.Pairwise fun x y => x.1 < y.1

theorem set_keys {k : α} {v : β} {l : List (α × β)} {x : α × β} (h : x ∈ mapSet k v l) : x = (k, v) ∨ x ∈ l := by
  induction l with
  | nil => simpa [mapSet] using h
  | cons a l ih =>
    obtain ⟨a, w⟩ := a
    unfold mapSet at h
    split at h
    · simpa using h
    · split at h
      · rcases List.mem_cons.1 h with rfl | h
        · simp
        · rcases ih h with h | h
          · exact .inl h
          · exact .inr (by simp [h])
      · rcases List.mem_cons.1 h with rfl | h
        · simp
        · exact .inr (by simp [h])

theorem set_sorted {k : α} {v : β} {l : List (α × β)} (h : Sorted l) : Sorted (mapSet k v l) := by
  induction l with
  | nil => simp [mapSet, Sorted]
  | cons a l ih =>
    obtain ⟨a, w⟩ := a
    unfold Sorted at h
    rw [List.pairwise_cons] at h
    unfold mapSet
    split
    · rename_i h1
      unfold Sorted
      rw [List.pairwise_cons, List.pairwise_cons]
      refine ⟨fun x hx => ?_, h⟩
      rcases List.mem_cons.1 hx with rfl | hx
      · exact h1
      · exact h1.trans (h.1 x hx)
    · rename_i h1
      split
      · rename_i h2
        unfold Sorted
        rw [List.pairwise_cons]
        refine ⟨fun x hx => ?_, ih h.2⟩
        rcases set_keys hx with rfl | hx
        · exact h2
        · exact h.1 x hx
      · rename_i h2
        have : a = k := le_antisymm (not_lt.1 h1) (not_lt.1 h2)
        subst this
        unfold Sorted
        rw [List.pairwise_cons]
        exact h

theorem mem_get {l : List (α × β)} (h : Sorted l) {k : α} {v : β} : (k, v) ∈ l ↔ mapGet k l = some v := by
  induction l with
  | nil => simp [mapGet]
  | cons a l ih =>
    obtain ⟨a, w⟩ := a
    unfold Sorted at h
    rw [List.pairwise_cons] at h
    rw [List.mem_cons, ih h.2, show mapGet k ((a, w) :: l) = if a = k then some w else mapGet k l from rfl]
    by_cases e : a = k
    · rw [if_pos e]
      subst e
      constructor
      · rintro (h1 | h1)
        · cases h1; rfl
        · exact absurd (h.1 _ ((ih h.2).2 h1)) (lt_irrefl _)
      · intro h1
        exact .inl (by rw [Option.some.inj h1])
    · rw [if_neg e]
      constructor
      · rintro (h1 | h1)
        · cases h1; exact absurd rfl e
        · exact h1
      · exact .inr

end

/-! ### The loop -/

section
variable {size : ℚ → Int} {F : ℚ}

theorem get_ensure (f f' : ℚ) (space : List (ℚ × Int)) : mapGet f' (ensure size f space) =
    if f = f' ∧ mapGet f' space = none then some (size (1 / f)) else mapGet f' space := by
  unfold ensure
  split
  · rename_i h
    rw [Option.isNone_iff_eq_none] at h
    rw [get_set]
    by_cases hf : f = f'
    · subst hf; simp [h]
    · simp [hf]
  · rename_i h
    rw [Option.isNone_iff_eq_none] at h
    rw [if_neg]
    rintro ⟨rfl, h'⟩
    exact h h'

theorem ensure_sorted {f : ℚ} {space : List (ℚ × Int)} (h : Sorted space) : Sorted (ensure size f space) := by
  unfold ensure
  split
  · exact set_sorted h
  · exact h

/-- The frequency has been explored, or is 0. -/
def Known (s : State) (f : ℚ) : Prop := mapGet f s.space ≠ none

/-- The interval around `f` that is settled: its ends are known, and it is narrow or its ends have the same size. -/
def Settled (s : State) (G f : ℚ) : Prop :=
  ∃ l r, l < f ∧ f ≤ r ∧ Known s l ∧ Known s r ∧ (r - l < 2 * G ∨ l ≠ 0 ∧ mapGet l s.space = mapGet r s.space)

structure Inv (size : ℚ → Int) (F : ℚ) (s : State) : Prop where
  sorted : Sorted s.space
  zero : mapGet 0 s.space = some 0
  space : ∀ f v, mapGet f s.space = some v → f = 0 ∨ 0 < f ∧ f ≤ F ∧ v = size (1 / f)
  queue : ∀ p ∈ s.queue, 0 ≤ p.1 ∧ p.1 < p.2 ∧ p.2 ≤ F ∧
    (p = (0, F) ∨ ∃ l r, l ≤ p.1 ∧ p.2 ≤ r ∧ r - l = 2 * (p.2 - p.1) ∧ Known s l ∧ Known s r)
  cover : ∀ f, 0 < f → f ≤ F → (∃ p ∈ s.queue, p.1 < f ∧ f ≤ p.2) ∨ Settled s (granularity F) f

theorem Settled.mono {s s' : State} {G f : ℚ} (h : Settled s G f)
    (hs : ∀ f v, mapGet f s.space = some v → mapGet f s'.space = some v) : Settled s' G f := by
  obtain ⟨l, r, h1, h2, h3, h4, h5⟩ := h
  obtain ⟨x, hx⟩ := Option.ne_none_iff_exists'.1 h3
  obtain ⟨y, hy⟩ := Option.ne_none_iff_exists'.1 h4
  refine ⟨l, r, h1, h2, by unfold Known; rw [hs _ _ hx]; simp, by unfold Known; rw [hs _ _ hy]; simp, h5.imp_right fun h => ?_⟩
  rw [hx, hy] at h
  rw [hs _ _ hx, hs _ _ hy]
  exact h

theorem inv_init (hF : 0 < F) : Inv size F (init F) := by
  refine ⟨by simp [init, Sorted], by simp [init, mapGet], ?_, ?_, ?_⟩
  · intro f v h
    unfold init mapGet at h
    split at h
    · rename_i e; exact .inl e.symm
    · simp [mapGet] at h
  · intro p hp
    simp only [init, List.mem_singleton] at hp
    subst hp
    exact ⟨le_rfl, hF, le_rfl, .inl rfl⟩
  · intro f h1 h2
    exact .inl ⟨(0, F), by simp [init], h1, h2⟩

theorem inv_step (hF : 0 < F) {s : State} (h : Inv size F s) : Inv size F (step size (granularity F) s) := by
  unfold step
  cases hq : s.queue with
  | nil => exact h
  | cons p q =>
    obtain ⟨l, r⟩ := p
    obtain ⟨h0l, hlr, hrF, hpar⟩ := h.queue (l, r) (by rw [hq]; simp)
    dsimp only at h0l hlr hrF
    dsimp only
    split
    · rename_i hskip
      refine ⟨h.sorted, h.zero, h.space, fun p hp => h.queue p (by rw [hq]; simp [hp]), fun f h1 h2 => ?_⟩
      rcases h.cover f h1 h2 with ⟨p, hp, h3, h4⟩ | h3
      · rw [hq] at hp
        rcases List.mem_cons.1 hp with rfl | hp
        · right
          rcases hpar with he | ⟨l', r', b1, b2, b3, b4, b5⟩
          · cases he
            unfold granularity at hskip
            linarith
          · exact ⟨l', r', lt_of_le_of_lt b1 h3, h4.trans b2, b4, b5, .inl (by dsimp only at b3; linarith)⟩
        · exact .inl ⟨p, hp, h3, h4⟩
      · exact .inr h3
    · rename_i hbig
      set sp := ensure size r (ensure size l s.space) with hsp
      have hmono : ∀ f v, mapGet f s.space = some v → mapGet f sp = some v := by
        intro f v hf
        rw [hsp, get_ensure, get_ensure, hf]; simp
      have hl : mapGet l sp ≠ none := by
        rw [hsp, get_ensure, get_ensure]
        by_cases hx : mapGet l s.space = none
        · rw [if_pos (⟨rfl, hx⟩ : l = l ∧ _)]; simp
        · simp [hx]
      have hr : mapGet r sp ≠ none := by
        rw [hsp, get_ensure]
        by_cases hx : mapGet r (ensure size l s.space) = none
        · rw [if_pos ⟨rfl, hx⟩]; simp
        · rw [if_neg (fun h => hx h.2)]; exact hx
      have hspace : ∀ f v, mapGet f sp = some v → f = 0 ∨ 0 < f ∧ f ≤ F ∧ v = size (1 / f) := by
        intro f v hf
        rw [hsp, get_ensure] at hf
        split at hf
        · rename_i e
          obtain ⟨rfl, -⟩ := e
          exact .inr ⟨lt_of_le_of_lt h0l hlr, hrF, (Option.some.inj hf).symm⟩
        · rw [get_ensure] at hf
          split at hf
          · rename_i e
            obtain ⟨rfl, -⟩ := e
            rcases eq_or_lt_of_le h0l with h0 | h0
            · exact .inl h0.symm
            · exact .inr ⟨h0, (hlr.le.trans hrF), (Option.some.inj hf).symm⟩
          · exact h.space f v hf
      have hknown : ∀ f, Known s f → mapGet f sp ≠ none := by
        intro f hf
        obtain ⟨x, hx⟩ := Option.ne_none_iff_exists'.1 hf
        rw [hmono _ _ hx]; simp
      have hsorted : Sorted sp := ensure_sorted (ensure_sorted h.sorted)
      have hold : ∀ p ∈ q, 0 ≤ p.1 ∧ p.1 < p.2 ∧ p.2 ≤ F ∧ (p = (0, F) ∨
          ∃ l r, l ≤ p.1 ∧ p.2 ≤ r ∧ r - l = 2 * (p.2 - p.1) ∧ mapGet l sp ≠ none ∧ mapGet r sp ≠ none) := by
        intro p hp
        obtain ⟨c1, c2, c3, c4⟩ := h.queue p (by rw [hq]; simp [hp])
        exact ⟨c1, c2, c3, c4.imp_right fun ⟨l, r, d1, d2, d3, d4, d5⟩ => ⟨l, r, d1, d2, d3, hknown _ d4, hknown _ d5⟩⟩
      split
      · refine ⟨hsorted, hmono _ _ h.zero, hspace, fun p hp => ?_, fun f h1 h2 => ?_⟩
        · rcases List.mem_append.1 hp with hp | hp
          · exact hold p hp
          · simp only [List.mem_cons, List.not_mem_nil, or_false] at hp
            rcases hp with rfl | rfl
            · exact ⟨h0l, by dsimp only; linarith, by dsimp only; linarith, .inr ⟨l, r, le_rfl, by dsimp only; linarith, by dsimp only; ring, hl, hr⟩⟩
            · exact ⟨by dsimp only; linarith, by dsimp only; linarith, hrF, .inr ⟨l, r, by dsimp only; linarith, le_rfl, by dsimp only; ring, hl, hr⟩⟩
        · rcases h.cover f h1 h2 with ⟨p, hp, h3, h4⟩ | h3
          · rw [hq] at hp
            left
            rcases List.mem_cons.1 hp with rfl | hp
            · rcases le_or_gt f (l + (r - l) / 2) with h5 | h5
              · exact ⟨(l, l + (r - l) / 2), by simp, h3, h5⟩
              · exact ⟨(l + (r - l) / 2, r), by simp, h5, h4⟩
            · exact ⟨p, by simp [hp], h3, h4⟩
          · exact .inr (h3.mono hmono)
      · rename_i hsame
        push Not at hsame
        refine ⟨hsorted, hmono _ _ h.zero, hspace, hold, fun f h1 h2 => ?_⟩
        rcases h.cover f h1 h2 with ⟨p, hp, h3, h4⟩ | h3
        · rw [hq] at hp
          rcases List.mem_cons.1 hp with rfl | hp
          · exact .inr ⟨l, r, h3, h4, hl, hr, .inr ⟨hsame.2, hsame.1⟩⟩
          · exact .inl ⟨p, hp, h3, h4⟩
        · exact .inr (h3.mono hmono)

theorem inv_run (hF : 0 < F) (n : ℕ) : Inv size F (run size (granularity F) (init F) n) := by
  induction n with
  | zero => exact inv_init hF
  | succ n ih => exact inv_step hF ih

/-! ### Termination -/

/-- The intervals of the queue have widths `F / 2 ^ k`. -/
def Widths (F : ℚ) (q : List (ℚ × ℚ)) (ks : List ℕ) : Prop :=
  List.Forall₂ (fun (p : ℚ × ℚ) k => k ≤ 14 ∧ p.2 - p.1 = F / 2 ^ k) q ks

/-- Turns that the intervals can still take. -/
def turns (ks : List ℕ) : ℕ := (ks.map fun k => 2 ^ (15 - k) - 1).sum

theorem step_turns (hF : 0 < F) {s : State} {ks : List ℕ} (h : Widths F s.queue ks) :
    ∃ ks', Widths F (step size (granularity F) s).queue ks' ∧ (s.queue = [] ∨ turns ks' < turns ks) := by
  unfold step
  unfold Widths at h
  cases hq : s.queue with
  | nil => rw [hq] at h; exact ⟨ks, by dsimp only; rw [hq]; exact h, .inl rfl⟩
  | cons p q =>
    obtain ⟨l, r⟩ := p
    rw [hq] at h
    cases h with
    | cons h1 h2 =>
      rename_i k ks
      obtain ⟨hk, hw⟩ := h1
      dsimp only at hw
      have hpos : 0 < 2 ^ (15 - k) - 1 := by
        have : 2 ^ 1 ≤ 2 ^ (15 - k) := Nat.pow_le_pow_right (by norm_num) (by omega)
        omega
      have hless : turns ks < turns (k :: ks) := by unfold turns; simp only [List.map_cons, List.sum_cons]; omega
      dsimp only
      split
      · exact ⟨ks, h2, .inr hless⟩
      · rename_i hbig
        have hk13 : k ≤ 13 := by
          by_contra hcon
          have : k = 14 := by omega
          subst this
          apply hbig
          rw [hw]
          unfold granularity
          apply div_lt_div_of_pos_left hF <;> norm_num
        split
        · refine ⟨ks ++ [k + 1, k + 1], ?_, .inr ?_⟩
          · apply List.rel_append h2
            have e : ∀ x : ℚ, F / 2 ^ k / 2 = F / 2 ^ (k + 1) := fun _ => by rw [pow_succ, div_div]
            exact .cons ⟨by omega, by dsimp only; rw [hw, ← e 0]; ring⟩ (.cons ⟨by omega, by dsimp only; rw [hw, ← e 0]; linarith⟩ .nil)
          · unfold turns
            simp only [List.map_append, List.map_cons, List.map_nil, List.sum_append, List.sum_cons, List.sum_nil]
            have e : 2 ^ (15 - k) = 2 * 2 ^ (15 - (k + 1)) := by rw [← pow_succ']; congr 1; omega
            have : 2 ^ 1 ≤ 2 ^ (15 - (k + 1)) := Nat.pow_le_pow_right (by norm_num) (by omega)
            omega
        · exact ⟨ks, h2, .inr hless⟩

theorem queue_stays {G : ℚ} {s : State} {n m : ℕ} (h : (run size G s n).queue = []) (hm : n ≤ m) :
    run size G s m = run size G s n := by
  induction hm with
  | refl => rfl
  | @step m _ ih =>
    show step size G (run size G s m) = _
    rw [ih]
    unfold step
    rw [h]

theorem queue_empties (hF : 0 < F) (n : ℕ) (hn : 32767 ≤ n) : (run size (granularity F) (init F) n).queue = [] := by
  have key : ∀ n, ∃ ks, Widths F (run size (granularity F) (init F) n).queue ks ∧
      ((run size (granularity F) (init F) n).queue = [] ∨ turns ks + n ≤ 32767) := by
    intro n
    induction n with
    | zero => exact ⟨[0], .cons ⟨by omega, by simp⟩ .nil, .inr (by simp [turns])⟩
    | succ n ih =>
      obtain ⟨ks, h1, h2⟩ := ih
      obtain ⟨ks', h3, h4⟩ := step_turns (size := size) hF h1
      refine ⟨ks', h3, ?_⟩
      rcases h2 with h2 | h2
      · exact .inl (by rw [queue_stays h2 (Nat.le_succ n)]; exact h2)
      · rcases h4 with h4 | h4
        · exact .inl (by rw [queue_stays h4 (Nat.le_succ n)]; exact h4)
        · exact .inr (by omega)
  have h1 : (run size (granularity F) (init F) 32767).queue = [] := by
    obtain ⟨ks, h1, h2 | h2⟩ := key 32767
    · exact h2
    · have : ks = [] ∨ ks ≠ [] := em _
      rcases this with rfl | hne
      · unfold Widths at h1
        exact List.forall₂_nil_right_iff.1 h1
      · exfalso
        obtain ⟨k, ks', rfl⟩ := List.exists_cons_of_ne_nil hne
        unfold Widths at h1
        obtain ⟨p, q, ⟨hk, -⟩, -, -⟩ := List.forall₂_cons_right_iff.1 h1
        have : 2 ^ 1 ≤ 2 ^ (15 - k) := Nat.pow_le_pow_right (by norm_num) (by omega)
        unfold turns at h2
        simp only [List.map_cons, List.sum_cons] at h2
        omega
  rw [queue_stays h1 hn]; exact h1

/-! ### The printed points -/

theorem paretoStep_spec {m : List (Int × ℚ)} {f : ℚ} {S : Int} (h1 : Sorted m) (hf : f ≠ 0) :
    Sorted (paretoStep m (f, S)) ∧ (∀ S', S' ≠ S → mapGet S' (paretoStep m (f, S)) = mapGet S' m) ∧
      ∃ P, mapGet S (paretoStep m (f, S)) = some P ∧ P ≤ 1 / f ∧
        ((mapGet S m = none ∧ P = 1 / f) ∨ ∃ p, mapGet S m = some p ∧ P ≤ p ∧ (P = p ∨ P = 1 / f)) := by
  unfold paretoStep
  dsimp only
  rw [if_neg hf]
  cases hS : mapGet S m with
  | none =>
    simp only [Option.isNone_none, if_true]
    rw [get_set, if_pos rfl]
    dsimp only
    rw [if_neg (lt_irrefl _)]
    exact ⟨set_sorted h1, fun S' hne => by rw [get_set, if_neg (Ne.symm hne)], 1 / f, by rw [get_set, if_pos rfl],
      le_rfl, .inl ⟨trivial, rfl⟩⟩
  | some p =>
    simp only [Option.isNone_some, Bool.false_eq_true, if_false]
    rw [hS]
    dsimp only
    by_cases hlt : 1 / f < p
    · rw [if_pos hlt]
      exact ⟨set_sorted h1, fun S' hne => by rw [get_set, if_neg (Ne.symm hne)], 1 / f, by rw [get_set, if_pos rfl],
        le_rfl, .inr ⟨p, rfl, hlt.le, .inr rfl⟩⟩
    · rw [if_neg hlt]
      exact ⟨h1, fun _ _ => rfl, p, hS, not_lt.1 hlt, .inr ⟨p, rfl, le_rfl, .inl rfl⟩⟩

theorem pareto_spec (space : List (ℚ × Int)) (hpos : ∀ p ∈ space, p.1 = 0 ∨ 0 < p.1) :
    Sorted (space.foldl paretoStep []) ∧
    (∀ S P, mapGet S (space.foldl paretoStep []) = some P →
      (∃ f, f ≠ 0 ∧ (f, S) ∈ space ∧ P = 1 / f) ∧ ∀ f, f ≠ 0 → (f, S) ∈ space → P ≤ 1 / f) ∧
    ∀ f S, f ≠ 0 → (f, S) ∈ space → mapGet S (space.foldl paretoStep []) ≠ none := by
  induction space using List.reverseRecOn with
  | nil => simp [Sorted, mapGet]
  | append_singleton l x ih =>
    obtain ⟨f, S⟩ := x
    obtain ⟨h1, h2, h3⟩ := ih fun p hp => hpos p (by simp [hp])
    rw [List.foldl_append, List.foldl_cons, List.foldl_nil]
    set m := l.foldl paretoStep [] with hm
    by_cases hf : f = 0
    · rw [show paretoStep m (f, S) = m by unfold paretoStep; exact if_pos hf]
      refine ⟨h1, fun S' P hP => ?_, fun f' S' hf' hmem => ?_⟩
      · obtain ⟨⟨f', a, b, c⟩, d⟩ := h2 S' P hP
        refine ⟨⟨f', a, by simp [b], c⟩, fun f'' a' b' => ?_⟩
        rcases List.mem_append.1 b' with b' | b'
        · exact d f'' a' b'
        · simp only [List.mem_singleton, Prod.mk.injEq] at b'
          exact absurd (b'.1.trans hf) a'
      · rcases List.mem_append.1 hmem with b' | b'
        · exact h3 f' S' hf' b'
        · simp only [List.mem_singleton, Prod.mk.injEq] at b'
          exact absurd (b'.1.trans hf) hf'
    · obtain ⟨hsort, hother, P₀, hP₀, hle₀, hcase⟩ := paretoStep_spec (m := m) (S := S) h1 hf
      refine ⟨hsort, fun S' P hP => ?_, fun f' S' hf' hmem => ?_⟩
      · by_cases hne : S' = S
        · subst hne
          rw [hP₀] at hP; cases hP
          constructor
          · rcases hcase with ⟨-, e⟩ | ⟨p, hp, -, rfl | e⟩
            · exact ⟨f, hf, by simp, e⟩
            · obtain ⟨⟨f', a, b, c⟩, -⟩ := h2 S' _ hp
              exact ⟨f', a, by simp [b], c⟩
            · exact ⟨f, hf, by simp, e⟩
          · intro f' hf' hmem
            rcases List.mem_append.1 hmem with b' | b'
            · rcases hcase with ⟨hn, -⟩ | ⟨p, hp, hle, -⟩
              · exact absurd hn (h3 f' S' hf' b')
              · exact hle.trans ((h2 S' _ hp).2 f' hf' b')
            · simp only [List.mem_singleton, Prod.mk.injEq] at b'
              rw [b'.1]; exact hle₀
        · rw [hother S' hne] at hP
          obtain ⟨⟨f', a, b, c⟩, d⟩ := h2 S' P hP
          refine ⟨⟨f', a, by simp [b], c⟩, fun f'' a' b' => ?_⟩
          rcases List.mem_append.1 b' with b' | b'
          · exact d f'' a' b'
          · simp only [List.mem_singleton, Prod.mk.injEq] at b'
            exact absurd b'.2 hne
      · by_cases hne : S' = S
        · subst hne; rw [hP₀]; simp
        · rw [hother S' hne]
          rcases List.mem_append.1 hmem with b' | b'
          · exact h3 f' S' hf' b'
          · simp only [List.mem_singleton, Prod.mk.injEq] at b'
            exact absurd b'.2 hne

theorem mem_output {space : List (ℚ × Int)} (hs : Sorted space) (hpos : ∀ p ∈ space, p.1 = 0 ∨ 0 < p.1) {P : ℚ} {S : Int} :
    (P, S) ∈ output space ↔ 0 < S ∧ (∃ f, f ≠ 0 ∧ mapGet f space = some S ∧ P = 1 / f) ∧
      ∀ f, f ≠ 0 → mapGet f space = some S → P ≤ 1 / f := by
  obtain ⟨h1, h2, h3⟩ := pareto_spec space hpos
  have hm : (P, S) ∈ output space ↔ 0 < S ∧ mapGet S (space.foldl paretoStep []) = some P := by
    unfold output
    rw [List.mem_map]
    constructor
    · rintro ⟨⟨S', P'⟩, h, e⟩
      cases e
      rw [List.mem_filter, mem_get h1] at h
      exact ⟨by simpa using h.2, h.1⟩
    · rintro ⟨a, b⟩
      exact ⟨(S, P), by rw [List.mem_filter, mem_get h1]; exact ⟨b, by simpa using a⟩, rfl⟩
  rw [hm]
  constructor
  · rintro ⟨a, b⟩
    obtain ⟨⟨f, c1, c2, c3⟩, d⟩ := h2 S P b
    exact ⟨a, ⟨f, c1, (mem_get hs).1 c2, c3⟩, fun f hf hg => d f hf ((mem_get hs).2 hg)⟩
  · rintro ⟨a, ⟨f, c1, c2, c3⟩, d⟩
    refine ⟨a, ?_⟩
    obtain ⟨P', hP'⟩ := Option.ne_none_iff_exists'.1 (h3 f S c1 ((mem_get hs).2 c2))
    obtain ⟨⟨f', e1, e2, e3⟩, e4⟩ := h2 S P' hP'
    rw [hP']
    have g1 := e4 f c1 ((mem_get hs).2 c2)
    have g2 := d f' e1 ((mem_get hs).1 e2)
    rw [← c3] at g1
    rw [← e3] at g2
    rw [le_antisymm g1 g2]

/-- **C93** For every sizing function and every positive throughput of the 1-periodic schedule, the exploration ends, after at
most 32767 turns. -/
theorem C93_terminates (size : ℚ → Int) (hF : 0 < F) : ∃ out, ∀ n, 32767 ≤ n → explore size F n = some out := by
  refine ⟨output (run size (granularity F) (init F) 32767).space, fun n hn => ?_⟩
  unfold explore
  dsimp only
  rw [if_pos (queue_empties hF n hn), queue_stays (queue_empties hF 32767 le_rfl) hn]

/-- **C93** The printed points: sizes are positive and increase from line to line; each is the size that the sizing function
gives for the printed period, which is not below the period of the 1-periodic schedule. -/
theorem C93_sound (hF : 0 < F) {n : ℕ} {out : List (ℚ × Int)} (h : explore size F n = some out) :
    out.Pairwise (fun x y => x.2 < y.2) ∧ ∀ p ∈ out, 0 < p.2 ∧ p.2 = size p.1 ∧ 1 / F ≤ p.1 := by
  unfold explore at h
  dsimp only at h
  split at h
  swap
  · simp at h
  cases h
  have hI := inv_run (size := size) hF n
  set s := run size (granularity F) (init F) n with hs
  have hpos : ∀ p ∈ s.space, p.1 = 0 ∨ 0 < p.1 := by
    rintro ⟨f, v⟩ hp
    exact (hI.space f v ((mem_get hI.sorted).1 hp)).imp_right And.left
  refine ⟨?_, ?_⟩
  · unfold output
    rw [List.pairwise_map]
    exact ((pareto_spec s.space hpos).1.filter _).imp fun h => h
  · rintro ⟨P, S⟩ hp
    obtain ⟨a, ⟨f, b1, b2, b3⟩, -⟩ := (mem_output hI.sorted hpos).1 hp
    rcases hI.space f S b2 with h0 | ⟨c1, c2, c3⟩
    · exact absurd h0 b1
    · subst b3
      exact ⟨a, c3, one_div_le_one_div_of_le c1 c2⟩

/-- Sizes never decrease when the frequency increases, and a frequency with a solution has one below. -/
def MonotoneSizes (size : ℚ → Int) : Prop :=
  ∀ f f', 0 < f → f ≤ f' → 0 < size (1 / f') → 0 < size (1 / f) ∧ size (1 / f) ≤ size (1 / f')

/-- **C93** For a monotone sizing function the printed points are a Pareto front: more size means a smaller period. -/
theorem C93_front (hF : 0 < F) (hm : MonotoneSizes size) {n : ℕ} {out : List (ℚ × Int)} (h : explore size F n = some out) :
    out.Pairwise fun x y => x.2 < y.2 ∧ y.1 < x.1 := by
  obtain ⟨h1, h2⟩ := C93_sound hF h
  refine (List.Pairwise.and_mem.1 h1).imp ?_
  rintro ⟨P, S⟩ ⟨P', S'⟩ ⟨hx, hy, hlt⟩
  refine ⟨hlt, ?_⟩
  obtain ⟨a1, a2, a3⟩ := h2 _ hx
  obtain ⟨b1, b2, b3⟩ := h2 _ hy
  dsimp only at *
  by_contra hcon
  push Not at hcon
  have hP : 0 < P := lt_of_lt_of_le (by positivity) a3
  have := (hm (1 / P') (1 / P) (one_div_pos.2 (lt_of_lt_of_le hP hcon)) (one_div_le_one_div_of_le hP hcon)
    (by rw [one_div_one_div, ← a2]; exact a1)).2
  rw [one_div_one_div, one_div_one_div, ← a2, ← b2] at this
  omega

/-- **C93** For a monotone sizing function nothing is missed by more than the precision of the search: whatever throughput `f` up to
that of the 1-periodic schedule has a solution, a printed point is at most as large and its throughput is less than
1/5000 of the maximum below `f`. -/
theorem C93_complete (hF : 0 < F) (hm : MonotoneSizes size) {n : ℕ} {out : List (ℚ × Int)} (h : explore size F n = some out)
    {f : ℚ} (hf : F / 5000 ≤ f) (hfF : f ≤ F) (hsize : 0 < size (1 / f)) :
    ∃ p ∈ out, p.2 ≤ size (1 / f) ∧ f - F / 5000 < 1 / p.1 := by
  unfold explore at h
  dsimp only at h
  split at h
  swap
  · simp at h
  rename_i hq
  cases h
  have hI := inv_run (size := size) hF n
  set s := run size (granularity F) (init F) n with hs
  have hpos : ∀ p ∈ s.space, p.1 = 0 ∨ 0 < p.1 := by
    rintro ⟨f, v⟩ hp
    exact (hI.space f v ((mem_get hI.sorted).1 hp)).imp_right And.left
  have hf0 : 0 < f := lt_of_lt_of_le (by positivity) hf
  -- a known frequency gives a printed point
  have hprint : ∀ g, 0 < g → Known s g → 0 < size (1 / g) → ∃ p ∈ output s.space, p.2 = size (1 / g) ∧ g ≤ 1 / p.1 := by
    intro g hg hk hsz
    obtain ⟨v, hv⟩ := Option.ne_none_iff_exists'.1 hk
    obtain ⟨h1, h2, h3⟩ := pareto_spec s.space hpos
    rcases hI.space g v hv with h0 | ⟨-, -, hvs⟩
    · exact absurd h0 hg.ne'
    obtain ⟨P, hP⟩ := Option.ne_none_iff_exists'.1 (h3 g v hg.ne' ((mem_get hI.sorted).2 hv))
    obtain ⟨⟨f', e1, e2, e3⟩, e4⟩ := h2 v P hP
    refine ⟨(P, v), (mem_output hI.sorted hpos).2 ⟨by rw [hvs]; exact hsz, ⟨f', e1, (mem_get hI.sorted).1 e2, e3⟩,
      fun f hf hg => e4 f hf ((mem_get hI.sorted).2 hg)⟩, hvs, ?_⟩
    have hle := e4 g hg.ne' ((mem_get hI.sorted).2 hv)
    have hf' : 0 < f' := by
      rcases hpos _ e2 with h0 | h0
      · exact absurd h0 e1
      · exact h0
    have hPpos : 0 < P := by rw [e3]; positivity
    rw [le_div_iff₀ hPpos]
    rw [le_div_iff₀ hg] at hle
    linarith
  rcases hI.cover f hf0 hfF with ⟨p, hp, -⟩ | ⟨l, r, h1, h2, h3, h4, h5⟩
  · rw [hq] at hp; simp at hp
  have hl0 : 0 ≤ l := by
    obtain ⟨v, hv⟩ := Option.ne_none_iff_exists'.1 h3
    rcases hI.space l v hv with h0 | ⟨h0, -⟩
    · exact h0.ge
    · exact h0.le
  rcases eq_or_lt_of_le hl0 with h0 | h0
  · exfalso
    rcases h5 with h5 | h5
    · rw [← h0] at h5
      unfold granularity at h5
      linarith
    · exact h5.1 h0.symm
  · obtain ⟨a1, a2⟩ := hm l f h0 h1.le hsize
    rcases h5 with h5 | ⟨-, h5⟩
    · obtain ⟨p, hp, e1, e2⟩ := hprint l h0 h3 a1
      refine ⟨p, hp, by rw [e1]; exact a2, ?_⟩
      unfold granularity at h5
      linarith
    · obtain ⟨v, hv⟩ := Option.ne_none_iff_exists'.1 h3
      have hw : mapGet r s.space = some v := by rw [← h5]; exact hv
      have ev : v = size (1 / l) := by
        rcases hI.space l v hv with h | h
        · exact absurd h h0.ne'
        · exact h.2.2
      have ew : v = size (1 / r) := by
        rcases hI.space r v hw with h | h
        · exact absurd h (h0.trans (lt_of_lt_of_le h1 h2)).ne'
        · exact h.2.2
      obtain ⟨p, hp, e1, e2⟩ := hprint r (hf0.trans_le h2) h4 (by rw [← ew, ev]; exact a1)
      refine ⟨p, hp, by rw [e1, ← ew, ev]; exact a2, ?_⟩
      have : (0 : ℚ) < F / 5000 := by positivity
      linarith

/-- **C93** When the throughput of the 1-periodic schedule is 0, the exploration never ends: the interval from 0 to 0 is never
narrower than 0, and is cut in two again and again. -/
theorem C93_diverges (size : ℚ → Int) (n : ℕ) : explore size 0 n = none := by
  have key : ∀ n, (run size (granularity 0) (init 0) n).queue ≠ [] ∧
      ∀ p ∈ (run size (granularity 0) (init 0) n).queue, p = (0, 0) := by
    intro n
    induction n with
    | zero => simp [run, init]
    | succ n ih =>
      obtain ⟨h1, h2⟩ := ih
      show (step size (granularity 0) _).queue ≠ [] ∧ ∀ p ∈ (step size (granularity 0) _).queue, p = (0, 0)
      set s := run size (granularity 0) (init 0) n
      obtain ⟨p, q, hq⟩ := List.exists_cons_of_ne_nil h1
      have hp := h2 p (by rw [hq]; simp)
      subst hp
      unfold step
      rw [hq]
      dsimp only
      rw [if_neg (by norm_num [granularity]), if_pos (.inr rfl)]
      refine ⟨by simp, fun p hp => ?_⟩
      dsimp only at hp
      rcases List.mem_append.1 hp with hp | hp
      · exact h2 p (by rw [hq]; simp [hp])
      · simpa using hp
  unfold explore
  dsimp only
  rw [if_neg (key n).1]

/-- **C93** When it is negative (no 1-periodic schedule), nothing is printed. -/
theorem C93_nothing (size : ℚ → Int) (hF : F < 0) (n : ℕ) (hn : 0 < n) : explore size F n = some [] := by
  have h1 : run size (granularity F) (init F) 1 = ⟨[], [(0, 0)]⟩ := by
    show step size (granularity F) (init F) = _
    unfold step init
    dsimp only
    rw [if_pos (by unfold granularity; linarith)]
  unfold explore
  dsimp only
  rw [queue_stays (n := 1) (by rw [h1]) hn, h1, if_pos rfl]
  rfl

end

/-- A monotone sizing function: 2 from period 3 on, 3 from 2 on, 5 from 1 on, no solution below. -/
def stairs (p : ℚ) : Int := if p < 1 then 0 else if p < 2 then 5 else if p < 3 then 3 else 2

/-- The hypotheses of the theorems hold for it: the point of size 3 is printed, with a period below 2.001. -/
example : ∃ out, explore stairs 1 40000 = some out ∧ ∃ p ∈ out, p.2 ≤ 3 ∧ 1 / 2 - 1 / 5000 < 1 / p.1 := by
  have hm : MonotoneSizes stairs := by
    intro f f' h1 h2 h3
    have h4 : 1 / f' ≤ 1 / f := one_div_le_one_div_of_le h1 h2
    generalize 1 / f = x at *
    generalize 1 / f' = y at *
    unfold stairs at *
    split at h3
    · simp at h3
    · have : ¬ x < 1 := by rename_i h; intro h'; exact h (lt_of_le_of_lt h4 h')
      rw [if_neg this]
      split_ifs <;> first | (exfalso; linarith) | (constructor <;> norm_num)
  obtain ⟨out, h⟩ := C93_terminates stairs (F := 1) one_pos
  refine ⟨out, h 40000 (by norm_num), ?_⟩
  have := C93_complete one_pos hm (h 40000 (by norm_num)) (f := 1 / 2) (by norm_num) (by norm_num) (by norm_num [stairs])
  norm_num [stairs] at this ⊢
  exact this

end Kiter.Freq
