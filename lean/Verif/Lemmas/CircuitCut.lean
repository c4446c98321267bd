/-
The searches of the bufferless mapping: what a depth-first search visits, in which order it ends the vertices.
-/
import Verif.Model.CircuitCut
import Mathlib.Logic.Relation
import Mathlib.Data.List.Basic

set_option autoImplicit false

namespace Kiter.Cut

open BMap

/-- What the search does. -/
inductive Event where
  | enter (v : ℕ)
  | seen (e : Chan)
  | leave (v : ℕ)

variable {σ : Type} {next : ℕ → List Chan} {far : Chan → ℕ} {enter : ℕ → σ → σ} {seen : Chan → σ → σ} {leave : ℕ → σ → σ}

/-- The effect of an event. -/
def act (enter : ℕ → σ → σ) (seen : Chan → σ → σ) (leave : ℕ → σ → σ) (s : σ) : Event → σ
  | .enter v => enter v s
  | .seen e => seen e s
  | .leave v => leave v s

/-- The vertices entered. -/
def entered (T : List Event) : List ℕ := T.filterMap fun x => match x with | .enter v => some v | _ => none

/-- The vertices left, in order. -/
def left (T : List Event) : List ℕ := T.filterMap fun x => match x with | .leave v => some v | _ => none

/-- A step along a channel. -/
def Step (next : ℕ → List Chan) (far : Chan → ℕ) (a b : ℕ) : Prop := ∃ e ∈ next a, far e = b

/-- Some steps. -/
def Leads (next : ℕ → List Chan) (far : Chan → ℕ) : ℕ → ℕ → Prop := Relation.ReflTransGen (Step next far)

/-- `a` comes before `b` in the list. -/
def Before (a b : ℕ) (l : List ℕ) : Prop := ∃ l₁ l₂, l = l₁ ++ b :: l₂ ∧ a ∈ l₁

theorem Before.append_right {a b : ℕ} {l : List ℕ} (h : Before a b l) (l' : List ℕ) : Before a b (l ++ l') := by
  obtain ⟨l₁, l₂, rfl, h⟩ := h
  exact ⟨l₁, l₂ ++ l', by simp, h⟩

theorem Before.append_left {a b : ℕ} {l : List ℕ} (h : Before a b l) (l' : List ℕ) : Before a b (l' ++ l) := by
  obtain ⟨l₁, l₂, rfl, h⟩ := h
  exact ⟨l' ++ l₁, l₂, by simp, by simp [h]⟩

theorem before_of {a b : ℕ} {l l' : List ℕ} (ha : a ∈ l) (hb : b ∈ l') : Before a b (l ++ l') := by
  obtain ⟨l₁, l₂, rfl⟩ := List.append_of_mem hb
  exact ⟨l ++ l₁, l₂, by simp, by simp [ha]⟩

/-- What a search from a set of marked vertices does: `L` are the vertices it marks, in the order in which it ends them, `X` the
channels it treats that do not leave these vertices. -/
structure Visits (next : ℕ → List Chan) (far : Chan → ℕ) (enter : ℕ → σ → σ) (seen : Chan → σ → σ) (leave : ℕ → σ → σ)
    (X : List Chan) (s r : (ℕ → Bool) × σ) (L : List ℕ) (T : List Event) : Prop where
  mark : ∀ y, r.1 y = true ↔ s.1 y = true ∨ y ∈ L
  nodup : L.Nodup
  fresh : ∀ y ∈ L, s.1 y = false
  closed : ∀ y ∈ L, ∀ e ∈ next y, r.1 (far e) = true
  back : ∀ y ∈ L, ∀ e ∈ next y, Before (far e) y L ∨ (Event.seen e ∈ T ∧ (s.1 (far e) = true ∨ Leads next far (far e) y))
  ins : (entered T).Perm L
  outs : left T = L
  seens : ∀ e, Event.seen e ∈ T → e ∈ X ∨ ∃ y ∈ L, e ∈ next y
  state : r.2 = T.foldl (act enter seen leave) s.2

/-- The vertices of `vs` not marked yet. -/
def unmarked (vs : List ℕ) (m : ℕ → Bool) : ℕ := (vs.filter fun v => m v = false).length

theorem unmarked_mono {vs : List ℕ} {m m' : ℕ → Bool} (h : ∀ y, m y = true → m' y = true) : unmarked vs m' ≤ unmarked vs m := by
  unfold unmarked
  refine (List.monotone_filter_right vs fun v hv => ?_).length_le
  simp only [decide_eq_true_eq] at hv ⊢
  by_contra hc
  rw [h v (by simpa using hc)] at hv
  cases hv

theorem unmarked_lt {vs : List ℕ} {m m' : ℕ → Bool} (h : ∀ y, m y = true → m' y = true) {v : ℕ} (hv : v ∈ vs) (h1 : m v = false)
    (h2 : m' v = true) : unmarked vs m' < unmarked vs m := by
  induction vs with
  | nil => cases hv
  | cons a l ih =>
    unfold unmarked at *
    by_cases ha : a = v
    · subst ha
      have := unmarked_mono (vs := l) h
      unfold unmarked at this
      rw [List.filter_cons_of_neg (by simp [h2]), List.filter_cons_of_pos (by simp [h1]), List.length_cons]
      omega
    · have hl : v ∈ l := by
        rcases List.mem_cons.mp hv with h' | h'
        · exact absurd h'.symm ha
        · exact h'
      have := ih hl
      by_cases hm : m a = true
      · rw [List.filter_cons_of_neg (by simp [h a hm]), List.filter_cons_of_neg (by simp [hm])]
        exact this
      · by_cases hm' : m' a = true
        · rw [List.filter_cons_of_neg (by simp [hm']), List.filter_cons_of_pos (by simpa using hm), List.length_cons]
          omega
        · rw [List.filter_cons_of_pos (by simpa using hm'), List.filter_cons_of_pos (by simpa using hm), List.length_cons,
            List.length_cons]
          omega

theorem Visits.trans {X Y : List Chan} {s r q : (ℕ → Bool) × σ} {L L' : List ℕ} {T T' : List Event}
    (h : Visits next far enter seen leave X s r L T) (h' : Visits next far enter seen leave Y r q L' T') :
    Visits next far enter seen leave (X ++ Y) s q (L ++ L') (T ++ T') := by
  refine ⟨fun y => ?_, ?_, ?_, ?_, ?_, ?_, ?_, ?_, ?_⟩
  · rw [h'.mark, h.mark, List.mem_append, or_assoc]
  · refine List.Nodup.append h.nodup h'.nodup fun y h1 h2 => ?_
    have := h'.fresh y h2
    rw [(h.mark y).mpr (Or.inr h1)] at this
    cases this
  · intro y hy
    rcases List.mem_append.mp hy with hy | hy
    · exact h.fresh y hy
    · by_contra hc
      have := h'.fresh y hy
      rw [(h.mark y).mpr (Or.inl (by simpa using hc))] at this
      cases this
  · intro y hy e he
    rcases List.mem_append.mp hy with hy | hy
    · exact (h'.mark _).mpr (Or.inl (h.closed y hy e he))
    · exact h'.closed y hy e he
  · intro y hy e he
    rcases List.mem_append.mp hy with hy | hy
    · rcases h.back y hy e he with h1 | ⟨h1, h2⟩
      · exact Or.inl (h1.append_right _)
      · exact Or.inr ⟨List.mem_append_left _ h1, h2⟩
    · rcases h'.back y hy e he with h1 | ⟨h1, h2 | h2⟩
      · exact Or.inl (h1.append_left _)
      · rcases (h.mark _).mp h2 with h3 | h3
        · exact Or.inr ⟨List.mem_append_right _ h1, Or.inl h3⟩
        · exact Or.inl (before_of h3 hy)
      · exact Or.inr ⟨List.mem_append_right _ h1, Or.inr h2⟩
  · unfold entered
    rw [List.filterMap_append]
    exact h.ins.append h'.ins
  · unfold left
    rw [List.filterMap_append]
    exact congrArg₂ _ h.outs h'.outs
  · intro e he
    rcases List.mem_append.mp he with he | he
    · rcases h.seens e he with h1 | ⟨y, h1, h2⟩
      · exact Or.inl (List.mem_append_left _ h1)
      · exact Or.inr ⟨y, List.mem_append_left _ h1, h2⟩
    · rcases h'.seens e he with h1 | ⟨y, h1, h2⟩
      · exact Or.inl (List.mem_append_right _ h1)
      · exact Or.inr ⟨y, List.mem_append_right _ h1, h2⟩
  · rw [List.foldl_append, ← h.state, h'.state]

theorem Visits.refl (s : (ℕ → Bool) × σ) : Visits next far enter seen leave [] s s [] [] := by
  refine ⟨fun y => by simp, List.nodup_nil, ?_, ?_, ?_, List.Perm.nil, rfl, ?_, rfl⟩ <;> intro y hy <;> cases hy

theorem Visits.see (s : (ℕ → Bool) × σ) (e : Chan) :
    Visits next far enter seen leave [e] s (s.1, seen e s.2) [] [Event.seen e] := by
  refine ⟨fun y => by simp, List.nodup_nil, (fun y hy => by cases hy), (fun y hy => by cases hy), (fun y hy => by cases hy),
    List.Perm.nil, rfl, fun e' he' => ?_, rfl⟩
  rw [List.mem_singleton] at he'
  cases he'
  exact Or.inl (List.mem_singleton.mpr rfl)

theorem Visits.mono {X Y : List Chan} {s r : (ℕ → Bool) × σ} {L : List ℕ} {T : List Event}
    (h : Visits next far enter seen leave X s r L T) (hX : ∀ e ∈ X, e ∈ Y) : Visits next far enter seen leave Y s r L T :=
  ⟨h.mark, h.nodup, h.fresh, h.closed, h.back, h.ins, h.outs, fun e he => (h.seens e he).imp (hX e) id, h.state⟩

/-- The loop on the channels of a vertex. -/
theorem fold_visits {fuel : ℕ} {vs : List ℕ}
    (ih : ∀ v (s : (ℕ → Bool) × σ), v ∈ vs → s.1 v = false → unmarked vs s.1 ≤ fuel →
      ∃ r L T, dfs next far enter seen leave fuel v s = some r ∧ Visits next far enter seen leave [] s r L T ∧ v ∈ L ∧
        ∀ y ∈ L, Leads next far v y) (es : List Chan) (hes : ∀ e ∈ es, far e ∈ vs) (s : (ℕ → Bool) × σ)
    (hs : unmarked vs s.1 ≤ fuel) :
    ∃ r L T, es.foldlM (fun (s : (ℕ → Bool) × σ) e => if s.1 (far e) then some (s.1, seen e s.2)
        else dfs next far enter seen leave fuel (far e) s) s = some r ∧ Visits next far enter seen leave es s r L T ∧
      (∀ y ∈ L, ∃ e ∈ es, Leads next far (far e) y) ∧
      (∀ e ∈ es, r.1 (far e) = true ∧ (far e ∈ L ∨ (Event.seen e ∈ T ∧ s.1 (far e) = true))) := by
  induction es generalizing s with
  | nil => exact ⟨s, [], [], rfl, Visits.refl s, (fun y hy => by cases hy), fun e he => by cases he⟩
  | cons e es ihe =>
    rw [List.foldlM_cons]
    have hes' : ∀ e ∈ es, far e ∈ vs := fun e he => hes e (List.mem_cons_of_mem _ he)
    by_cases hm : s.1 (far e) = true
    · rw [if_pos hm]
      obtain ⟨r, L, T, h1, h2, h3, h4⟩ := ihe hes' (s.1, seen e s.2) hs
      have hv := (Visits.see (enter := enter) (leave := leave) (next := next) (far := far) (seen := seen) s e).trans h2
      refine ⟨r, L, [Event.seen e] ++ T, h1, hv, fun y hy => ?_, fun e' he' => ?_⟩
      · obtain ⟨e', he', h⟩ := h3 y hy
        exact ⟨e', List.mem_cons_of_mem _ he', h⟩
      · rcases List.mem_cons.mp he' with rfl | he'
        · exact ⟨(hv.mark _).mpr (Or.inl hm), Or.inr ⟨by simp, hm⟩⟩
        · obtain ⟨h5, h6⟩ := h4 e' he'
          refine ⟨h5, h6.imp id fun h => ⟨List.mem_append_right _ h.1, h.2⟩⟩
    · rw [if_neg hm]
      obtain ⟨r0, L0, T0, g1, g2, g3, g4⟩ := ih (far e) s (hes e List.mem_cons_self) (by simpa using hm) hs
      rw [g1]
      have hle : unmarked vs r0.1 ≤ fuel := le_trans (unmarked_mono fun y hy => (g2.mark y).mpr (Or.inl hy)) hs
      obtain ⟨r, L, T, h1, h2, h3, h4⟩ := ihe hes' r0 hle
      have hv := g2.trans h2
      refine ⟨r, L0 ++ L, T0 ++ T, h1, hv.mono fun e' he' => List.mem_cons_of_mem _ (by simpa using he'), fun y hy => ?_,
        fun e' he' => ?_⟩
      · rcases List.mem_append.mp hy with hy | hy
        · exact ⟨e, List.mem_cons_self, g4 y hy⟩
        · obtain ⟨e', he', h⟩ := h3 y hy
          exact ⟨e', List.mem_cons_of_mem _ he', h⟩
      · rcases List.mem_cons.mp he' with rfl | he'
        · exact ⟨(hv.mark _).mpr (Or.inr (List.mem_append_left _ g3)), Or.inl (List.mem_append_left _ g3)⟩
        · obtain ⟨h5, h6⟩ := h4 e' he'
          refine ⟨h5, ?_⟩
          rcases h6 with h6 | ⟨h6, h7⟩
          · exact Or.inl (List.mem_append_right _ h6)
          · rcases (g2.mark _).mp h7 with h8 | h8
            · exact Or.inr ⟨List.mem_append_right _ h6, h8⟩
            · exact Or.inl (List.mem_append_left _ h8)

/-- A search from a vertex that is not marked. -/
theorem dfs_visits {vs : List ℕ} (hvs : ∀ v ∈ vs, ∀ e ∈ next v, far e ∈ vs) (fuel v : ℕ) (s : (ℕ → Bool) × σ) (hv : v ∈ vs)
    (hm : s.1 v = false) (hu : unmarked vs s.1 ≤ fuel) :
    ∃ r L T, dfs next far enter seen leave fuel v s = some r ∧ Visits next far enter seen leave [] s r L T ∧ v ∈ L ∧
      ∀ y ∈ L, Leads next far v y := by
  induction fuel generalizing v s with
  | zero =>
    have : 0 < unmarked vs s.1 := lt_of_le_of_lt (Nat.zero_le _)
      (unmarked_lt (m' := Function.update s.1 v true) (fun y hy => by
        by_cases h : y = v
        · subst h; simp
        · rwa [Function.update_of_ne h]) hv hm (by simp))
    omega
  | succ fuel ih =>
    have hup : ∀ y, s.1 y = true → Function.update s.1 v true y = true := fun y hy => by
      by_cases h : y = v
      · subst h; simp
      · rwa [Function.update_of_ne h]
    have hlt := unmarked_lt hup hv hm (by simp)
    obtain ⟨r, L, T, h1, h2, h3, h4⟩ := fold_visits ih (next v) (hvs v hv) (Function.update s.1 v true, enter v s.2) (by
      simp only; omega)
    have hnew : v ∉ L := fun h => by
      have := h2.fresh v h
      simp at this
    have hmark : ∀ y, Function.update s.1 v true y = true ↔ s.1 y = true ∨ y = v := fun y => by
      by_cases h : y = v
      · subst h; simp
      · rw [Function.update_of_ne h]; simp [h]
    have hlead : ∀ y ∈ L, Leads next far v y := fun y hy => by
      obtain ⟨e, he, h⟩ := h3 y hy
      exact Relation.ReflTransGen.head ⟨e, he, rfl⟩ h
    refine ⟨(r.1, leave v r.2), L ++ [v], Event.enter v :: T ++ [Event.leave v], ?_, ⟨fun y => ?_, ?_, ?_, ?_, ?_, ?_, ?_, ?_, ?_⟩,
      by simp, fun y hy => ?_⟩
    · unfold dfs
      rw [h1]
      rfl
    · rw [h2.mark, List.mem_append, List.mem_singleton]
      show Function.update s.1 v true y = true ∨ _ ↔ _
      rw [hmark]
      tauto
    · exact List.Nodup.append h2.nodup (List.nodup_singleton v) (by simpa using hnew)
    · intro y hy
      rcases List.mem_append.mp hy with hy | hy
      · have := h2.fresh y hy
        have hne : y ≠ v := fun h => hnew (h ▸ hy)
        rwa [show (Function.update s.1 v true, enter v s.2).1 y = s.1 y from Function.update_of_ne hne _ _] at this
      · rw [List.mem_singleton] at hy
        subst hy
        exact hm
    · intro y hy e he
      rcases List.mem_append.mp hy with hy | hy
      · exact h2.closed y hy e he
      · rw [List.mem_singleton] at hy
        subst hy
        exact (h4 e he).1
    · intro y hy e he
      rcases List.mem_append.mp hy with hy | hy
      · rcases h2.back y hy e he with h5 | ⟨h5, h6⟩
        · exact Or.inl (h5.append_right _)
        · refine Or.inr ⟨by simp [h5], ?_⟩
          rcases h6 with h6 | h6
          · rcases (hmark _).mp h6 with h7 | h7
            · exact Or.inl h7
            · rw [h7]
              exact Or.inr (hlead y hy)
          · exact Or.inr h6
      · rw [List.mem_singleton] at hy
        subst hy
        rcases (h4 e he).2 with h5 | ⟨h5, h6⟩
        · exact Or.inl (before_of h5 (List.mem_singleton.mpr rfl))
        · refine Or.inr ⟨by simp [h5], ?_⟩
          rcases (hmark _).mp h6 with h7 | h7
          · exact Or.inl h7
          · rw [h7]
            exact Or.inr Relation.ReflTransGen.refl
    · have : entered (Event.enter v :: T ++ [Event.leave v]) = v :: entered T := by
        unfold entered
        simp
      rw [this]
      exact (h2.ins.cons v).trans (List.perm_append_comm (l₁ := [v]))
    · have : left (Event.enter v :: T ++ [Event.leave v]) = left T ++ [v] := by
        unfold left
        simp
      rw [this, h2.outs]
    · intro e he
      have he' : Event.seen e ∈ T := by simpa using he
      rcases h2.seens e he' with h5 | ⟨y, h5, h6⟩
      · exact Or.inr ⟨v, by simp, h5⟩
      · exact Or.inr ⟨y, by simp [h5], h6⟩
    · show leave v r.2 = _
      rw [List.cons_append, List.foldl_cons, List.foldl_append, h2.state]
      rfl
    · rcases List.mem_append.mp hy with hy | hy
      · exact hlead y hy
      · rw [List.mem_singleton] at hy
        subst hy
        exact Relation.ReflTransGen.refl

theorem unmarked_le (vs : List ℕ) (m : ℕ → Bool) : unmarked vs m ≤ vs.length := List.length_filter_le _ _

theorem leads_inside {vs : List ℕ} (hvs : ∀ v ∈ vs, ∀ e ∈ next v, far e ∈ vs) {a b : ℕ} (ha : a ∈ vs) (h : Leads next far a b) :
    b ∈ vs := by
  induction h with
  | refl => exact ha
  | tail _ h ih =>
    obtain ⟨e, he, rfl⟩ := h
    exact hvs _ ih e he

/-- The searches from all the vertices of a list. -/
theorem dfsAll_visits {vs : List ℕ} (hvs : ∀ v ∈ vs, ∀ e ∈ next v, far e ∈ vs) (fuel : ℕ) (hf : vs.length ≤ fuel)
    (l : List ℕ) (hl : ∀ v ∈ l, v ∈ vs) (s : (ℕ → Bool) × σ) :
    ∃ r L T, dfsAll next far enter seen leave fuel l s = some r ∧ Visits next far enter seen leave [] s r L T ∧
      (∀ v ∈ l, r.1 v = true) ∧ ∀ y ∈ L, y ∈ vs := by
  unfold dfsAll
  induction l generalizing s with
  | nil => exact ⟨s, [], [], rfl, Visits.refl s, (fun v hv => by cases hv), fun v hv => by cases hv⟩
  | cons v l ih =>
    rw [List.foldlM_cons]
    have hl' : ∀ v ∈ l, v ∈ vs := fun w hw => hl w (List.mem_cons_of_mem _ hw)
    by_cases hm : s.1 v = true
    · rw [if_pos hm]
      obtain ⟨r, L, T, h1, h2, h3, h4⟩ := ih hl' s
      refine ⟨r, L, T, h1, h2, fun w hw => ?_, h4⟩
      rcases List.mem_cons.mp hw with rfl | hw
      · exact (h2.mark _).mpr (Or.inl hm)
      · exact h3 w hw
    · rw [if_neg hm]
      obtain ⟨r0, L0, T0, g1, g2, g3, g4⟩ := dfs_visits (next := next) (far := far) (enter := enter) (seen := seen)
        (leave := leave) hvs fuel v s (hl v List.mem_cons_self) (by simpa using hm) (le_trans (unmarked_le _ _) hf)
      rw [g1]
      obtain ⟨r, L, T, h1, h2, h3, h4⟩ := ih hl' r0
      have hv := g2.trans h2
      refine ⟨r, L0 ++ L, T0 ++ T, h1, hv, fun w hw => ?_, fun y hy => ?_⟩
      · rcases List.mem_cons.mp hw with rfl | hw
        · exact (hv.mark _).mpr (Or.inr (List.mem_append_left _ g3))
        · exact h3 w hw
      · rcases List.mem_append.mp hy with hy | hy
        · exact leads_inside hvs (hl v List.mem_cons_self) (g4 y hy)
        · exact h4 y hy

end Kiter.Cut
