/-
C144: the channels removed before the tasks are mapped.
-/
import Verif.Model.CycleEdges
import Mathlib.Logic.Relation
import Mathlib.Data.List.Nodup

set_option autoImplicit false

namespace Kiter.CycleEdges

/-- Specification: there is a channel from `u` to `v`. -/
def Edge (chans : List Chan) (u v : ℕ) : Prop := ∃ c ∈ chans, c.src = u ∧ c.dst = v

/-- A channel that is listed, or does not enter a task marked as on a circuit, or goes to a task visited later. -/
def Handled (cyc : ℕ → Bool) (st : St) (e : Chan) : Prop :=
  e.id ∈ st.removed ∨ cyc e.dst = false ∨
    (e.src ∈ st.visited ∧ e.dst ∈ st.visited ∧ st.visited.idxOf e.src < st.visited.idxOf e.dst)

/-- One state continues another. -/
def Ext (a b : St) : Prop := (∃ l, b.visited = a.visited ++ l) ∧ ∃ r, b.removed = a.removed ++ r

theorem Ext.refl (a : St) : Ext a a := ⟨⟨[], by simp⟩, [], by simp⟩

theorem Ext.trans {a b c : St} (h : Ext a b) (h' : Ext b c) : Ext a c := by
  obtain ⟨⟨l, hl⟩, r, hr⟩ := h
  obtain ⟨⟨l', hl'⟩, r', hr'⟩ := h'
  exact ⟨⟨l ++ l', by rw [hl', hl, List.append_assoc]⟩, r ++ r', by rw [hr', hr, List.append_assoc]⟩

theorem Ext.mem {a b : St} (h : Ext a b) {v : ℕ} (hv : v ∈ a.visited) : v ∈ b.visited := by
  obtain ⟨⟨l, hl⟩, -⟩ := h
  rw [hl]; exact List.mem_append_left _ hv

theorem Handled.ext {cyc : ℕ → Bool} {a b : St} {e : Chan} (h : Handled cyc a e) (hx : Ext a b) : Handled cyc b e := by
  have hx' := hx
  obtain ⟨⟨l, hl⟩, r, hr⟩ := hx'
  rcases h with h | h | ⟨h1, h2, h3⟩
  · exact .inl (by rw [hr]; exact List.mem_append_left _ h)
  · exact .inr (.inl h)
  · refine .inr (.inr ⟨hx.mem h1, hx.mem h2, ?_⟩)
    rw [hl, List.idxOf_append_of_mem h1, List.idxOf_append_of_mem h2]
    exact h3

/-- All outputs of the tasks visited in between are handled. -/
def Done (chans : List Chan) (cyc : ℕ → Bool) (a b : St) : Prop :=
  Ext a b ∧ ∀ v ∈ b.visited, v ∉ a.visited → ∀ e ∈ outs chans v, Handled cyc b e

theorem Done.trans {chans : List Chan} {cyc : ℕ → Bool} {a b c : St} (h : Done chans cyc a b) (h' : Done chans cyc b c) :
    Done chans cyc a c := by
  refine ⟨h.1.trans h'.1, fun v hv hn e he => ?_⟩
  by_cases hb : v ∈ b.visited
  · exact (h.2 v hb hn e he).ext h'.1
  · exact h'.2 v hv hb e he

theorem mem_outs {chans : List Chan} {v : ℕ} {e : Chan} (h : e ∈ outs chans v) : e.src = v := by
  simpa using (List.mem_filter.1 h).2

theorem visit_spec {chans : List Chan} {cyc : ℕ → Bool} {n : ℕ} : ∀ (f : ℕ) (es : List Chan) (st st' : St),
    visit chans cyc n f es st = some st' → (∀ e ∈ es, e.src ∈ st.visited) →
    Done chans cyc st st' ∧ ∀ e ∈ es, Handled cyc st' e
  | 0, _, _, _, h, _ => by simp [visit] at h
  | f + 1, [], st, st', h, _ => by
    simp only [visit, Option.some.injEq] at h
    subst h
    exact ⟨⟨.refl _, fun v hv hn => absurd hv hn⟩, by simp⟩
  | f + 1, e :: es, st, st', h, hs => by
    have hes : ∀ d ∈ es, d.src ∈ st.visited := fun d hd => hs d (by simp [hd])
    rw [visit] at h
    by_cases hn : n ≤ e.dst
    · rw [if_pos hn] at h; cases h
    rw [if_neg hn] at h
    by_cases hv : e.dst ∈ st.visited
    · rw [if_pos hv] at h
      cases hc : cyc e.dst with
      | true =>
        rw [hc, if_pos rfl] at h
        obtain ⟨h1, h2⟩ := visit_spec f es _ st' h hes
        have hx : Ext st ⟨st.visited, st.removed ++ [e.id]⟩ := ⟨⟨[], by simp⟩, [e.id], rfl⟩
        refine ⟨⟨hx.trans h1.1, h1.2⟩, ?_⟩
        intro d hd
        rcases List.mem_cons.1 hd with rfl | hd
        · exact Handled.ext (a := ⟨st.visited, st.removed ++ [d.id]⟩) (.inl (by simp)) h1.1
        · exact h2 d hd
      | false =>
        rw [hc] at h
        obtain ⟨h1, h2⟩ := visit_spec f es _ st' h hes
        refine ⟨h1, ?_⟩
        intro d hd
        rcases List.mem_cons.1 hd with rfl | hd
        · exact .inr (.inl hc)
        · exact h2 d hd
    · rw [if_neg hv] at h
      cases hr : visit chans cyc n f (outs chans e.dst) ⟨st.visited ++ [e.dst], st.removed⟩ with
      | none => rw [hr] at h; cases h
      | some st1 =>
        rw [hr] at h
        obtain ⟨a1, a2⟩ := visit_spec f _ _ st1 hr (fun d hd => by simp [mem_outs hd])
        have hx : Ext st ⟨st.visited ++ [e.dst], st.removed⟩ := ⟨⟨[e.dst], rfl⟩, [], by simp⟩
        have d1 : Done chans cyc st st1 := by
          refine ⟨hx.trans a1.1, fun v hv' hn' d hd => ?_⟩
          by_cases hvd : v = e.dst
          · exact a2 d (hvd ▸ hd)
          · exact a1.2 v hv' (by simp [hn', hvd]) d hd
        have he : Handled cyc st1 e := by
          refine Handled.ext (a := ⟨st.visited ++ [e.dst], st.removed⟩) (.inr (.inr ⟨?_, ?_, ?_⟩)) a1.1
          · exact List.mem_append_left _ (hs e (by simp))
          · simp
          · have hse := hs e (by simp)
            simp only
            rw [List.idxOf_append_of_mem hse, List.idxOf_append_of_notMem hv]
            have := List.idxOf_lt_length_iff.2 hse
            omega
        obtain ⟨b1, b2⟩ := visit_spec f es st1 st' h (fun d hd => d1.1.mem (hes d hd))
        refine ⟨d1.trans b1, ?_⟩
        intro d hd
        rcases List.mem_cons.1 hd with rfl | hd
        · exact he.ext b1.1
        · exact b2 d hd

theorem visitAll_spec {chans : List Chan} {cyc : ℕ → Bool} {n f : ℕ} : ∀ (order : List ℕ) (st st' : St),
    visitAll chans cyc n f order st = some st' → Done chans cyc st st' ∧ ∀ v ∈ order, v ∈ st'.visited
  | [], st, st', h => by
    simp only [visitAll, Option.some.injEq] at h
    subst h
    exact ⟨⟨.refl _, fun v hv hn => absurd hv hn⟩, by simp⟩
  | v :: rest, st, st', h => by
    rw [visitAll] at h
    by_cases hn : n ≤ v
    · rw [if_pos hn] at h; cases h
    rw [if_neg hn] at h
    by_cases hv : v ∈ st.visited
    · rw [if_pos hv] at h
      obtain ⟨h1, h2⟩ := visitAll_spec rest st st' h
      refine ⟨h1, fun w hw => ?_⟩
      rcases List.mem_cons.1 hw with rfl | hw
      · exact h1.1.mem hv
      · exact h2 w hw
    · rw [if_neg hv] at h
      cases hr : visit chans cyc n f (outs chans v) ⟨st.visited ++ [v], st.removed⟩ with
      | none => rw [hr] at h; cases h
      | some st1 =>
        rw [hr] at h
        obtain ⟨a1, a2⟩ := visit_spec f _ _ st1 hr (fun d hd => by simp [mem_outs hd])
        have hx : Ext st ⟨st.visited ++ [v], st.removed⟩ := ⟨⟨[v], rfl⟩, [], by simp⟩
        have d1 : Done chans cyc st st1 := by
          refine ⟨hx.trans a1.1, fun w hw hn' d hd => ?_⟩
          by_cases hvd : w = v
          · exact a2 d (hvd ▸ hd)
          · exact a1.2 w hw (by simp [hn', hvd]) d hd
        obtain ⟨b1, b2⟩ := visitAll_spec rest st1 st' h
        refine ⟨d1.trans b1, fun w hw => ?_⟩
        rcases List.mem_cons.1 hw with rfl | hw
        · exact b1.1.mem (a1.1.mem (by simp))
        · exact b2 w hw

theorem visit_removed {chans : List Chan} {cyc : ℕ → Bool} {n : ℕ} : ∀ (f : ℕ) (es : List Chan) (st st' : St),
    visit chans cyc n f es st = some st' → (∀ e ∈ es, e ∈ chans) →
    ∀ i ∈ st'.removed, i ∈ st.removed ∨ ∃ e ∈ chans, e.id = i ∧ cyc e.dst = true
  | 0, _, _, _, h, _ => by simp [visit] at h
  | f + 1, [], st, st', h, _ => by
    simp only [visit, Option.some.injEq] at h
    subst h
    exact fun i hi => .inl hi
  | f + 1, e :: es, st, st', h, hs => by
    have hes : ∀ d ∈ es, d ∈ chans := fun d hd => hs d (by simp [hd])
    rw [visit] at h
    split at h
    · cases h
    split at h
    · intro i hi
      rcases visit_removed f es _ st' h hes i hi with x | x
      · split at x
        · rename_i hc
          rcases List.mem_append.1 x with x | x
          · exact .inl x
          · exact .inr ⟨e, hs e (by simp), (List.mem_singleton.1 x).symm, hc⟩
        · exact .inl x
      · exact .inr x
    · split at h
      · cases h
      · rename_i st1 hr
        intro i hi
        rcases visit_removed f es _ st' h hes i hi with x | x
        · exact visit_removed f _ _ st1 hr (fun d hd => (List.mem_filter.1 hd).1) i x
        · exact .inr x

theorem visitAll_removed {chans : List Chan} {cyc : ℕ → Bool} {n f : ℕ} : ∀ (order : List ℕ) (st st' : St),
    visitAll chans cyc n f order st = some st' →
    ∀ i ∈ st'.removed, i ∈ st.removed ∨ ∃ e ∈ chans, e.id = i ∧ cyc e.dst = true
  | [], st, st', h => by
    simp only [visitAll, Option.some.injEq] at h
    subst h
    exact fun i hi => .inl hi
  | v :: rest, st, st', h => by
    rw [visitAll] at h
    split at h
    · cases h
    split at h
    · exact visitAll_removed rest st st' h
    · split at h
      · cases h
      · rename_i st1 hr
        intro i hi
        rcases visitAll_removed rest st1 st' h i hi with x | x
        · exact visit_removed f _ _ st1 hr (fun d hd => (List.mem_filter.1 hd).1) i x
        · exact .inr x

theorem rank_lt {chans left : List Chan} {rank : ℕ → ℕ} (hsub : ∀ u v, Edge left u v → Edge chans u v)
    (hr : ∀ u v, Edge left u v → Relation.TransGen (Edge chans) v v → rank u < rank v) {u v : ℕ}
    (h : Relation.TransGen (Edge left) u v) : Relation.ReflTransGen (Edge chans) v u → rank u < rank v := by
  induction h with
  | single e =>
    intro back
    exact hr _ _ e (Relation.TransGen.tail' back (hsub _ _ e))
  | @tail b c hub e ih =>
    intro back
    have full : Relation.TransGen (Edge chans) u b := by
      clear ih back e
      induction hub with
      | single e => exact .single (hsub _ _ e)
      | tail _ e ih => exact .tail ih (hsub _ _ e)
    have h1 := ih (Relation.ReflTransGen.head (hsub _ _ e) back)
    exact Nat.lt_trans h1 (hr _ _ e (Relation.TransGen.tail' (back.trans full.to_reflTransGen) (hsub _ _ e)))

/-- C144, the part that holds: if every source of a channel is in the program order, every task on a circuit is marked as such and the
search stays within `visited`, the channels that are left form no circuit, and channels into tasks that are not marked are
left. Missing: tasks numbered from 1 as usual, where the search reads out of bounds. -/
theorem _root_.Kiter.C144_acyclic_partial {tasks order : List ℕ} {chans left : List Chan} {cyc : ℕ → Bool} {f : ℕ}
    (hid : (chans.map Chan.id).Nodup) (ho : ∀ c ∈ chans, c.src ∈ order) (hc : ∀ v, Relation.TransGen (Edge chans) v v → cyc v = true)
    (h : removeCycleEdges tasks chans cyc order f = some left) :
    (∀ c ∈ left, c ∈ chans) ∧ (∀ c ∈ chans, cyc c.dst = false → c ∈ left) ∧ ∀ v, ¬ Relation.TransGen (Edge left) v v := by
  unfold removeCycleEdges at h
  obtain ⟨st, h1, rfl⟩ := Option.map_eq_some_iff.1 h
  obtain ⟨⟨_, d⟩, e⟩ := visitAll_spec order _ st h1
  have hsub : ∀ c ∈ chans.filter (fun c => decide (c.id ∉ st.removed)), c ∈ chans := fun c hc => (List.mem_filter.1 hc).1
  refine ⟨hsub, fun c hcm hf => List.mem_filter.2 ⟨hcm, decide_eq_true fun hi => ?_⟩, fun v hv => ?_⟩
  · rcases visitAll_removed order _ st h1 _ hi with x | ⟨b, hb, hbi, hbc⟩
    · simp at x
    · rw [List.inj_on_of_nodup_map hid hb hcm hbi, hf] at hbc; cases hbc
  refine Nat.lt_irrefl _ (rank_lt (chans := chans) (rank := fun v => st.visited.idxOf v) ?_ ?_ hv .refl)
  · rintro u w ⟨c, hcm, hu⟩; exact ⟨c, hsub c hcm, hu⟩
  · rintro u w ⟨c, hcm, rfl, rfl⟩ hcirc
    have hcm' := List.mem_filter.1 hcm
    rcases d c.src (e _ (ho c hcm'.1)) (by simp) c (List.mem_filter.2 ⟨hcm'.1, by simp⟩) with x | x | ⟨-, -, x⟩
    · exact absurd x (by simpa using hcm'.2)
    · rw [hc _ hcirc] at x; cases x
    · exact x

/-- C144 fails for tasks numbered from 1, as `addVertex` numbers them: as soon as the program order holds the last task, the search reads
out of bounds, whatever the graph. -/
theorem _root_.Kiter.C144_bounds_counterexample {k : ℕ} {chans : List Chan} {cyc : ℕ → Bool} {order : List ℕ} {f : ℕ}
    (ho : k ∈ order) : removeCycleEdges (List.range' 1 k) chans cyc order f = none := by
  have key : ∀ (order : List ℕ) (st : St), k ∈ order → visitAll chans cyc k f order st = none := by
    intro order
    induction order with
    | nil => intro st h; simp at h
    | cons v rest ih =>
      intro st h
      rw [visitAll]
      by_cases hn : k ≤ v
      · rw [if_pos hn]
      · rw [if_neg hn]
        have hk : k ∈ rest := by
          rcases List.mem_cons.1 h with rfl | h
          · exact absurd (Nat.le_refl _) hn
          · exact h
        by_cases hv : v ∈ st.visited
        · rw [if_pos hv]; exact ih _ hk
        · rw [if_neg hv]
          cases visit chans cyc k f (outs chans v) ⟨st.visited ++ [v], st.removed⟩ with
          | none => rfl
          | some st1 => exact ih _ hk
  unfold removeCycleEdges
  rw [List.length_range', key order _ ho]
  rfl

/-- A ring of three tasks with a chord, numbered from 0. -/
def ring : List Chan := [⟨1, 0, 1⟩, ⟨2, 1, 2⟩, ⟨3, 2, 0⟩, ⟨4, 0, 2⟩]

example : (ring.map Chan.id).Nodup ∧ (∀ c ∈ ring, c.src ∈ [1, 0, 2]) ∧
    (removeCycleEdges [0, 1, 2] ring (fun _ => true) [1, 0, 2] 20).map (fun l => l.map Chan.id) = some [2, 3] := by
  decide +kernel

example : ∀ v, Relation.TransGen (Edge ring) v v → (fun _ : ℕ => true) v = true := fun _ _ => rfl

end Kiter.CycleEdges
