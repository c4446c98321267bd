/-
C116: the groups of competing router tasks that the bufferless scheduling puts in sequence.
-/
import Verif.Spec.Overlaps
import Verif.Props.GroupList

set_option autoImplicit false

namespace Kiter.Overlap

open GroupList

theorem mem_entriesOf {u : List (Int × Int × Int × Nat)} {r : Int} {c : Int × Int × Nat} :
    c ∈ entriesOf u r ↔ (r, c) ∈ u := by
  unfold entriesOf
  simp only [List.mem_map, List.mem_filter, beq_iff_eq]
  constructor
  · rintro ⟨e, ⟨he, rfl⟩, rfl⟩; exact he
  · intro h; exact ⟨_, ⟨h, rfl⟩, rfl⟩

theorem entriesOf_append (u v : List (Int × Int × Int × Nat)) (r : Int) :
    entriesOf (u ++ v) r = entriesOf u r ++ entriesOf v r := by
  simp [entriesOf]

/-- What one task adds. -/
theorem useOf_spec {n : NoC.Net} {tasks : List Task} {t : Task} {l : List (Int × Int × Int × Nat)}
    (h : useOf n tasks t = some l) :
    (∀ r i o w, (r, i, o, w) ∈ l ↔ Passes n tasks t r i o ∧ w = t.id) ∧ l.length ≤ 1 := by
  unfold useOf at h
  split at h
  · cases h
  split at h
  · cases h
  rename_i hx
  split at h
  · rename_i hl
    cases h
    refine ⟨?_, by simp⟩
    intro r i o w
    constructor
    · intro hm; cases hm
    · rintro ⟨hp, _⟩
      obtain ⟨v, hv, _⟩ := hp.router
      have hn : hasNode n t.mapping = true := by
        unfold hasNode
        rw [hp.at_]
        unfold NoC.getNode at hv
        exact List.any_eq_true.2 ⟨v, List.mem_of_find?_eq_some hv, List.find?_some (p := fun v : NoC.Node => v.id == r) hv⟩
      rw [hl, hn] at hx
      exact absurd rfl hx
  · split at h
    · cases h
    · rename_i v hv
      split at h
      · rename_i hr
        unfold routerUse at h
        split at h
        · rename_i a b ha hb
          split at h
          · rename_i ta tb hta htb
            split at h
            · simp only [Option.map_some, Option.some.injEq] at h
              subst h
              refine ⟨?_, by simp⟩
              intro r i o w
              simp only [List.mem_singleton, Prod.mk.injEq]
              constructor
              · rintro ⟨rfl, rfl, rfl, rfl⟩
                exact ⟨⟨rfl, ⟨v, hv, hr⟩, ⟨a, ta, ha, hta, rfl⟩, ⟨b, tb, hb, htb, rfl⟩⟩, rfl⟩
              · rintro ⟨⟨h1, _, ⟨a', ta', ha', hta', h2⟩, ⟨b', tb', hb', htb', h3⟩⟩, h4⟩
                rw [ha] at ha'; cases ha'
                rw [hb] at hb'; cases hb'
                rw [hta] at hta'; cases hta'
                rw [htb] at htb'; cases htb'
                exact ⟨h1.symm, h2.symm, h3.symm, h4⟩
            · cases h
          · cases h
        · cases h
      · rename_i hr
        cases h
        refine ⟨?_, by simp⟩
        intro r i o w
        constructor
        · intro hm; cases hm
        · rintro ⟨hp, _⟩
          obtain ⟨v', hv', hr'⟩ := hp.router
          rw [← hp.at_, hv] at hv'
          cases hv'
          exact absurd hr' hr

/-- The entries of a part of the tasks. -/
def useAll (n : NoC.Net) (tasks sub : List Task) : Option (List (Int × Int × Int × Nat)) :=
  (sub.mapM fun t => useOf n tasks t).map List.flatten

theorem useAll_nil (n : NoC.Net) (tasks : List Task) : useAll n tasks [] = some [] := rfl

theorem useAll_cons {n : NoC.Net} {tasks sub : List Task} {t : Task} {u : List (Int × Int × Int × Nat)}
    (h : useAll n tasks (t :: sub) = some u) :
    ∃ l v, useOf n tasks t = some l ∧ useAll n tasks sub = some v ∧ u = l ++ v := by
  unfold useAll at h
  rw [List.mapM_cons] at h
  cases h1 : useOf n tasks t with
  | none => rw [h1] at h; cases h
  | some l =>
    rw [h1] at h
    cases h2 : sub.mapM fun t => useOf n tasks t with
    | none => rw [h2] at h; cases h
    | some v =>
      rw [h2] at h
      refine ⟨l, v.flatten, rfl, by unfold useAll; rw [h2]; rfl, ?_⟩
      simp at h
      exact h.symm

theorem useAll_append {n : NoC.Net} {tasks : List Task} : ∀ {pre post : List Task} {u : List (Int × Int × Int × Nat)},
    useAll n tasks (pre ++ post) = some u →
    ∃ a b, useAll n tasks pre = some a ∧ useAll n tasks post = some b ∧ u = a ++ b
  | [], post, u, h => ⟨[], u, rfl, h, rfl⟩
  | t :: pre, post, u, h => by
    obtain ⟨l, v, h1, h2, rfl⟩ := useAll_cons h
    obtain ⟨a, b, h3, h4, rfl⟩ := useAll_append h2
    refine ⟨l ++ a, b, ?_, h4, (List.append_assoc _ _ _).symm⟩
    unfold useAll at h3 ⊢
    rw [List.mapM_cons, h1]
    cases h5 : pre.mapM fun t => useOf n tasks t with
    | none => rw [h5] at h3; cases h3
    | some w => rw [h5] at h3; simp at h3; simp [h3]

theorem mem_useAll {n : NoC.Net} {tasks : List Task} : ∀ {sub : List Task} {u : List (Int × Int × Int × Nat)},
    useAll n tasks sub = some u → ∀ r i o w,
    (r, i, o, w) ∈ u ↔ ∃ t ∈ sub, Passes n tasks t r i o ∧ w = t.id
  | [], u, h => by rw [useAll_nil] at h; cases h; simp
  | t :: sub, u, h => by
    obtain ⟨l, v, h1, h2, rfl⟩ := useAll_cons h
    intro r i o w
    rw [List.mem_append, (useOf_spec h1).1, mem_useAll h2]
    simp

theorem mem_entries {n : NoC.Net} {tasks sub : List Task} {u : List (Int × Int × Int × Nat)}
    (h : useAll n tasks sub = some u) (r i o : Int) (w : Nat) :
    (i, o, w) ∈ entriesOf u r ↔ ∃ t ∈ sub, Passes n tasks t r i o ∧ w = t.id := by
  rw [mem_entriesOf, mem_useAll h]

theorem conn_iff {n : NoC.Net} {tasks sub : List Task} {u : List (Int × Int × Int × Nat)}
    (h : useAll n tasks sub = some u) (r a b : Int) :
    Conn (entriesOf u r) a b ↔ Tied n tasks sub r a b := by
  unfold Conn Tied
  have : (fun a b => ∃ v, (a, b, v) ∈ entriesOf u r) = fun i o => ∃ t ∈ sub, Passes n tasks t r i o := by
    funext i o
    apply propext
    constructor
    · rintro ⟨w, hw⟩
      obtain ⟨t, ht, hp, _⟩ := (mem_entries h r i o w).1 hw
      exact ⟨t, ht, hp⟩
    · rintro ⟨t, ht, hp⟩
      exact ⟨t.id, (mem_entries h r i o _).2 ⟨t, ht, hp, rfl⟩⟩
  rw [this]

theorem seen_iff {n : NoC.Net} {tasks sub : List Task} {u : List (Int × Int × Int × Nat)}
    (h : useAll n tasks sub = some u) (r l : Int) :
    Seen (entriesOf u r) l ↔ Used n tasks sub r l := by
  unfold Seen Used
  constructor
  · rintro ⟨⟨i, o, w⟩, hc, hl⟩
    obtain ⟨t, ht, hp, _⟩ := (mem_entries h r i o w).1 hc
    exact ⟨t, ht, i, o, hp, hl⟩
  · rintro ⟨t, ht, i, o, hp, hl⟩
    exact ⟨(i, o, t.id), (mem_entries h r i o _).2 ⟨t, ht, hp, rfl⟩, hl⟩

theorem passes_unique {n : NoC.Net} {tasks : List Task} {t : Task} {r r' i i' o o' : Int}
    (h : Passes n tasks t r i o) (h' : Passes n tasks t r' i' o') : r = r' ∧ i = i' ∧ o = o' := by
  obtain ⟨h1, _, ⟨a, ta, h2, h3, h4⟩, ⟨b, tb, h5, h6, h7⟩⟩ := h
  obtain ⟨h1', _, ⟨a', ta', h2', h3', h4'⟩, ⟨b', tb', h5', h6', h7'⟩⟩ := h'
  rw [h2] at h2'; cases h2'
  rw [h5] at h5'; cases h5'
  rw [h3] at h3'; cases h3'
  rw [h6] at h6'; cases h6'
  exact ⟨h1.symm.trans h1', h4.symm.trans h4', h7.symm.trans h7'⟩

/-- A transfer that does not tie two groups is not lost. -/
theorem kept_of {n : NoC.Net} {tasks pre post : List Task} {t : Task} {u : List (Int × Int × Int × Nat)} {r i o : Int}
    (h : useAll n tasks tasks = some u) (he : tasks = pre ++ t :: post) (hp : Passes n tasks t r i o)
    (hk : ¬ TiesTwoGroups n tasks pre r i o) : Kept (entriesOf u r) (i, o, t.id) := by
  have h' : useAll n tasks (pre ++ t :: post) = some u := he ▸ h
  obtain ⟨a, b, h1, h2, rfl⟩ := useAll_append h'
  obtain ⟨l, v, h3, h4, rfl⟩ := useAll_cons h2
  have hl : l = [(r, i, o, t.id)] := by
    have hs := useOf_spec h3
    have hm : (r, i, o, t.id) ∈ l := (hs.1 r i o t.id).2 ⟨hp, rfl⟩
    match l, hm, hs.2 with
    | [x], hm, _ => rw [List.mem_singleton.1 hm]
  subst hl
  refine ⟨entriesOf a r, entriesOf v r, ?_, ?_⟩
  · rw [entriesOf_append, entriesOf_append]
    simp [entriesOf]
  · rintro ⟨j1, j2, j3⟩
    exact hk ⟨(seen_iff h1 r i).1 j1, (seen_iff h1 r o).1 j2, fun hc => j3 ((conn_iff h1 r i o).2 hc)⟩

/-- A value of the groups comes from a task. -/
theorem kept_task {n : NoC.Net} {tasks : List Task} {u : List (Int × Int × Int × Nat)} {r i o : Int} {w : Nat}
    (h : useAll n tasks tasks = some u) (hk : Kept (entriesOf u r) (i, o, w)) :
    ∃ t ∈ tasks, Passes n tasks t r i o ∧ w = t.id := by
  obtain ⟨pre, post, he, _⟩ := hk
  exact (mem_entries h r i o w).1 (by rw [he]; simp)

theorem mapM_flat {α β : Type} (f : α → Option (List β)) : ∀ (l : List α) (res : List β),
    (l.mapM f).map List.flatten = some res →
    (∀ a ∈ l, ∃ bs, f a = some bs ∧ ∀ b ∈ bs, b ∈ res) ∧ ∀ b ∈ res, ∃ a ∈ l, ∃ bs, f a = some bs ∧ b ∈ bs
  | [], res, h => by simp at h; subst h; simp
  | a :: l, res, h => by
    rw [List.mapM_cons] at h
    cases h1 : f a with
    | none => rw [h1] at h; cases h
    | some bs =>
      rw [h1] at h
      cases h2 : l.mapM f with
      | none => rw [h2] at h; cases h
      | some cs =>
        rw [h2] at h
        simp at h
        have ih := mapM_flat f l cs.flatten (by rw [h2]; rfl)
        subst h
        refine ⟨?_, ?_⟩
        · intro x hx
          rcases List.mem_cons.1 hx with rfl | hx
          · exact ⟨bs, h1, fun b hb => List.mem_append_left _ hb⟩
          · obtain ⟨y, hy, hy'⟩ := ih.1 x hx
            exact ⟨y, hy, fun b hb => List.mem_append_right _ (hy' b hb)⟩
        · intro b hb
          rcases List.mem_append.1 hb with hb | hb
          · exact ⟨a, List.mem_cons_self, bs, h1, hb⟩
          · obtain ⟨x, hx, y, hy, hy'⟩ := ih.2 b hb
            exact ⟨x, List.mem_cons_of_mem _ hx, y, hy, hy'⟩

theorem mem_routers {u : List (Int × Int × Int × Nat)} {r : Int} : r ∈ routers u ↔ ∃ c, (r, c) ∈ u := by
  unfold routers
  rw [List.mem_insertionSort, List.mem_dedup, List.mem_map]
  constructor
  · rintro ⟨⟨a, b⟩, h, rfl⟩; exact ⟨b, h⟩
  · rintro ⟨c, h⟩; exact ⟨_, h, rfl⟩

theorem overlaps_some {n : NoC.Net} {tasks : List Task} {res : List (List Nat)} (h : overlaps n tasks = some res) :
    ∃ u, useAll n tasks tasks = some u ∧ ((routers u).mapM fun r => routerBags n u r).map List.flatten = some res := by
  unfold overlaps at h
  cases h1 : usage n tasks with
  | none => rw [h1] at h; cases h
  | some u => rw [h1] at h; exact ⟨u, h1, h⟩

theorem forall2_mem_left {α β : Type} {R : α → β → Prop} {l : List α} {m : List β} (h : List.Forall₂ R l m) :
    ∀ a ∈ l, ∃ b ∈ m, R a b := by
  induction h with
  | nil => intro a ha; cases ha
  | cons hr _ ih =>
    intro x hx
    rcases List.mem_cons.1 hx with rfl | hx
    · exact ⟨_, List.mem_cons_self, hr⟩
    · obtain ⟨b, hb, hr'⟩ := ih x hx
      exact ⟨b, List.mem_cons_of_mem _ hb, hr'⟩

theorem forall2_mem_right {α β : Type} {R : α → β → Prop} {l : List α} {m : List β} (h : List.Forall₂ R l m) :
    ∀ b ∈ m, ∃ a ∈ l, R a b := by
  induction h with
  | nil => intro a ha; cases ha
  | cons hr _ ih =>
    intro x hx
    rcases List.mem_cons.1 hx with rfl | hx
    · exact ⟨_, List.mem_cons_self, hr⟩
    · obtain ⟨b, hb, hr'⟩ := ih x hx
      exact ⟨b, List.mem_cons_of_mem _ hb, hr'⟩

end Kiter.Overlap

namespace Kiter

open Overlap GroupList

/-- Bags never mix routers and never hold tasks that do not compete: all tasks of a bag are transfers through one router, and
the links of any two of them are tied together by transfers through this router. (The scheduling asserts that a bag has one
mapping.) -/
theorem C116_sound (n : NoC.Net) (tasks : List Overlap.Task) (res : List (List Nat)) (h : overlaps n tasks = some res)
    (bag : List Nat) (hb : bag ∈ res) :
    ∃ r, (∀ w ∈ bag, ∃ t ∈ tasks, t.id = w ∧ ∃ i o, Passes n tasks t r i o) ∧
      ∀ w ∈ bag, ∀ w' ∈ bag, ∃ t ∈ tasks, ∃ t' ∈ tasks, t.id = w ∧ t'.id = w' ∧ ∃ i o i' o',
        Passes n tasks t r i o ∧ Passes n tasks t' r i' o' ∧ Tied n tasks tasks r i i' := by
  obtain ⟨u, hu, hr⟩ := overlaps_some h
  obtain ⟨r, _, bs, hbs, hb⟩ := (mapM_flat _ _ _ hr).2 bag hb
  unfold routerBags at hbs
  dsimp only at hbs
  split at hbs
  swap
  · cases hbs
  obtain ⟨s, reps, sets, h1, h2, _, _, _, h6⟩ := C51_groups_partial (entriesOf u r)
  rw [h1] at hbs
  have hbs : getall s = some bs := hbs
  rw [h2] at hbs
  cases hbs
  obtain ⟨t0, _, ht0⟩ := forall2_mem_right h6 bag hb
  refine ⟨r, ?_, ?_⟩
  · intro w hw
    obtain ⟨i, o, hk, _⟩ := (ht0 w).1 hw
    obtain ⟨t, ht, hp, he⟩ := kept_task hu hk
    exact ⟨t, ht, he.symm, i, o, hp⟩
  · intro w hw w' hw'
    obtain ⟨i, o, hk, hc⟩ := (ht0 w).1 hw
    obtain ⟨t, ht, hp, he⟩ := kept_task hu hk
    obtain ⟨i', o', hk', hc'⟩ := (ht0 w').1 hw'
    obtain ⟨t', ht', hp', he'⟩ := kept_task hu hk'
    exact ⟨t, ht, t', ht', he.symm, he'.symm, i, o, i', o', hp, hp',
      (conn_iff hu r i i').1 (conn_trans hc (conn_symm hc'))⟩

/-- Tasks that compete are in one bag, as far as this is true: two transfers through the same router whose links are tied
together (in particular two that use the same link) are in the same bag, provided none of them is the one that ties two
groups, when it comes. The claim without this condition is false: `C116_lost`. -/
theorem C116_together_partial (n : NoC.Net) (tasks : List Overlap.Task) (res : List (List Nat))
    (h : overlaps n tasks = some res) (pre post pre' post' : List Overlap.Task) (t t' : Overlap.Task) (r i o i' o' : Int)
    (he : tasks = pre ++ t :: post) (he' : tasks = pre' ++ t' :: post')
    (hp : Passes n tasks t r i o) (hp' : Passes n tasks t' r i' o') (hc : Tied n tasks tasks r i i')
    (hk : ¬ TiesTwoGroups n tasks pre r i o) (hk' : ¬ TiesTwoGroups n tasks pre' r i' o') :
    ∃ bag ∈ res, t.id ∈ bag ∧ t'.id ∈ bag := by
  obtain ⟨u, hu, hr⟩ := overlaps_some h
  have k1 := kept_of hu he hp hk
  have k2 := kept_of hu he' hp' hk'
  have hm : r ∈ routers u := mem_routers.2 ⟨(i, o, t.id), mem_entriesOf.1 ((mem_entries hu r i o _).2
    ⟨t, by rw [he]; simp, hp, rfl⟩)⟩
  obtain ⟨bs, hbs, hall⟩ := (mapM_flat _ _ _ hr).1 r hm
  unfold routerBags at hbs
  dsimp only at hbs
  split at hbs
  swap
  · cases hbs
  obtain ⟨s, reps, sets, h1, h2, _, h4, _, h6⟩ := C51_groups_partial (entriesOf u r)
  rw [h1] at hbs
  have hbs : getall s = some bs := hbs
  rw [h2] at hbs
  cases hbs
  obtain ⟨t0, ht0, hct⟩ := h4 i (kept_seen k1).1
  obtain ⟨bag, hbag, hw⟩ := forall2_mem_left h6 t0 ht0
  exact ⟨bag, hall bag hbag, (hw _).2 ⟨i, o, k1, hct⟩,
    (hw _).2 ⟨i', o', k2, conn_trans (conn_symm ((conn_iff hu r i i').2 hc)) hct⟩⟩

/-- Two tasks that use the same input link, or the same output link, have tied links. -/
theorem C116_same_link (n : NoC.Net) (tasks : List Overlap.Task) (t t' : Overlap.Task) (ht : t ∈ tasks) (ht' : t' ∈ tasks)
    (r i o i' o' : Int) (hp : Passes n tasks t r i o) (hp' : Passes n tasks t' r i' o') (hs : i = i' ∨ o = o') :
    Tied n tasks tasks r i i' := by
  rcases hs with rfl | rfl
  · exact Relation.EqvGen.refl _
  · exact Relation.EqvGen.trans _ _ _ (Relation.EqvGen.rel _ _ ⟨t, ht, hp⟩)
      (Relation.EqvGen.symm _ _ (Relation.EqvGen.rel _ _ ⟨t', ht', hp'⟩))

namespace Overlap

theorem mapM_total {α β : Type} (f : α → Option β) : ∀ (l : List α), (∀ a ∈ l, ∃ b, f a = some b) → ∃ bs, l.mapM f = some bs
  | [], _ => ⟨[], rfl⟩
  | a :: l, h => by
    obtain ⟨b, hb⟩ := h a List.mem_cons_self
    obtain ⟨bs, hbs⟩ := mapM_total f l fun x hx => h x (List.mem_cons_of_mem _ hx)
    exact ⟨b :: bs, by rw [List.mapM_cons, hb, hbs]; rfl⟩

theorem hasLink_iff {n : NoC.Net} {x : Int} : hasLink n x = true ↔ ∃ l ∈ n.links, l.id = x := by
  unfold hasLink; simp

theorem hasNode_iff {n : NoC.Net} {x : Int} : hasNode n x = true ↔ ∃ l ∈ n.nodes, l.id = x := by
  unfold hasNode; simp

theorem linkById_eq {n : NoC.Net} {tasks : List Task} (hM : Modelled n tasks) {l : NoC.Link} (hl : l ∈ n.links) :
    linkById n l.id = some l := by
  unfold linkById
  cases h : n.links.find? fun k => k.id == l.id with
  | none => exact absurd (List.find?_eq_none.1 h l hl) (by simp)
  | some k =>
    have h1 := List.mem_of_find?_eq_some h
    have h2 := List.find?_some h
    rw [hM.linkIds k h1 l hl (by simpa using h2)]

theorem useOf_total {n : NoC.Net} {tasks : List Task} (hM : Modelled n tasks) (t : Task) (ht : t ∈ tasks) :
    ∃ l, useOf n tasks t = some l := by
  obtain ⟨h0, hx⟩ := hM.mapped t ht
  unfold useOf
  rw [if_neg (by omega)]
  have hxor : xor (hasLink n t.mapping) (hasNode n t.mapping) = true := by
    rcases hx with ⟨l, hl, he⟩ | ⟨v, hv, he⟩
    · rw [hasLink_iff.2 ⟨l, hl, he⟩]
      have : hasNode n t.mapping = false := by
        by_contra hc
        rw [Bool.not_eq_false] at hc
        obtain ⟨v, hv, he'⟩ := hasNode_iff.1 hc
        exact hM.ids l hl v hv (he.trans he'.symm)
      rw [this]; rfl
    · rw [hasNode_iff.2 ⟨v, hv, he⟩]
      have : hasLink n t.mapping = false := by
        by_contra hc
        rw [Bool.not_eq_false] at hc
        obtain ⟨l, hl, he'⟩ := hasLink_iff.1 hc
        exact hM.ids l hl v hv (he'.trans he.symm)
      rw [this]; rfl
  rw [if_neg (by rw [hxor]; simp)]
  split
  · exact ⟨_, rfl⟩
  · rename_i hl
    rw [Bool.not_eq_true] at hl
    rw [hl] at hxor
    obtain ⟨v, hv, he⟩ := hasNode_iff.1 (by simpa using hxor)
    cases hg : NoC.getNode n t.mapping with
    | none =>
      unfold NoC.getNode at hg
      exact absurd (List.find?_eq_none.1 hg v hv) (by simp [he])
    | some w =>
      dsimp only
      split
      · rename_i hr
        unfold NoC.getNode at hg
        have h1 := List.mem_of_find?_eq_some hg
        have h2 := List.find?_some hg
        obtain ⟨a, ta, b, tb, e1, e2, e3, e4, ⟨la, hla, ea, _⟩, ⟨lb, hlb, eb, _⟩⟩ :=
          hM.routed t ht w h1 (by simpa using h2) hr
        refine ⟨[(t.mapping, ta.mapping, tb.mapping, t.id)], ?_⟩
        unfold routerUse
        rw [e1, e3]
        dsimp only
        rw [e2, e4]
        dsimp only
        rw [hasLink_iff.2 ⟨la, hla, ea⟩, hasLink_iff.2 ⟨lb, hlb, eb⟩]
        rfl
      · exact ⟨_, rfl⟩

end Overlap

/-- For graphs in which the communications are modelled by links and routers, no assertion fails and there is a result. -/
theorem C116_defined (n : NoC.Net) (tasks : List Overlap.Task) (hM : Modelled n tasks) :
    ∃ res, overlaps n tasks = some res := by
  obtain ⟨us, hus⟩ := mapM_total _ tasks fun t ht => useOf_total hM t ht
  have hu : useAll n tasks tasks = some us.flatten := by unfold useAll; rw [hus]; rfl
  have hb : ∀ r ∈ routers us.flatten, ∃ bs, routerBags n us.flatten r = some bs := by
    intro r _
    unfold routerBags
    dsimp only
    rw [if_pos]
    · obtain ⟨s, reps, sets, h1, h2, _⟩ := C51_groups_partial (entriesOf us.flatten r)
      exact ⟨sets, by rw [h1]; exact h2⟩
    · rw [List.all_eq_true]
      rintro ⟨i, o, w⟩ hc
      obtain ⟨t, ht, hp, _⟩ := (mem_entries hu r i o w).1 hc
      obtain ⟨e0, ⟨v, hv, hr⟩, ⟨a, ta, e1, e2, e3⟩, ⟨b, tb, e4, e5, e6⟩⟩ := hp
      unfold NoC.getNode at hv
      have h1 := List.mem_of_find?_eq_some hv
      have h2 := List.find?_some hv
      obtain ⟨a', ta', b', tb', f1, f2, f3, f4, ⟨la, hla, ea, ea'⟩, ⟨lb, hlb, eb, eb'⟩⟩ :=
        hM.routed t ht v h1 (by rw [e0]; simpa using h2) hr
      rw [e1] at f1; cases f1
      rw [e4] at f3; cases f3
      rw [e2] at f2; cases f2
      rw [e5] at f4; cases f4
      unfold entryOk
      dsimp only
      rw [← e3, ← e6, ← ea, ← eb, linkById_eq hM hla, linkById_eq hM hlb]
      simp [ea', eb', e0]
  obtain ⟨bss, hbss⟩ := mapM_total _ _ hb
  refine ⟨bss.flatten, ?_⟩
  unfold overlaps
  have : usage n tasks = some us.flatten := hu
  rw [this]
  simp only [Option.bind_some]
  rw [hbss]
  rfl

namespace OverlapExample

/-- Three tasks on the cores of routers 0, 1 and 2 of a 2 × 2 mesh, which send to each other along the routes that
`xyRouting` gives: 0 → 1, 1 → 2 (through router 0) and 0 → 2. -/
def mesh : NoC.Net := NoC.generate 2 2

example : NoC.xyRoute mesh 10 4 5 = some [40, 9, 21] ∧ NoC.xyRoute mesh 10 5 6 = some [49, 16, 10, 30] ∧
    NoC.xyRoute mesh 10 4 6 = some [40, 10, 30] := by decide +kernel

/-- The tasks after `ModelNoCConflictFreeCommunication`. The ids are 1, 2, … -/
def tasks : List Overlap.Task :=
  [⟨1, 4, [], [3, 15]⟩, ⟨2, 5, [7], [8]⟩, ⟨3, 6, [14, 19], []⟩,
    ⟨4, 40, [0], [4]⟩, ⟨5, 0, [3], [5]⟩, ⟨6, 9, [4], [6]⟩, ⟨7, 1, [5], [7]⟩, ⟨8, 21, [6], [1]⟩,
    ⟨9, 49, [1], [9]⟩, ⟨10, 1, [8], [10]⟩, ⟨11, 16, [9], [11]⟩, ⟨12, 0, [10], [12]⟩, ⟨13, 10, [11], [13]⟩,
    ⟨14, 2, [12], [14]⟩, ⟨15, 30, [13], [2]⟩,
    ⟨16, 40, [0], [16]⟩, ⟨17, 0, [15], [17]⟩, ⟨18, 10, [16], [18]⟩, ⟨19, 2, [17], [19]⟩, ⟨20, 30, [18], [2]⟩]

/-- The code loses a task. The transfers 5, 12 and 17 go through router 0; 17 uses the input link of 5 and the output link of
12. The transfer 17 is in no bag, so it is not put in sequence with the two it competes with. -/
theorem C116_lost : overlaps mesh tasks = some [[5, 12], [7], [10], [14, 19]] := by decide +kernel

example : Modelled mesh tasks := by
  refine ⟨?_, ?_, ?_, ?_⟩
  · decide +kernel
  · decide +kernel
  · decide +kernel
  · have key : ∀ t ∈ tasks, ∀ v ∈ mesh.nodes, v.id = t.mapping → v.router = true →
        ∃ a ∈ List.range 20, ∃ b ∈ List.range 20, t.ins = [a] ∧ t.outs = [b] ∧
          (tasks[a]?.any fun ta => mesh.links.any fun l => l.id == ta.mapping && l.dst == t.mapping) = true ∧
          (tasks[b]?.any fun tb => mesh.links.any fun l => l.id == tb.mapping && l.src == t.mapping) = true := by
      decide +kernel
    intro t ht v hv h1 h2
    obtain ⟨a, _, b, _, e1, e2, e3, e4⟩ := key t ht v hv h1 h2
    cases ha : tasks[a]? with
    | none => rw [ha] at e3; cases e3
    | some ta =>
      cases hb : tasks[b]? with
      | none => rw [hb] at e4; cases e4
      | some tb =>
        rw [ha] at e3; rw [hb] at e4
        simp only [Option.any_some, List.any_eq_true, Bool.and_eq_true, beq_iff_eq] at e3 e4
        exact ⟨a, ta, b, tb, e1, ha, e2, hb, e3, e4⟩

/-- The competition of 5 and 17 is real. -/
example : Passes mesh tasks ⟨5, 0, [3], [5]⟩ 0 40 9 ∧ Passes mesh tasks ⟨17, 0, [15], [17]⟩ 0 40 10 :=
  ⟨⟨rfl, ⟨⟨0, true, 1/2, 1/2⟩, by decide +kernel, rfl⟩, ⟨3, ⟨4, 40, [0], [4]⟩, rfl, rfl, rfl⟩,
    ⟨5, ⟨6, 9, [4], [6]⟩, rfl, rfl, rfl⟩⟩,
   ⟨rfl, ⟨⟨0, true, 1/2, 1/2⟩, by decide +kernel, rfl⟩, ⟨15, ⟨16, 40, [0], [16]⟩, rfl, rfl, rfl⟩,
    ⟨17, ⟨18, 10, [16], [18]⟩, rfl, rfl, rfl⟩⟩⟩

theorem passes14 : Passes mesh tasks ⟨14, 2, [12], [14]⟩ 2 10 30 :=
  ⟨rfl, ⟨⟨2, true, 1/2, 3/2⟩, by decide +kernel, rfl⟩, ⟨12, ⟨13, 10, [11], [13]⟩, rfl, rfl, rfl⟩,
    ⟨14, ⟨15, 30, [13], [2]⟩, rfl, rfl, rfl⟩⟩

theorem passes19 : Passes mesh tasks ⟨19, 2, [17], [19]⟩ 2 10 30 :=
  ⟨rfl, ⟨⟨2, true, 1/2, 3/2⟩, by decide +kernel, rfl⟩, ⟨17, ⟨18, 10, [16], [18]⟩, rfl, rfl, rfl⟩,
    ⟨19, ⟨20, 30, [18], [2]⟩, rfl, rfl, rfl⟩⟩

/-- A case that meets the hypotheses of `C116_together_partial`: 14 and 19 use the same links of router 2. When 14 comes no
link of the router is in use, when 19 comes 14 ties them. -/
example : ∃ bag ∈ [[5, 12], [7], [10], [14, 19]], (14 : Nat) ∈ bag ∧ 19 ∈ bag :=
  C116_together_partial mesh tasks _ C116_lost (tasks.take 13) (tasks.drop 14) (tasks.take 18) (tasks.drop 19)
    ⟨14, 2, [12], [14]⟩ ⟨19, 2, [17], [19]⟩ 2 10 30 10 30 rfl rfl passes14 passes19 (Relation.EqvGen.refl _)
    (by
      rintro ⟨⟨t, ht, i, o, hp, _⟩, _⟩
      have : ∀ t ∈ tasks.take 13, t.mapping ≠ 2 := by decide
      exact this t ht hp.at_)
    (fun h => h.2.2 (Relation.EqvGen.rel _ _ ⟨⟨14, 2, [12], [14]⟩, by decide, passes14⟩))

end OverlapExample

end Kiter
