/-
The storage dependencies: what is recorded, what the components are, and the replay of a period.
-/
import Verif.Model.StorageDeps
import Verif.Lemmas.SelfTimed
import Verif.Props.SCC
import Mathlib.Data.Fintype.Card

set_option autoImplicit false

namespace Kiter.Sim
open Finset

variable {nV nE : Nat} {g : Graph nV nE} {cap : Option (Fin nE → Int)}

/-! ### Recorded dependencies -/

theorem Dep.add_iff (d : Dep nV) (v1 v2 a b : Fin nV) : d.add v1 v2 a b = true ↔ (a = v1 ∧ b = v2) ∨ d a b = true := by
  unfold Dep.add; split <;> simp_all

theorem fold_add (P : Fin nE → Prop) [DecidablePred P] (x y : Fin nE → Fin nV) (l : List (Fin nE)) (d : Dep nV) (a b : Fin nV) :
    l.foldl (fun (d : Dep nV) e => if P e then d.add (x e) (y e) else d) d a b = true ↔
      d a b = true ∨ ∃ e ∈ l, P e ∧ a = x e ∧ b = y e := by
  induction l generalizing d with
  | nil => simp
  | cons e l ih =>
    rw [List.foldl_cons, ih]
    by_cases hP : P e
    · simp only [hP, if_true, Dep.add_iff, List.mem_cons]
      constructor
      · rintro ((h | h) | ⟨f, hf, h⟩)
        · exact .inr ⟨e, .inl rfl, hP, h⟩
        · exact .inl h
        · exact .inr ⟨f, .inr hf, h⟩
      · rintro (h | ⟨f, rfl | hf, h⟩)
        · exact .inl (.inr h)
        · exact .inl (.inl h.2)
        · exact .inr ⟨f, hf, h⟩
    · simp only [hP, if_false, List.mem_cons]
      constructor
      · rintro (h | ⟨f, hf, h⟩)
        · exact .inl h
        · exact .inr ⟨f, .inr hf, h⟩
      · rintro (h | ⟨f, rfl | hf, h⟩)
        · exact .inl h
        · exact absurd h.1 hP
        · exact .inr ⟨f, hf, h⟩

theorem causalDeps_iff (g : Graph nV nE) (acts : Fin nV → Act) (prev : (Fin nE → Int) × (Fin nE → Int)) (t : Fin nV)
    (d : Dep nV) (a b : Fin nV) : causalDeps g acts prev t d a b = true ↔ d a b = true ∨
      (a = t ∧ ∃ e, (g.tgt e = t ∧ g.src e = b ∧ prev.1 e < execRate g acts t e) ∨
        (g.src e = t ∧ g.tgt e = b ∧ prev.2 e < execRate g acts t e)) := by
  unfold causalDeps
  rw [fold_add (fun e => g.src e = t ∧ prev.2 e < execRate g acts t e),
    fold_add (fun e => g.tgt e = t ∧ prev.1 e < execRate g acts t e)]
  constructor
  · rintro ((h | ⟨e, -, ⟨h1, h2⟩, h3, h4⟩) | ⟨e, -, ⟨h1, h2⟩, h3, h4⟩)
    · exact .inl h
    · exact .inr ⟨h3.trans h1, e, .inl ⟨h1, h4.symm, h2⟩⟩
    · exact .inr ⟨h3.trans h1, e, .inr ⟨h1, h4.symm, h2⟩⟩
  · rintro (h | ⟨rfl, e, ⟨h1, h2, h3⟩ | ⟨h1, h2, h3⟩⟩)
    · exact .inl (.inl h)
    · exact .inl (.inr ⟨e, List.mem_finRange e, ⟨h1, h3⟩, h1.symm, h2.symm⟩)
    · exact .inr ⟨e, List.mem_finRange e, ⟨h1, h3⟩, h1.symm, h2.symm⟩

theorem deadlockDeps_iff (g : Graph nV nE) (acts : Fin nV → Act) (s : St nV nE) (a b : Fin nV) :
    deadlockDeps g acts s a b = true ↔ ∃ e, (g.tgt e = a ∧ g.src e = b ∧ s.tokens e < execRate g acts a e) ∨
      (g.src e = a ∧ g.tgt e = b ∧ s.space e < execRate g acts a e) := by
  have key : ∀ (l : List (Fin nE)) (d : Dep nV), l.foldl (fun (d : Dep nV) e =>
      let d1 := if s.tokens e < execRate g acts (g.tgt e) e then d.add (g.tgt e) (g.src e) else d
      if s.space e < execRate g acts (g.src e) e then d1.add (g.src e) (g.tgt e) else d1) d a b = true ↔
      d a b = true ∨ ∃ e ∈ l, (g.tgt e = a ∧ g.src e = b ∧ s.tokens e < execRate g acts a e) ∨
      (g.src e = a ∧ g.tgt e = b ∧ s.space e < execRate g acts a e) := by
    intro l
    induction l with
    | nil => simp
    | cons e l ih =>
      intro d
      rw [List.foldl_cons, ih]
      have h1 : (let d1 := if s.tokens e < execRate g acts (g.tgt e) e then d.add (g.tgt e) (g.src e) else d
          if s.space e < execRate g acts (g.src e) e then d1.add (g.src e) (g.tgt e) else d1) a b = true ↔
          d a b = true ∨ (g.tgt e = a ∧ g.src e = b ∧ s.tokens e < execRate g acts a e) ∨
          (g.src e = a ∧ g.tgt e = b ∧ s.space e < execRate g acts a e) := by
        by_cases h1 : s.tokens e < execRate g acts (g.tgt e) e <;> by_cases h2 : s.space e < execRate g acts (g.src e) e
        · simp only [h1, h2, if_true, Dep.add_iff]
          constructor
          · rintro (⟨rfl, rfl⟩ | ⟨rfl, rfl⟩ | h)
            · exact .inr (.inr ⟨rfl, rfl, h2⟩)
            · exact .inr (.inl ⟨rfl, rfl, h1⟩)
            · exact .inl h
          · rintro (h | ⟨rfl, rfl, h⟩ | ⟨rfl, rfl, h⟩)
            · exact .inr (.inr h)
            · exact .inr (.inl ⟨rfl, rfl⟩)
            · exact .inl ⟨rfl, rfl⟩
        · simp only [h1, h2, if_true, if_false, Dep.add_iff]
          constructor
          · rintro (⟨rfl, rfl⟩ | h)
            · exact .inr (.inl ⟨rfl, rfl, h1⟩)
            · exact .inl h
          · rintro (h | ⟨rfl, rfl, h⟩ | ⟨rfl, rfl, h⟩)
            · exact .inr h
            · exact .inl ⟨rfl, rfl⟩
            · exact absurd h h2
        · simp only [h1, h2, if_true, if_false, Dep.add_iff]
          constructor
          · rintro (⟨rfl, rfl⟩ | h)
            · exact .inr (.inr ⟨rfl, rfl, h2⟩)
            · exact .inl h
          · rintro (h | ⟨rfl, rfl, h⟩ | ⟨rfl, rfl, h⟩)
            · exact .inr h
            · exact absurd h h1
            · exact .inl ⟨rfl, rfl⟩
        · simp only [h1, h2, if_false]
          constructor
          · exact .inl
          · rintro (h | ⟨rfl, rfl, h⟩ | ⟨rfl, rfl, h⟩)
            · exact h
            · exact absurd h h1
            · exact absurd h h2
      rw [h1]
      simp only [List.mem_cons]
      constructor
      · rintro ((h | h) | ⟨f, hf, h⟩)
        · exact .inl h
        · exact .inr ⟨e, .inl rfl, h⟩
        · exact .inr ⟨f, .inr hf, h⟩
      · rintro (h | ⟨f, rfl | hf, h⟩)
        · exact .inl (.inl h)
        · exact .inl (.inr h)
        · exact .inr ⟨f, hf, h⟩
  unfold deadlockDeps
  rw [key]
  simp [Dep.empty]

/-! ### Components of the abstract dependency graph -/

/-- `b` is reached from `a` along recorded dependencies. -/
def Dep.Reach (d : Dep nV) : Fin nV → Fin nV → Prop := Relation.ReflTransGen fun a b => d a b = true

theorem mem_byId (id : Fin nV → Int) (a : Fin nV) : a ∈ byId id := by
  unfold byId
  rw [List.mem_insertionSort]; exact List.mem_finRange a

theorem byId_nodup (id : Fin nV → Int) : (byId id).Nodup := by
  unfold byId
  exact (List.perm_insertionSort _ _).nodup_iff.2 (List.nodup_finRange nV)

theorem depGraph_edge {id : Fin nV → Int} (hid : Function.Injective id) (d : Dep nV) (a b : Fin nV) :
    (id a, id b) ∈ (depGraph id d).edges ↔ d a b = true := by
  unfold depGraph
  simp only [List.mem_flatMap, List.mem_map, List.mem_filter, Prod.mk.injEq]
  constructor
  · rintro ⟨v, -, w, ⟨-, h⟩, h1, h2⟩
    rw [← hid h1, ← hid h2]; exact h
  · intro h; exact ⟨a, mem_byId id a, b, ⟨mem_byId id b, h⟩, rfl, rfl⟩

theorem depGraph_valid {id : Fin nV → Int} (hid : Function.Injective id) (d : Dep nV) : SCC.Valid (depGraph id d) := by
  refine ⟨(byId_nodup id).map hid, fun e he => ?_⟩
  unfold depGraph at he ⊢
  simp only [List.mem_flatMap, List.mem_map, List.mem_filter] at he
  obtain ⟨v, hv, w, ⟨hw, -⟩, rfl⟩ := he
  exact ⟨List.mem_map.2 ⟨v, hv, rfl⟩, List.mem_map.2 ⟨w, hw, rfl⟩⟩

theorem depGraph_reach {id : Fin nV → Int} (hid : Function.Injective id) (d : Dep nV) (a b : Fin nV) :
    SCC.Reach (depGraph id d) (id a) (id b) ↔ d.Reach a b := by
  constructor
  · intro h
    have key : ∀ y, SCC.Reach (depGraph id d) (id a) y → ∃ c, y = id c ∧ d.Reach a c := by
      intro y hy
      induction hy with
      | refl => exact ⟨a, rfl, .refl⟩
      | tail _ h1 ih =>
        obtain ⟨c, rfl, hc⟩ := ih
        have := (depGraph_valid hid d).2 _ h1
        obtain ⟨w, -, hw⟩ := List.mem_map.1 this.2
        simp only at hw
        subst hw
        exact ⟨w, rfl, hc.tail ((depGraph_edge hid d c w).1 h1)⟩
    obtain ⟨c, h1, h2⟩ := key _ h
    rw [hid h1]; exact h2
  · intro h
    induction h with
    | refl => exact .refl
    | tail _ h1 ih => exact ih.tail ((depGraph_edge hid d _ _).2 h1)

/-- Exactly the channels whose source depends on their target along a cycle of dependencies. -/
theorem storageDepsSCC_spec (g : Graph nV nE) {id : Fin nV → Int} (hid : Function.Injective id) (d : Dep nV) :
    ∃ R, storageDepsSCC g id d = some R ∧ R.Nodup ∧
      ∀ e, e ∈ R ↔ d (g.src e) (g.tgt e) = true ∧ d.Reach (g.tgt e) (g.src e) := by
  obtain ⟨cs, h1, h2, -, h4⟩ := C43_exact _ (depGraph_valid hid d)
  refine ⟨_, by unfold storageDepsSCC; rw [h1]; rfl, (List.nodup_finRange nE).filter _, fun e => ?_⟩
  simp only [List.mem_filter, List.mem_finRange, true_and, Bool.and_eq_true, List.any_eq_true, decide_eq_true_eq]
  constructor
  · rintro ⟨h, c, hc, hs, ht⟩
    exact ⟨h, (depGraph_reach hid d _ _).1 ((h4 c hc _ ht _).1 hs).1⟩
  · rintro ⟨h, hr⟩
    refine ⟨h, ?_⟩
    have hmem : id (g.src e) ∈ cs.flatten := h2.mem_iff.2 (List.mem_map.2 ⟨_, mem_byId id _, rfl⟩)
    obtain ⟨c, hc, hs⟩ := List.mem_flatten.1 hmem
    refine ⟨c, hc, hs, (h4 c hc _ hs _).2 ⟨?_, ?_⟩⟩
    · exact (depGraph_reach hid d _ _).2 (.single h)
    · exact (depGraph_reach hid d _ _).2 hr

/-- Some vertex can be reached again from everything it reaches. -/
theorem exists_terminal (d : Dep nV) (v : Fin nV) : ∃ a, ∀ b, d.Reach a b → d.Reach b a := by
  classical
  obtain ⟨a, -, ha⟩ := Finset.exists_min_image (Finset.univ : Finset (Fin nV))
    (fun a => (Finset.univ.filter fun b => d.Reach a b).card) ⟨v, Finset.mem_univ v⟩
  refine ⟨a, fun b hab => ?_⟩
  have hsub : (Finset.univ.filter fun c => d.Reach b c) ⊆ (Finset.univ.filter fun c => d.Reach a c) := by
    intro c hc
    simp only [Finset.mem_filter, Finset.mem_univ, true_and] at hc ⊢
    exact hab.trans hc
  have := Finset.eq_of_subset_of_card_le hsub (ha b (Finset.mem_univ b))
  have hm : a ∈ (Finset.univ.filter fun c => d.Reach b c) := by
    rw [this]; simp only [Finset.mem_filter, Finset.mem_univ, true_and]; exact .refl
  simpa using hm

end Kiter.Sim
