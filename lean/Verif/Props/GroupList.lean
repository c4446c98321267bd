/-
Property C51: the grouping helper.
-/
import Verif.Model.GroupList
import Mathlib.Logic.Relation
import Mathlib.Data.List.Nodup
import Mathlib.Tactic.Tauto
import Mathlib.Data.List.Induction

set_option autoImplicit false
set_option linter.unusedSectionVars false

namespace Kiter

namespace GroupList

variable {T R : Type}

/-- Two elements are connected by the pairs of a history of calls. -/
def Conn (h : List (T × T × R)) : T → T → Prop := Relation.EqvGen fun a b => ∃ v, (a, b, v) ∈ h

/-- The element occurs in a call. -/
def Seen (h : List (T × T × R)) (t : T) : Prop := ∃ c ∈ h, t = c.1 ∨ t = c.2.1

/-- The call joins two groups that existed before and were distinct. -/
def Joins (h : List (T × T × R)) (c : T × T × R) : Prop :=
  Seen h c.1 ∧ Seen h c.2.1 ∧ ¬ Conn h c.1 c.2.1

/-- The call `c` was made, at a moment at which it did not join two existing groups. -/
def Kept (h : List (T × T × R)) (c : T × T × R) : Prop :=
  ∃ pre post, h = pre ++ c :: post ∧ ¬ Joins pre c

/-! ### Histories -/

theorem conn_refl (h : List (T × T × R)) (a : T) : Conn h a a := Relation.EqvGen.refl a

theorem conn_symm {h : List (T × T × R)} {a b : T} (x : Conn h a b) : Conn h b a := x.symm

theorem conn_trans {h : List (T × T × R)} {a b c : T} (x : Conn h a b) (y : Conn h b c) :
    Conn h a c := x.trans _ _ _ y

theorem conn_mono {h : List (T × T × R)} {c : T × T × R} {a b : T} (x : Conn h a b) :
    Conn (h ++ [c]) a b := by
  induction x with
  | rel a b x =>
    obtain ⟨v, hv⟩ := x
    exact Relation.EqvGen.rel _ _ ⟨v, List.mem_append_left _ hv⟩
  | refl a => exact conn_refl _ _
  | symm a b _ ih => exact conn_symm ih
  | trans a b c _ _ ih1 ih2 => exact conn_trans ih1 ih2

theorem conn_snoc {h : List (T × T × R)} {l r : T} {v : R} {a b : T} :
    Conn (h ++ [(l, r, v)]) a b ↔
      Conn h a b ∨ (Conn h a l ∧ Conn h r b) ∨ (Conn h a r ∧ Conn h l b) := by
  constructor
  · intro x
    induction x with
    | rel a b x =>
      obtain ⟨w, hw⟩ := x
      rcases List.mem_append.1 hw with hw | hw
      · exact Or.inl (Relation.EqvGen.rel _ _ ⟨w, hw⟩)
      · simp at hw
        obtain ⟨rfl, rfl, rfl⟩ := hw
        exact Or.inr (Or.inl ⟨conn_refl _ _, conn_refl _ _⟩)
    | refl a => exact Or.inl (conn_refl _ _)
    | symm a b _ ih =>
      rcases ih with x | ⟨x, y⟩ | ⟨x, y⟩
      · exact Or.inl (conn_symm x)
      · exact Or.inr (Or.inr ⟨conn_symm y, conn_symm x⟩)
      · exact Or.inr (Or.inl ⟨conn_symm y, conn_symm x⟩)
    | trans a b c _ _ ih1 ih2 =>
      rcases ih1 with x | ⟨x, y⟩ | ⟨x, y⟩ <;> rcases ih2 with z | ⟨z, w⟩ | ⟨z, w⟩
      · exact Or.inl (conn_trans x z)
      · exact Or.inr (Or.inl ⟨conn_trans x z, w⟩)
      · exact Or.inr (Or.inr ⟨conn_trans x z, w⟩)
      · exact Or.inr (Or.inl ⟨x, conn_trans y z⟩)
      · exact Or.inr (Or.inl ⟨x, w⟩)
      · exact Or.inl (conn_trans x w)
      · exact Or.inr (Or.inr ⟨x, conn_trans y z⟩)
      · exact Or.inl (conn_trans x w)
      · exact Or.inr (Or.inr ⟨x, w⟩)
  · have hlr : Conn (h ++ [(l, r, v)]) l r :=
      Relation.EqvGen.rel _ _ ⟨v, List.mem_append_right _ List.mem_cons_self⟩
    rintro (x | ⟨x, y⟩ | ⟨x, y⟩)
    · exact conn_mono x
    · exact conn_trans (conn_mono x) (conn_trans hlr (conn_mono y))
    · exact conn_trans (conn_mono x) (conn_trans (conn_symm hlr) (conn_mono y))

theorem seen_snoc {h : List (T × T × R)} {c : T × T × R} {t : T} :
    Seen (h ++ [c]) t ↔ Seen h t ∨ t = c.1 ∨ t = c.2.1 := by
  unfold Seen
  constructor
  · rintro ⟨d, hd, x⟩
    rcases List.mem_append.1 hd with hd | hd
    · exact Or.inl ⟨d, hd, x⟩
    · simp at hd
      subst hd
      exact Or.inr x
  · rintro (⟨d, hd, x⟩ | x)
    · exact ⟨d, List.mem_append_left _ hd, x⟩
    · exact ⟨c, by simp, x⟩

theorem conn_seen {h : List (T × T × R)} {a b : T} (x : Conn h a b) :
    a = b ∨ (Seen h a ∧ Seen h b) := by
  induction x with
  | rel a b x =>
    obtain ⟨v, hv⟩ := x
    exact Or.inr ⟨⟨_, hv, Or.inl rfl⟩, ⟨_, hv, Or.inr rfl⟩⟩
  | refl a => exact Or.inl rfl
  | symm a b _ ih => rcases ih with rfl | ⟨x, y⟩ <;> simp [*]
  | trans a b c _ _ ih1 ih2 =>
    rcases ih1 with rfl | ⟨x, y⟩ <;> rcases ih2 with rfl | ⟨z, w⟩ <;> simp [*]

theorem kept_snoc {h : List (T × T × R)} {c d : T × T × R} :
    Kept (h ++ [c]) d ↔ Kept h d ∨ (d = c ∧ ¬ Joins h c) := by
  constructor
  · rintro ⟨pre, post, he, hk⟩
    rcases List.eq_nil_or_concat post with rfl | ⟨post', x, rfl⟩
    · have := List.append_inj' he rfl
      obtain ⟨rfl, h2⟩ := this
      cases h2
      exact Or.inr ⟨rfl, hk⟩
    · rw [List.concat_eq_append, ← List.cons_append, ← List.append_assoc] at he
      have := List.append_inj' he rfl
      exact Or.inl ⟨pre, post', this.1, hk⟩
  · rintro (⟨pre, post, he, hk⟩ | ⟨rfl, hk⟩)
    · exact ⟨pre, post ++ [c], by rw [he]; simp, hk⟩
    · exact ⟨h, [], by simp, hk⟩

/-! ### Invariant -/

variable [DecidableEq T] [DecidableEq R]

/-- The state represents the keys `K`, the equivalence `E` and the contents `B`. -/
structure Inv (s : St T R) (K : T → Prop) (E : T → T → Prop) (B : T → R → Prop) : Prop where
  nodup : s.keys.Nodup
  keys : ∀ t, t ∈ s.keys ↔ K t
  comp : ∀ a b, K a → K b → (s.comp a = s.comp b ↔ E a b)
  val : ∀ a b, K a → K b → (s.val a = s.val b ↔ E a b)
  rep : ∀ a, K a → K (s.comp a) ∧ E a (s.comp a)
  bag : ∀ a, K a → ∃ l, s.bags (s.val a) = some l ∧ ∀ w, w ∈ l ↔ B a w
  lt : ∀ a, K a → s.val a < s.next
  cont : ∀ a w, B a w → K a
  out : ∀ a b, E a b → a = b ∨ (K a ∧ K b)
  refl : ∀ a, E a a
  symm : ∀ a b, E a b → E b a
  trans : ∀ a b c, E a b → E b c → E a c

theorem inv_ensure {s : St T R} {K : T → Prop} {E : T → T → Prop} {B : T → R → Prop}
    (hi : Inv s K E B) (t : T) (v : R) :
    Inv (ensure s t v) (fun a => K a ∨ a = t) E (fun a w => B a w ∨ (¬ K t ∧ a = t ∧ w = v)) := by
  unfold ensure
  by_cases ht : t ∈ s.keys
  · rw [if_pos ht]
    have hK := (hi.keys t).1 ht
    have e1 : (fun a => K a ∨ a = t) = K := by
      funext a
      apply propext
      constructor
      · rintro (h | rfl)
        · exact h
        · exact hK
      · exact Or.inl
    have e2 : (fun a w => B a w ∨ (¬ K t ∧ a = t ∧ w = v)) = B := by
      funext a w
      simp [hK]
    rw [e1, e2]
    exact hi
  · rw [if_neg ht]
    have hK : ¬ K t := fun h => ht ((hi.keys t).2 h)
    have hne : ∀ a, K a → a ≠ t := by rintro a h rfl; exact hK h
    have hE : ∀ a, K a → ¬ E a t := by
      intro a ha h
      rcases hi.out a t h with rfl | h
      · exact hK ha
      · exact hK h.2
    refine ⟨?_, ?_, ?_, ?_, ?_, ?_, ?_, ?_, ?_, hi.refl, hi.symm, hi.trans⟩
    · refine List.nodup_append.2 ⟨hi.nodup, List.nodup_singleton _, ?_⟩
      intro a ha b hb hab
      simp at hb
      subst hb
      subst hab
      exact ht ha
    · intro a
      simp [hi.keys]
    · rintro a b (ha | rfl) (hb | rfl)
      · simp only [Function.update_of_ne (hne a ha), Function.update_of_ne (hne b hb)]
        exact hi.comp a b ha hb
      · simp only [Function.update_of_ne (hne a ha), Function.update_self]
        refine ⟨fun h => absurd (hi.rep a ha).1 (by rw [h]; exact hK), fun h => absurd h (hE a ha)⟩
      · simp only [Function.update_of_ne (hne b hb), Function.update_self]
        refine ⟨fun h => absurd (hi.rep b hb).1 (by rw [← h]; exact hK),
          fun h => absurd (hi.symm _ _ h) (hE b hb)⟩
      · simp [hi.refl]
    · rintro a b (ha | rfl) (hb | rfl)
      · simp only [Function.update_of_ne (hne a ha), Function.update_of_ne (hne b hb)]
        exact hi.val a b ha hb
      · simp only [Function.update_of_ne (hne a ha), Function.update_self]
        refine ⟨fun h => absurd (hi.lt a ha) (by omega), fun h => absurd h (hE a ha)⟩
      · simp only [Function.update_of_ne (hne b hb), Function.update_self]
        refine ⟨fun h => absurd (hi.lt b hb) (by omega),
          fun h => absurd (hi.symm _ _ h) (hE b hb)⟩
      · simp [hi.refl]
    · rintro a (ha | rfl)
      · simp only [Function.update_of_ne (hne a ha)]
        exact ⟨Or.inl (hi.rep a ha).1, (hi.rep a ha).2⟩
      · simp only [Function.update_self]
        exact ⟨Or.inr trivial, hi.refl _⟩
    · rintro a (ha | rfl)
      · have hv := hi.lt a ha
        simp only [Function.update_of_ne (hne a ha), Function.update_of_ne (show s.val a ≠ s.next by omega)]
        obtain ⟨l, h1, h2⟩ := hi.bag a ha
        refine ⟨l, h1, ?_⟩
        intro w
        rw [h2]
        constructor
        · exact Or.inl
        · rintro (h | ⟨_, h, _⟩)
          · exact h
          · exact absurd h (hne a ha)
      · simp only [Function.update_self]
        refine ⟨[v], rfl, ?_⟩
        intro w
        constructor
        · intro h
          exact Or.inr ⟨hK, trivial, by simpa using h⟩
        · rintro (h | ⟨_, _, h⟩)
          · exact absurd (hi.cont _ _ h) hK
          · simpa using h
    · rintro a (ha | rfl)
      · simp only [Function.update_of_ne (hne a ha)]
        have := hi.lt a ha
        omega
      · simp
    · rintro a w (h | ⟨_, h, _⟩)
      · exact Or.inl (hi.cont _ _ h)
      · exact Or.inr h
    · intro a b h
      rcases hi.out a b h with h | ⟨h1, h2⟩
      · exact Or.inl h
      · exact Or.inr ⟨Or.inl h1, Or.inl h2⟩

theorem mem_insertSet {l : List R} {v w : R} : w ∈ insertSet l v ↔ w ∈ l ∨ w = v := by
  unfold insertSet
  split
  · rename_i h
    constructor
    · exact Or.inl
    · rintro (h' | rfl)
      · exact h'
      · exact h
  · simp

theorem mem_foldl_insertSet {b l : List R} {w : R} :
    w ∈ b.foldl insertSet l ↔ w ∈ l ∨ w ∈ b := by
  induction b generalizing l with
  | nil => simp
  | cons x b ih =>
    rw [List.foldl_cons, ih, mem_insertSet, List.mem_cons]
    tauto

theorem inv_insertIn {s : St T R} {K : T → Prop} {E : T → T → Prop} {B : T → R → Prop}
    (hi : Inv s K E B) {l : T} (hl : K l) (v : R) :
    ∃ s', insertIn s l v = some s' ∧ Inv s' K E (fun a w => B a w ∨ (E a l ∧ w = v)) := by
  obtain ⟨bl, h1, h2⟩ := hi.bag l hl
  unfold insertIn
  rw [h1]
  refine ⟨_, rfl, hi.nodup, hi.keys, hi.comp, hi.val, hi.rep, ?_, hi.lt, ?_, hi.out, hi.refl, hi.symm,
    hi.trans⟩
  · intro a ha
    by_cases he : E a l
    · have hv := (hi.val a l ha hl).2 he
      simp only [hv, Function.update_self]
      refine ⟨_, rfl, ?_⟩
      intro w
      obtain ⟨ba, h3, h4⟩ := hi.bag a ha
      rw [hv, h1] at h3
      cases h3
      rw [mem_insertSet, h4]
      simp [he]
    · have hv : s.val a ≠ s.val l := fun h => he ((hi.val a l ha hl).1 h)
      simp only [Function.update_of_ne hv]
      obtain ⟨ba, h3, h4⟩ := hi.bag a ha
      refine ⟨ba, h3, ?_⟩
      intro w
      rw [h4]
      simp [he]
  · rintro a w (h | ⟨h, _⟩)
    · exact hi.cont _ _ h
    · rcases hi.out _ _ h with rfl | h
      · exact hl
      · exact h.1

theorem inv_merge {s : St T R} {K : T → Prop} {E : T → T → Prop} {B : T → R → Prop}
    (hi : Inv s K E B) {l r : T} (hl : K l) (hr : K r) (hne : ¬ E l r) :
    ∃ s', merge s l r = some s' ∧
      Inv s' K (fun a b => E a b ∨ (E a l ∧ E r b) ∨ (E a r ∧ E l b))
        (fun a w => B a w ∨ (E a l ∧ B r w) ∨ (E a r ∧ B l w)) := by
  obtain ⟨bl, h1, h2⟩ := hi.bag l hl
  obtain ⟨br, h3, h4⟩ := hi.bag r hr
  unfold merge
  rw [h1, h3]
  have hcl : ∀ a, K a → ((a ∈ s.keys ∧ (s.comp a = s.comp l ∨ s.comp a = s.comp r)) ↔ E a l ∨ E a r) := by
    intro a ha
    rw [hi.comp a l ha hl, hi.comp a r ha hr]
    constructor
    · exact fun h => h.2
    · exact fun h => ⟨(hi.keys a).2 ha, h⟩
  have hvne : s.val l ≠ s.val r := fun h => hne ((hi.val l r hl hr).1 h)
  have hlr : ∀ a, E a l → ¬ E a r := fun a h1 h2 => hne (hi.trans _ _ _ (hi.symm _ _ h1) h2)
  have hmem : ∀ a, K a → ∀ la, s.bags (s.val a) = some la → ∀ b, K b → E a b → ∀ w, (B a w ↔ B b w) := by
    intro a ha la hla b hb hab w
    obtain ⟨l1, h5, h6⟩ := hi.bag a ha
    obtain ⟨l2, h7, h8⟩ := hi.bag b hb
    rw [(hi.val a b ha hb).2 hab, h7] at h5
    cases h5
    rw [← h6, ← h8]
  refine ⟨_, rfl, hi.nodup, hi.keys, ?_, ?_, ?_, ?_, ?_, ?_, ?_, ?_, ?_, ?_⟩
  · intro a b ha hb
    dsimp only
    by_cases h5 : E a l ∨ E a r <;> by_cases h6 : E b l ∨ E b r
    · rw [if_pos ((hcl a ha).2 h5), if_pos ((hcl b hb).2 h6)]
      refine ⟨fun _ => ?_, fun _ => rfl⟩
      rcases h5 with h5 | h5 <;> rcases h6 with h6 | h6
      · exact Or.inl (hi.trans _ _ _ h5 (hi.symm _ _ h6))
      · exact Or.inr (Or.inl ⟨h5, hi.symm _ _ h6⟩)
      · exact Or.inr (Or.inr ⟨h5, hi.symm _ _ h6⟩)
      · exact Or.inl (hi.trans _ _ _ h5 (hi.symm _ _ h6))
    · rw [if_pos ((hcl a ha).2 h5), if_neg (fun h => h6 ((hcl b hb).1 h))]
      refine ⟨fun h => ?_, fun h => ?_⟩
      · refine absurd (Or.inl ?_) h6
        have := (hi.rep b hb).2
        rw [← h] at this
        exact this
      · refine absurd ?_ h6
        rcases h with h | ⟨_, h⟩ | ⟨_, h⟩
        · rcases h5 with h5 | h5
          · exact Or.inl (hi.trans _ _ _ (hi.symm _ _ h) h5)
          · exact Or.inr (hi.trans _ _ _ (hi.symm _ _ h) h5)
        · exact Or.inr (hi.symm _ _ h)
        · exact Or.inl (hi.symm _ _ h)
    · rw [if_neg (fun h => h5 ((hcl a ha).1 h)), if_pos ((hcl b hb).2 h6)]
      refine ⟨fun h => ?_, fun h => ?_⟩
      · refine absurd (Or.inl ?_) h5
        have := (hi.rep a ha).2
        rw [h] at this
        exact this
      · refine absurd ?_ h5
        rcases h with h | ⟨h, _⟩ | ⟨h, _⟩
        · rcases h6 with h6 | h6
          · exact Or.inl (hi.trans _ _ _ h h6)
          · exact Or.inr (hi.trans _ _ _ h h6)
        · exact Or.inl h
        · exact Or.inr h
    · rw [if_neg (fun h => h5 ((hcl a ha).1 h)), if_neg (fun h => h6 ((hcl b hb).1 h)), hi.comp a b ha hb]
      refine ⟨Or.inl, ?_⟩
      rintro (h | ⟨h, _⟩ | ⟨h, _⟩)
      · exact h
      · exact absurd (Or.inl h) h5
      · exact absurd (Or.inr h) h5
  · intro a b ha hb
    dsimp only
    by_cases h5 : E a l ∨ E a r <;> by_cases h6 : E b l ∨ E b r
    · rw [if_pos ((hcl a ha).2 h5), if_pos ((hcl b hb).2 h6)]
      refine ⟨fun _ => ?_, fun _ => rfl⟩
      rcases h5 with h5 | h5 <;> rcases h6 with h6 | h6
      · exact Or.inl (hi.trans _ _ _ h5 (hi.symm _ _ h6))
      · exact Or.inr (Or.inl ⟨h5, hi.symm _ _ h6⟩)
      · exact Or.inr (Or.inr ⟨h5, hi.symm _ _ h6⟩)
      · exact Or.inl (hi.trans _ _ _ h5 (hi.symm _ _ h6))
    · rw [if_pos ((hcl a ha).2 h5), if_neg (fun h => h6 ((hcl b hb).1 h))]
      refine ⟨fun h => ?_, fun h => ?_⟩
      · exact absurd (Or.inl ((hi.val b l hb hl).1 h.symm)) h6
      · refine absurd ?_ h6
        rcases h with h | ⟨_, h⟩ | ⟨_, h⟩
        · rcases h5 with h5 | h5
          · exact Or.inl (hi.trans _ _ _ (hi.symm _ _ h) h5)
          · exact Or.inr (hi.trans _ _ _ (hi.symm _ _ h) h5)
        · exact Or.inr (hi.symm _ _ h)
        · exact Or.inl (hi.symm _ _ h)
    · rw [if_neg (fun h => h5 ((hcl a ha).1 h)), if_pos ((hcl b hb).2 h6)]
      refine ⟨fun h => ?_, fun h => ?_⟩
      · exact absurd (Or.inl ((hi.val a l ha hl).1 h)) h5
      · refine absurd ?_ h5
        rcases h with h | ⟨h, _⟩ | ⟨h, _⟩
        · rcases h6 with h6 | h6
          · exact Or.inl (hi.trans _ _ _ h h6)
          · exact Or.inr (hi.trans _ _ _ h h6)
        · exact Or.inl h
        · exact Or.inr h
    · rw [if_neg (fun h => h5 ((hcl a ha).1 h)), if_neg (fun h => h6 ((hcl b hb).1 h)), hi.val a b ha hb]
      refine ⟨Or.inl, ?_⟩
      rintro (h | ⟨h, _⟩ | ⟨h, _⟩)
      · exact h
      · exact absurd (Or.inl h) h5
      · exact absurd (Or.inr h) h5
  · intro a ha
    dsimp only
    by_cases h5 : E a l ∨ E a r
    · rw [if_pos ((hcl a ha).2 h5)]
      refine ⟨hl, ?_⟩
      rcases h5 with h5 | h5
      · exact Or.inl h5
      · exact Or.inr (Or.inr ⟨h5, hi.refl _⟩)
    · rw [if_neg (fun h => h5 ((hcl a ha).1 h))]
      exact ⟨(hi.rep a ha).1, Or.inl (hi.rep a ha).2⟩
  · intro a ha
    dsimp only
    by_cases h5 : E a l ∨ E a r
    · rw [if_pos ((hcl a ha).2 h5), Function.update_of_ne hvne, Function.update_self]
      refine ⟨_, rfl, ?_⟩
      intro w
      rw [mem_foldl_insertSet, h2, h4]
      obtain ⟨la, hla, _⟩ := hi.bag a ha
      rcases h5 with h5 | h5
      · rw [hmem a ha la hla l hl h5 w]
        simp [h5, hlr a h5]
      · have : ¬ E a l := fun h => hlr a h h5
        rw [hmem a ha la hla r hr h5 w]
        simp [h5, this]
        tauto
    · rw [if_neg (fun h => h5 ((hcl a ha).1 h))]
      have hv1 : s.val a ≠ s.val l := fun h => h5 (Or.inl ((hi.val a l ha hl).1 h))
      have hv2 : s.val a ≠ s.val r := fun h => h5 (Or.inr ((hi.val a r ha hr).1 h))
      rw [Function.update_of_ne hv2, Function.update_of_ne hv1]
      obtain ⟨la, hla, hw⟩ := hi.bag a ha
      refine ⟨la, hla, ?_⟩
      intro w
      rw [hw]
      constructor
      · exact Or.inl
      · rintro (h | ⟨h, _⟩ | ⟨h, _⟩)
        · exact h
        · exact absurd (Or.inl h) h5
        · exact absurd (Or.inr h) h5
  · intro a ha
    dsimp only
    split
    · exact hi.lt l hl
    · exact hi.lt a ha
  · rintro a w (h | ⟨h, _⟩ | ⟨h, _⟩)
    · exact hi.cont _ _ h
    · rcases hi.out _ _ h with rfl | h
      · exact hl
      · exact h.1
    · rcases hi.out _ _ h with rfl | h
      · exact hr
      · exact h.1
  · have hk : ∀ x y, K y → E x y → K x := by
      intro x y hy h
      rcases hi.out x y h with rfl | h
      · exact hy
      · exact h.1
    rintro a b (h | ⟨h, h'⟩ | ⟨h, h'⟩)
    · exact hi.out a b h
    · exact Or.inr ⟨hk a l hl h, hk b r hr (hi.symm _ _ h')⟩
    · exact Or.inr ⟨hk a r hr h, hk b l hl (hi.symm _ _ h')⟩
  · exact fun a => Or.inl (hi.refl a)
  · rintro a b (h | ⟨h, h'⟩ | ⟨h, h'⟩)
    · exact Or.inl (hi.symm _ _ h)
    · exact Or.inr (Or.inr ⟨hi.symm _ _ h', hi.symm _ _ h⟩)
    · exact Or.inr (Or.inl ⟨hi.symm _ _ h', hi.symm _ _ h⟩)
  · intro a b c x y
    rcases x with x | ⟨x, x'⟩ | ⟨x, x'⟩ <;> rcases y with y | ⟨y, y'⟩ | ⟨y, y'⟩
    · exact Or.inl (hi.trans _ _ _ x y)
    · exact Or.inr (Or.inl ⟨hi.trans _ _ _ x y, y'⟩)
    · exact Or.inr (Or.inr ⟨hi.trans _ _ _ x y, y'⟩)
    · exact Or.inr (Or.inl ⟨x, hi.trans _ _ _ x' y⟩)
    · exact Or.inr (Or.inl ⟨x, y'⟩)
    · exact Or.inl (hi.trans _ _ _ x y')
    · exact Or.inr (Or.inr ⟨x, hi.trans _ _ _ x' y⟩)
    · exact Or.inl (hi.trans _ _ _ x y')
    · exact Or.inr (Or.inr ⟨x, y'⟩)

/-- Contents of the group of `a` after a history. -/
def Content (h : List (T × T × R)) (a : T) (w : R) : Prop :=
  ∃ l r, Kept h (l, r, w) ∧ Conn h l a

theorem kept_seen {h : List (T × T × R)} {l r : T} {w : R} (x : Kept h (l, r, w)) :
    Seen h l ∧ Seen h r := by
  obtain ⟨pre, post, he, _⟩ := x
  have : (l, r, w) ∈ h := by rw [he]; simp
  exact ⟨⟨_, this, Or.inl rfl⟩, ⟨_, this, Or.inr rfl⟩⟩

theorem inv_run [Inhabited T] (h : List (T × T × R)) :
    ∃ s, run h = some s ∧ Inv s (Seen h) (Conn h) (Content h) := by
  induction h using List.reverseRecOn with
  | nil =>
    have hno : ∀ a, ¬ Seen ([] : List (T × T × R)) a := by rintro a ⟨c, hc, _⟩; cases hc
    refine ⟨empty, rfl, List.nodup_nil, ?_, ?_, ?_, ?_, ?_, ?_, ?_, ?_, ?_, ?_, ?_⟩
    · intro t
      exact ⟨fun h => (by cases h), fun h => absurd h (hno t)⟩
    · intro a b ha; exact absurd ha (hno a)
    · intro a b ha; exact absurd ha (hno a)
    · intro a ha; exact absurd ha (hno a)
    · intro a ha; exact absurd ha (hno a)
    · intro a ha; exact absurd ha (hno a)
    · rintro a w ⟨l, r, hk, _⟩
      exact absurd (kept_seen hk).1 (hno l)
    · exact fun a b => conn_seen
    · exact conn_refl _
    · exact fun a b => conn_symm
    · exact fun a b c => conn_trans
  | append_singleton h c ih =>
    obtain ⟨s, hs, hi⟩ := ih
    obtain ⟨l, r, v⟩ := c
    have hrun : run (h ++ [(l, r, v)]) = add s (l, r, v) := by
      have : run (h ++ [(l, r, v)]) = (run h).bind fun s => add s (l, r, v) := by
        unfold run
        rw [List.foldlM_append]
        cases List.foldlM add (empty : St T R) h with
        | none => rfl
        | some x => simp [List.foldlM]
      rw [this, hs]
      rfl
    rw [hrun]
    unfold add
    have h1 := inv_ensure hi l v
    have h2 := inv_ensure h1 r v
    generalize ensure (ensure s l v) r v = s2 at h2 ⊢
    -- the keys
    have hK : ∀ a, (((Seen h a ∨ a = l) ∨ a = r) ↔ Seen (h ++ [(l, r, v)]) a) := by
      intro a
      rw [seen_snoc, or_assoc]
    have hKl : (Seen h l ∨ l = l) ∨ l = r := Or.inl (Or.inr rfl)
    have hKr : (Seen h r ∨ r = l) ∨ r = r := Or.inr rfl
    have hcl : ∀ a, Conn h a l → a = l ∨ (Seen h a ∧ Seen h l) := fun a => conn_seen
    have transfer : ∀ {s' : St T R} {K K' : T → Prop} {E E' : T → T → Prop} {B B' : T → R → Prop},
        Inv s' K E B → (∀ a, K a ↔ K' a) → (∀ a b, E a b ↔ E' a b) → (∀ a w, B a w ↔ B' a w) →
        Inv s' K' E' B' := by
      intro s' K K' E E' B B' hinv e1 e2 e3
      have f1 : K = K' := by funext a; exact propext (e1 a)
      have f2 : E = E' := by funext a b; exact propext (e2 a b)
      have f3 : B = B' := by funext a w; exact propext (e3 a w)
      rw [← f1, ← f2, ← f3]
      exact hinv
    have hlr : Conn (h ++ [(l, r, v)]) l r := conn_snoc.2 (Or.inr (Or.inl ⟨conn_refl _ _, conn_refl _ _⟩))
    by_cases hE : Conn h l r
    · have hv : s2.val l = s2.val r := (h2.val l r hKl hKr).2 hE
      simp only [ne_eq, hv, not_true_eq_false, if_false]
      obtain ⟨s', hs', hi'⟩ := inv_insertIn h2 hKl v
      refine ⟨s', hs', transfer hi' hK ?_ ?_⟩
      · intro a b
        rw [conn_snoc]
        constructor
        · exact Or.inl
        · rintro (x | ⟨x, y⟩ | ⟨x, y⟩)
          · exact x
          · exact conn_trans x (conn_trans hE y)
          · exact conn_trans x (conn_trans (conn_symm hE) y)
      · intro a w
        have hsame : ∀ x y, Conn (h ++ [(l, r, v)]) x y ↔ Conn h x y := by
          intro x y
          rw [conn_snoc]
          constructor
          · rintro (x | ⟨x, y⟩ | ⟨x, y⟩)
            · exact x
            · exact conn_trans x (conn_trans hE y)
            · exact conn_trans x (conn_trans (conn_symm hE) y)
          · exact Or.inl
        have hnj : ¬ Joins h (l, r, v) := fun hj => hj.2.2 hE
        constructor
        · rintro (((⟨l', r', hk, hc⟩ | ⟨_, rfl, rfl⟩) | ⟨_, rfl, rfl⟩) | ⟨hc, rfl⟩)
          · exact ⟨l', r', kept_snoc.2 (Or.inl hk), conn_mono hc⟩
          · exact ⟨_, r, kept_snoc.2 (Or.inr ⟨rfl, hnj⟩), conn_refl _ _⟩
          · exact ⟨l, _, kept_snoc.2 (Or.inr ⟨rfl, hnj⟩), hlr⟩
          · exact ⟨l, r, kept_snoc.2 (Or.inr ⟨rfl, hnj⟩), conn_mono (conn_symm hc)⟩
        · rintro ⟨l', r', hk, hc⟩
          rw [hsame] at hc
          rcases kept_snoc.1 hk with hk | ⟨he, _⟩
          · exact Or.inl (Or.inl (Or.inl ⟨l', r', hk, hc⟩))
          · cases he
            exact Or.inr ⟨conn_symm hc, rfl⟩
    · have hv : s2.val l ≠ s2.val r := fun x => hE ((h2.val l r hKl hKr).1 x)
      simp only [ne_eq, hv, not_false_eq_true, if_true]
      obtain ⟨s', hs', hi'⟩ := inv_merge h2 hKl hKr hE
      refine ⟨s', hs', transfer hi' hK (fun a b => conn_snoc.symm) ?_⟩
      have hne : l ≠ r := by rintro rfl; exact hE (conn_refl _ _)
      intro a w
      constructor
      · have base : ∀ x, ((Content h x w ∨ (¬ Seen h l ∧ x = l ∧ w = v)) ∨
            (¬ (Seen h r ∨ r = l) ∧ x = r ∧ w = v)) → Content (h ++ [(l, r, v)]) x w := by
          rintro x ((⟨l', r', hk, hc⟩ | ⟨hn, rfl, rfl⟩) | ⟨hn, rfl, rfl⟩)
          · exact ⟨l', r', kept_snoc.2 (Or.inl hk), conn_mono hc⟩
          · exact ⟨_, r, kept_snoc.2 (Or.inr ⟨rfl, fun hj => hn hj.1⟩), conn_refl _ _⟩
          · exact ⟨l, _, kept_snoc.2 (Or.inr ⟨rfl, fun hj => hn (Or.inl hj.2.1)⟩), hlr⟩
        have move : ∀ x y, Content (h ++ [(l, r, v)]) x w → Conn (h ++ [(l, r, v)]) x y →
            Content (h ++ [(l, r, v)]) y w := by
          rintro x y ⟨l', r', hk, hc⟩ hxy
          exact ⟨l', r', hk, conn_trans hc hxy⟩
        rintro (hb | ⟨hc, hb⟩ | ⟨hc, hb⟩)
        · exact base a hb
        · exact move r a (base r hb) (conn_symm (conn_trans (conn_mono hc) hlr))
        · exact move l a (base l hb) (conn_trans hlr (conn_symm (conn_mono hc)))
      · rintro ⟨l', r', hk, hc⟩
        rcases kept_snoc.1 hk with hk | ⟨he, hnj⟩
        · have hcont : ∀ x, Conn h l' x → Content h x w := fun x hx => ⟨l', r', hk, hx⟩
          rcases conn_snoc.1 hc with hc | ⟨h3, h4⟩ | ⟨h3, h4⟩
          · exact Or.inl (Or.inl (Or.inl (hcont a hc)))
          · exact Or.inr (Or.inr ⟨conn_symm h4, Or.inl (Or.inl (hcont l h3))⟩)
          · exact Or.inr (Or.inl ⟨conn_symm h4, Or.inl (Or.inl (hcont r h3))⟩)
        · cases he
          have hcase : ¬ Seen h l ∨ ¬ Seen h r := by
            by_contra hcon
            push Not at hcon
            exact hnj ⟨hcon.1, hcon.2, hE⟩
          have hal : Conn h a l ∨ Conn h a r := by
            rcases conn_snoc.1 hc with hc | ⟨_, h4⟩ | ⟨_, h4⟩
            · exact Or.inl (conn_symm hc)
            · exact Or.inr (conn_symm h4)
            · exact Or.inl (conn_symm h4)
          rcases hcase with hn | hn
          · rcases hal with x | x
            · rcases hcl a x with rfl | ⟨_, h5⟩
              · exact Or.inl (Or.inl (Or.inr ⟨hn, rfl, rfl⟩))
              · exact absurd h5 hn
            · exact Or.inr (Or.inr ⟨x, Or.inl (Or.inr ⟨hn, rfl, rfl⟩)⟩)
          · have hn' : ¬ (Seen h r ∨ r = l) := by
              rintro (h5 | h5)
              · exact hn h5
              · exact hne h5.symm
            rcases hal with x | x
            · exact Or.inr (Or.inl ⟨x, Or.inr ⟨hn', rfl, rfl⟩⟩)
            · rcases conn_seen x with rfl | ⟨_, h5⟩
              · exact Or.inl (Or.inr ⟨hn', rfl, rfl⟩)
              · exact absurd h5 hn

end GroupList

open GroupList

variable {T R : Type} [DecidableEq T] [DecidableEq R] [Inhabited T]

/-- C51.  After any history of `add` calls, `getall` succeeds (no freed set is ever read) and returns
one set for each connected group of elements: there are elements `reps`, one from each group, and the
set returned for the group of `t` holds exactly the values of the calls made on elements of that
group, except for the calls that joined two groups that already existed. -/
theorem C51_groups_partial (h : List (T × T × R)) :
    ∃ s reps sets, run h = some s ∧ getall s = some sets ∧
      (∀ t ∈ reps, Seen h t) ∧ (∀ a, Seen h a → ∃ t ∈ reps, Conn h a t) ∧
      reps.Pairwise (fun a b => ¬ Conn h a b) ∧
      List.Forall₂ (fun t set => ∀ w, w ∈ set ↔ ∃ l r, Kept h (l, r, w) ∧ Conn h l t) reps sets := by
  obtain ⟨s, hs, hi⟩ := inv_run h
  let reps := s.keys.filter fun t => decide (t = s.comp t)
  have hmem : ∀ t, t ∈ reps ↔ Seen h t ∧ t = s.comp t := by
    intro t
    simp only [reps, List.mem_filter, decide_eq_true_eq, hi.keys]
  have hget : ∃ sets, reps.mapM (fun t => s.bags (s.val t)) = some sets ∧
      List.Forall₂ (fun t set => ∀ w, w ∈ set ↔ Content h t w) reps sets := by
    have : ∀ l : List T, (∀ t ∈ l, Seen h t) → ∃ sets, l.mapM (fun t => s.bags (s.val t)) = some sets ∧
        List.Forall₂ (fun t set => ∀ w, w ∈ set ↔ Content h t w) l sets := by
      intro l
      induction l with
      | nil => exact fun _ => ⟨[], rfl, List.Forall₂.nil⟩
      | cons t l ih =>
        intro hl
        obtain ⟨sets, h1, h2⟩ := ih fun x hx => hl x (List.mem_cons_of_mem _ hx)
        obtain ⟨b, h3, h4⟩ := hi.bag t (hl t List.mem_cons_self)
        refine ⟨b :: sets, ?_, List.Forall₂.cons h4 h2⟩
        rw [List.mapM_cons, h3, h1]
        rfl
    exact this reps fun t ht => ((hmem t).1 ht).1
  obtain ⟨sets, h1, h2⟩ := hget
  refine ⟨s, reps, sets, hs, h1, fun t ht => ((hmem t).1 ht).1, ?_, ?_, h2⟩
  · intro a ha
    obtain ⟨h3, h4⟩ := hi.rep a ha
    refine ⟨s.comp a, (hmem _).2 ⟨h3, ?_⟩, h4⟩
    exact (hi.comp a (s.comp a) ha h3).2 h4
  · have hnd : reps.Nodup := hi.nodup.filter _
    refine List.Nodup.pairwise_of_forall_ne hnd ?_
    intro a ha b hb hab hc
    obtain ⟨h3, h4⟩ := (hmem a).1 ha
    obtain ⟨h5, h6⟩ := (hmem b).1 hb
    exact hab (by rw [h4, h6]; exact (hi.comp a b h3 h5).2 hc)

/-- The value of a call that joins two existing groups is lost. -/
theorem C51_lost_value_counterexample :
    (run [((1 : Nat), (2 : Nat), (10 : Nat)), (3, 4, 20), (2, 3, 30)]).bind getall
      = some [[10, 20]] := by decide +kernel

/-- In a history without calls that join two existing groups nothing is lost: the sets contain every
value. -/
theorem C51_no_join_partial (h : List (T × T × R))
    (hj : ∀ pre c post, h = pre ++ c :: post → ¬ Joins pre c) (l r : T) (v : R) :
    Kept h (l, r, v) ↔ (l, r, v) ∈ h := by
  constructor
  · rintro ⟨pre, post, he, _⟩
    rw [he]; simp
  · intro hm
    obtain ⟨pre, post, he⟩ := List.append_of_mem hm
    exact ⟨pre, post, he, hj pre _ post he⟩

example : (run [((1 : Nat), (2 : Nat), (10 : Nat)), (3, 4, 20), (2, 5, 30), (4, 4, 7)]).bind getall
    = some [[10, 30], [20, 7]] := by decide +kernel

end Kiter
