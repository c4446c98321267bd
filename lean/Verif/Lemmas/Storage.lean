/-
Lemmas on storage distributions and their sets.
-/
import Verif.Model.Storage
import Mathlib.Algebra.BigOperators.Fin
import Mathlib.Algebra.Order.BigOperators.Group.Finset
import Mathlib.Order.Basic
import Mathlib.Tactic.Ring
import Mathlib.Tactic.Linarith

set_option autoImplicit false

namespace Kiter
open Finset

variable {n : ℕ}

/-- The recorded size is the sum of the quantities. -/
def SD.Consistent (s : SD n) : Prop := s.size = ∑ e, s.quantity e

theorem foldl_add_eq {α : Type} (l : List α) (f : α → Int) (a : Int) :
    l.foldl (fun acc e => acc + f e) a = a + (l.map f).sum := by
  induction l generalizing a with
  | nil => simp
  | cons x l ih => simp only [List.foldl_cons, ih, List.map_cons, List.sum_cons]; ring

theorem SD.updateSize_spec (s : SD n) : (s.updateSize).Consistent ∧ (s.updateSize).quantity = s.quantity ∧
    (s.updateSize).initial = s.initial ∧ (s.updateSize).thr = s.thr := by
  have h : (List.finRange n).foldl (fun acc e => acc + s.quantity e) 0 = ∑ e, s.quantity e := by
    rw [foldl_add_eq, Fin.sum_univ_def]; simp
  unfold SD.updateSize SD.Consistent
  simp only [h]
  split
  · exact ⟨rfl, rfl, rfl, rfl⟩
  · rename_i h'
    push Not at h'
    exact ⟨h'.symm, rfl, rfl, rfl⟩

theorem SD.setQuantity_spec (s : SD n) (e : Fin n) (q : Int) : (s.setQuantity e q).Consistent ∧
    (s.setQuantity e q).quantity = Function.update s.quantity e q ∧ (s.setQuantity e q).initial = s.initial ∧
    (s.setQuantity e q).thr = s.thr := by
  unfold SD.setQuantity
  exact SD.updateSize_spec _

theorem SD.eqv_iff (a b : SD n) : a.eqv b = true ↔ a.quantity = b.quantity := by
  unfold SD.eqv
  rw [List.all_eq_true]
  simp only [List.mem_finRange, beq_iff_eq, forall_const]
  exact funext_iff.symm

theorem SD.neqv_iff (a b : SD n) : a.neqv b = true ↔ a.quantity ≠ b.quantity := by
  unfold SD.neqv
  rw [List.any_eq_true]
  simp only [List.mem_finRange, true_and, bne_iff_ne]
  rw [Ne, funext_iff]; push Not; rfl

theorem SD.back_iff (a b : SD n) : a.inBackConeOf b = true ↔ a.quantity ≤ b.quantity := by
  unfold SD.inBackConeOf
  rw [List.all_eq_true]
  simp only [List.mem_finRange, forall_const, Bool.not_eq_true', decide_eq_false_iff_not, not_lt, gt_iff_lt]
  rfl

theorem SD.for_iff (a b : SD n) : a.inForConeOf b = true ↔ b.quantity ≤ a.quantity := by
  unfold SD.inForConeOf
  rw [List.all_eq_true]
  simp only [List.mem_finRange, forall_const, Bool.not_eq_true', decide_eq_false_iff_not, not_lt]
  rfl

theorem SD.size_of_quantity {a b : SD n} (ha : a.Consistent) (hb : b.Consistent) (h : a.quantity = b.quantity) :
    a.size = b.size := by
  unfold SD.Consistent at ha hb
  rw [ha, hb, h]

namespace SDSet

/-- Invariant of the sets: keys increasing, buckets non-empty, members filed under their size, consistent and
pairwise different. -/
structure WF (s : SDSet n) : Prop where
  sorted : s.buckets.Pairwise fun a b => a.1 < b.1
  nonempty : ∀ b ∈ s.buckets, b.2 ≠ []
  filed : ∀ b ∈ s.buckets, ∀ d ∈ b.2, d.size = b.1 ∧ d.Consistent
  distinct : ∀ b ∈ s.buckets, b.2.Pairwise fun x y => x.quantity ≠ y.quantity

theorem mem_members {s : SDSet n} {x : SD n} : x ∈ s.members ↔ ∃ b ∈ s.buckets, x ∈ b.2 := by
  unfold members; rw [List.mem_flatMap]

theorem WF.consistent {s : SDSet n} (h : s.WF) {x : SD n} (hx : x ∈ s.members) : x.Consistent := by
  obtain ⟨b, hb, hx⟩ := mem_members.mp hx
  exact (h.filed b hb x hx).2

theorem wf_empty : (empty : SDSet n).WF := ⟨List.Pairwise.nil, by simp [empty], by simp [empty], by simp [empty]⟩

theorem members_empty : (empty : SDSet n).members = [] := rfl

theorem wf_single {d : SD n} (hd : d.Consistent) : (single d.size d).WF := by
  refine ⟨by simp [single], by simp [single], ?_, ?_⟩
  · intro b hb x hx
    simp [single] at hb; subst hb; simp at hx; subst hx; exact ⟨rfl, hd⟩
  · intro b hb; simp [single] at hb; subst hb; simp

theorem bucket_some {l : List (Int × List (SD n))} {k : Int} {v : List (SD n)} (h : bucket k l = some v) : (k, v) ∈ l := by
  induction l with
  | nil => simp [bucket] at h
  | cons b l ih =>
    obtain ⟨k', v'⟩ := b
    unfold bucket at h
    split at h
    · rename_i hk; subst hk; cases h; simp
    · simp [ih h]

theorem bucket_none {l : List (Int × List (SD n))} {k : Int} (h : bucket k l = none) : ∀ b ∈ l, b.1 ≠ k := by
  induction l with
  | nil => simp
  | cons b l ih =>
    obtain ⟨k', v'⟩ := b
    unfold bucket at h
    split at h
    · simp at h
    · rename_i hk
      intro b hb
      rcases List.mem_cons.mp hb with rfl | hb
      · exact fun h => hk h.symm
      · exact ih h b hb

/-- Two buckets with the same key are the same. -/
theorem sorted_unique {l : List (Int × List (SD n))} (h : l.Pairwise fun a b => a.1 < b.1) {a b : Int × List (SD n)}
    (ha : a ∈ l) (hb : b ∈ l) (hk : a.1 = b.1) : a = b := by
  induction l with
  | nil => simp at ha
  | cons c l ih =>
    rw [List.pairwise_cons] at h
    rcases List.mem_cons.mp ha with rfl | ha <;> rcases List.mem_cons.mp hb with rfl | hb
    · rfl
    · have := h.1 b (by assumption); omega
    · have := h.1 a (by assumption); omega
    · exact ih h.2 ha hb

theorem mem_pushBucket {l : List (Int × List (SD n))} {k : Int} {d : SD n} (b : Int × List (SD n))
    (hs : l.Pairwise fun a b => a.1 < b.1) :
    b ∈ pushBucket k d l ↔ (b ∈ l ∧ b.1 ≠ k) ∨ (∃ v, (k, v) ∈ l ∧ b = (k, v ++ [d])) ∨ ((∀ c ∈ l, c.1 ≠ k) ∧ b = (k, [d])) := by
  induction l with
  | nil => simp [pushBucket]
  | cons c l ih =>
    obtain ⟨k', v'⟩ := c
    rw [List.pairwise_cons] at hs
    have ih := ih hs.2
    unfold pushBucket
    split
    · rename_i hlt
      have hne : ∀ c ∈ (k', v') :: l, c.1 ≠ k := by
        intro c hc
        rcases List.mem_cons.mp hc with rfl | hc
        · show k' ≠ k; omega
        · have := hs.1 c hc
          simp only at this; omega
      constructor
      · intro h
        rcases List.mem_cons.mp h with h | h
        · exact Or.inr (Or.inr ⟨hne, h⟩)
        · exact Or.inl ⟨h, hne b h⟩
      · rintro (⟨h, -⟩ | ⟨v, h, -⟩ | ⟨-, h⟩)
        · exact List.mem_cons_of_mem _ h
        · exact absurd rfl (hne _ h)
        · rw [h]; simp
    · split
      · rename_i h1 h2
        subst h2
        have hne : ∀ c ∈ l, c.1 ≠ k := by
          intro c hc
          have := hs.1 c hc
          simp only at this; omega
        constructor
        · intro h
          rcases List.mem_cons.mp h with h | h
          · exact Or.inr (Or.inl ⟨v', by simp, h⟩)
          · exact Or.inl ⟨by simp [h], hne b h⟩
        · rintro (⟨h, h'⟩ | ⟨v, h, h'⟩ | ⟨h, -⟩)
          · rcases List.mem_cons.mp h with h | h
            · rw [h] at h'; exact absurd rfl h'
            · simp [h]
          · rcases List.mem_cons.mp h with h | h
            · rw [Prod.mk.injEq] at h; rw [h', h.2]; simp
            · exact absurd rfl (hne _ h)
          · exact absurd rfl (h (k, v') (by simp))
      · rename_i h1 h2
        rw [List.mem_cons, ih]
        constructor
        · rintro (h | ⟨h, h'⟩ | ⟨v, h, h'⟩ | ⟨h, h'⟩)
          · exact Or.inl ⟨by simp [h], by rw [h]; exact fun h => h2 h.symm⟩
          · exact Or.inl ⟨by simp [h], h'⟩
          · exact Or.inr (Or.inl ⟨v, by simp [h], h'⟩)
          · refine Or.inr (Or.inr ⟨fun c hc => ?_, h'⟩)
            rcases List.mem_cons.mp hc with rfl | hc
            · exact fun h => h2 h.symm
            · exact h c hc
        · rintro (⟨h, h'⟩ | ⟨v, h, h'⟩ | ⟨h, h'⟩)
          · rcases List.mem_cons.mp h with h | h
            · exact Or.inl h
            · exact Or.inr (Or.inl ⟨h, h'⟩)
          · rcases List.mem_cons.mp h with h | h
            · rw [Prod.mk.injEq] at h; exact absurd h.1 h2
            · exact Or.inr (Or.inr (Or.inl ⟨v, h, h'⟩))
          · exact Or.inr (Or.inr (Or.inr ⟨fun c hc => h c (by simp [hc]), h'⟩))

theorem pushBucket_keys {l : List (Int × List (SD n))} {k : Int} {d : SD n} {b : Int × List (SD n)}
    (hb : b ∈ pushBucket k d l) : b.1 = k ∨ ∃ c ∈ l, c.1 = b.1 := by
  induction l with
  | nil => simp [pushBucket] at hb; left; rw [hb]
  | cons c l ih =>
    obtain ⟨k', v'⟩ := c
    unfold pushBucket at hb
    split at hb
    · rcases List.mem_cons.mp hb with h | h
      · left; rw [h]
      · right; exact ⟨b, h, rfl⟩
    · split at hb
      · rename_i h2
        rcases List.mem_cons.mp hb with h | h
        · left; rw [h]; exact h2.symm
        · right; exact ⟨b, by simp [h], rfl⟩
      · rcases List.mem_cons.mp hb with h | h
        · right; exact ⟨(k', v'), by simp, by rw [h]⟩
        · rcases ih h with h | ⟨c, hc, h⟩
          · left; exact h
          · right; exact ⟨c, by simp [hc], h⟩

theorem pushBucket_sorted {l : List (Int × List (SD n))} {k : Int} {d : SD n} (hs : l.Pairwise fun a b => a.1 < b.1) :
    (pushBucket k d l).Pairwise fun a b => a.1 < b.1 := by
  induction l with
  | nil => simp [pushBucket]
  | cons c l ih =>
    obtain ⟨k', v'⟩ := c
    have hs' := hs
    rw [List.pairwise_cons] at hs
    unfold pushBucket
    split
    · rename_i hlt
      rw [List.pairwise_cons]
      refine ⟨fun b hb => ?_, hs'⟩
      rcases List.mem_cons.mp hb with rfl | hb
      · exact hlt
      · have := hs.1 b hb; simp only at this ⊢; omega
    · split
      · rw [List.pairwise_cons]
        exact ⟨fun b hb => hs.1 b hb, hs.2⟩
      · rename_i h1 h2
        rw [List.pairwise_cons]
        refine ⟨fun b hb => ?_, ih hs.2⟩
        rcases pushBucket_keys hb with h | ⟨c, hc, h⟩
        · rw [h]; simp only; omega
        · rw [← h]; exact hs.1 c hc

/-- Specification of `addStorageDistribution` on well-formed sets. -/
theorem add_spec {s : SDSet n} (hs : s.WF) {d : SD n} (hd : d.Consistent) :
    (s.add d).WF ∧
    (∀ x, x ∈ (s.add d).members ↔ x ∈ s.members ∨ (x = d ∧ ∀ y ∈ s.members, y.quantity ≠ d.quantity)) := by
  by_cases hdup : s.duplicate d = true
  · have e : s.add d = s := by unfold add; rw [if_pos hdup]
    rw [e]
    refine ⟨hs, fun x => ⟨Or.inl, ?_⟩⟩
    rintro (h | ⟨rfl, h⟩)
    · exact h
    · exfalso
      unfold duplicate at hdup
      cases hb : bucket x.size s.buckets with
      | none => rw [hb] at hdup; simp at hdup
      | some l =>
        rw [hb] at hdup
        obtain ⟨y, hy, he⟩ := List.any_eq_true.mp hdup
        exact h y (mem_members.mpr ⟨_, bucket_some hb, hy⟩) ((SD.eqv_iff _ _).mp he).symm
  · have hnew : ∀ y ∈ s.members, y.quantity ≠ d.quantity := by
      intro y hy hq
      obtain ⟨b, hb, hyb⟩ := mem_members.mp hy
      have hsz : b.1 = d.size := by
        rw [← (hs.filed b hb y hyb).1]
        exact SD.size_of_quantity (hs.filed b hb y hyb).2 hd hq
      cases hbk : bucket d.size s.buckets with
      | none => exact bucket_none hbk b hb hsz
      | some l =>
        have := sorted_unique hs.sorted hb (bucket_some hbk) hsz
        unfold duplicate at hdup
        rw [hbk] at hdup
        apply hdup
        rw [List.any_eq_true]
        refine ⟨y, by rw [this] at hyb; exact hyb, (SD.eqv_iff _ _).mpr hq.symm⟩
    have e : (s.add d).buckets = pushBucket d.size d s.buckets := by unfold add; rw [if_neg hdup]
    refine ⟨⟨?_, ?_, ?_, ?_⟩, ?_⟩
    · rw [e]; exact pushBucket_sorted hs.sorted
    · rw [e]; intro b hb
      rcases (mem_pushBucket b hs.sorted).mp hb with ⟨h, -⟩ | ⟨v, -, h⟩ | ⟨-, h⟩
      · exact hs.nonempty b h
      · rw [h]; simp
      · rw [h]; simp
    · rw [e]; intro b hb x hx
      rcases (mem_pushBucket b hs.sorted).mp hb with ⟨h, -⟩ | ⟨v, hv, h⟩ | ⟨-, h⟩
      · exact hs.filed b h x hx
      · rw [h] at hx ⊢
        rcases List.mem_append.mp hx with hx | hx
        · exact hs.filed _ hv x hx
        · rw [List.mem_singleton.mp hx]; exact ⟨rfl, hd⟩
      · rw [h] at hx ⊢
        rw [List.mem_singleton.mp hx]; exact ⟨rfl, hd⟩
    · rw [e]; intro b hb
      rcases (mem_pushBucket b hs.sorted).mp hb with ⟨h, -⟩ | ⟨v, hv, h⟩ | ⟨-, h⟩
      · exact hs.distinct b h
      · rw [h, List.pairwise_append]
        refine ⟨hs.distinct _ hv, by simp, fun x hx y hy => ?_⟩
        rw [List.mem_singleton.mp hy]
        exact hnew x (mem_members.mpr ⟨_, hv, hx⟩)
      · rw [h]; simp
    · intro x
      rw [mem_members, mem_members, e]
      constructor
      · rintro ⟨b, hb, hx⟩
        rcases (mem_pushBucket b hs.sorted).mp hb with ⟨h, -⟩ | ⟨v, hv, h⟩ | ⟨-, h⟩
        · exact Or.inl ⟨b, h, hx⟩
        · rw [h] at hx
          rcases List.mem_append.mp hx with hx | hx
          · exact Or.inl ⟨_, hv, hx⟩
          · exact Or.inr ⟨List.mem_singleton.mp hx, hnew⟩
        · rw [h] at hx
          exact Or.inr ⟨List.mem_singleton.mp hx, hnew⟩
      · rintro (⟨b, hb, hx⟩ | ⟨rfl, -⟩)
        · by_cases hk : b.1 = d.size
          · refine ⟨(d.size, b.2 ++ [d]), (mem_pushBucket _ hs.sorted).mpr (Or.inr (Or.inl ⟨b.2, by rw [← hk]; exact hb, rfl⟩)), ?_⟩
            simp [hx]
          · exact ⟨b, (mem_pushBucket _ hs.sorted).mpr (Or.inl ⟨hb, hk⟩), hx⟩
        · by_cases hk : ∀ c ∈ s.buckets, c.1 ≠ x.size
          · exact ⟨_, (mem_pushBucket _ hs.sorted).mpr (Or.inr (Or.inr ⟨hk, rfl⟩)), by simp⟩
          · push Not at hk
            obtain ⟨c, hc, hk⟩ := hk
            exact ⟨(x.size, c.2 ++ [x]), (mem_pushBucket _ hs.sorted).mpr (Or.inr (Or.inl ⟨c.2, by rw [← hk]; exact hc, rfl⟩)), by simp⟩

theorem removeBucket_sub {l : List (Int × List (SD n))} {d : SD n} {b : Int × List (SD n)} (hb : b ∈ removeBucket d l) :
    b ∈ l ∨ ∃ v, (d.size, v) ∈ l ∧ b = (d.size, v.filter fun x => !(x.eqv d)) := by
  induction l with
  | nil => simp [removeBucket] at hb
  | cons c l ih =>
    obtain ⟨k, v⟩ := c
    unfold removeBucket at hb
    split at hb
    · rename_i hk
      subst hk
      simp only at hb
      split at hb
      · left; simp [hb]
      · rcases List.mem_cons.mp hb with h | h
        · right; exact ⟨v, by simp, h⟩
        · left; simp [h]
    · rcases List.mem_cons.mp hb with h | h
      · left; simp [h]
      · rcases ih h with h | ⟨v', hv, h⟩
        · left; simp [h]
        · right; exact ⟨v', by simp [hv], h⟩

/-- On sorted buckets `removeBucket` filters one bucket and drops it when it becomes empty. -/
theorem mem_removeBucket {l : List (Int × List (SD n))} {d : SD n} (hs : l.Pairwise fun a b => a.1 < b.1)
    (b : Int × List (SD n)) :
    b ∈ removeBucket d l ↔ (b ∈ l ∧ b.1 ≠ d.size) ∨
      ∃ v, (d.size, v) ∈ l ∧ b = (d.size, v.filter fun x => !(x.eqv d)) ∧ b.2 ≠ [] := by
  induction l with
  | nil => simp [removeBucket]
  | cons c l ih =>
    obtain ⟨k, v⟩ := c
    rw [List.pairwise_cons] at hs
    have ih := ih hs.2
    unfold removeBucket
    split
    · rename_i hk
      subst hk
      have hne : ∀ c ∈ l, c.1 ≠ d.size := by
        intro c hc
        have := hs.1 c hc
        simp only at this; omega
      simp only
      split
      · rename_i hemp
        constructor
        · intro h; exact Or.inl ⟨by simp [h], hne b h⟩
        · rintro (⟨h, h'⟩ | ⟨v', h, h', h''⟩)
          · rcases List.mem_cons.mp h with h | h
            · rw [h] at h'; exact absurd rfl h'
            · exact h
          · rcases List.mem_cons.mp h with h | h
            · rw [Prod.mk.injEq] at h
              rw [h', h.2] at h''
              exact absurd (List.isEmpty_iff.mp hemp) h''
            · exact absurd rfl (hne _ h)
      · rename_i hemp
        constructor
        · intro h
          rcases List.mem_cons.mp h with h | h
          · refine Or.inr ⟨v, by simp, h, ?_⟩
            rw [h]; intro h0; exact hemp (List.isEmpty_iff.mpr h0)
          · exact Or.inl ⟨by simp [h], hne b h⟩
        · rintro (⟨h, h'⟩ | ⟨v', h, h', h''⟩)
          · rcases List.mem_cons.mp h with h | h
            · rw [h] at h'; exact absurd rfl h'
            · simp [h]
          · rcases List.mem_cons.mp h with h | h
            · rw [Prod.mk.injEq] at h
              rw [h', h.2]; simp
            · exact absurd rfl (hne _ h)
    · rename_i hk
      rw [List.mem_cons, ih]
      constructor
      · rintro (h | ⟨h, h'⟩ | ⟨v', h, h'⟩)
        · exact Or.inl ⟨by simp [h], by rw [h]; exact hk⟩
        · exact Or.inl ⟨by simp [h], h'⟩
        · exact Or.inr ⟨v', by simp [h], h'⟩
      · rintro (⟨h, h'⟩ | ⟨v', h, h'⟩)
        · rcases List.mem_cons.mp h with h | h
          · exact Or.inl h
          · exact Or.inr (Or.inl ⟨h, h'⟩)
        · rcases List.mem_cons.mp h with h | h
          · rw [Prod.mk.injEq] at h; exact absurd h.1.symm hk
          · exact Or.inr (Or.inr ⟨v', h, h'⟩)

theorem removeBucket_keys {l : List (Int × List (SD n))} {d : SD n} {b : Int × List (SD n)} (hb : b ∈ removeBucket d l) :
    ∃ c ∈ l, c.1 = b.1 := by
  rcases removeBucket_sub hb with h | ⟨v, h, h'⟩
  · exact ⟨b, h, rfl⟩
  · exact ⟨_, h, by rw [h']⟩

theorem removeBucket_sorted {l : List (Int × List (SD n))} {d : SD n} (hs : l.Pairwise fun a b => a.1 < b.1) :
    (removeBucket d l).Pairwise fun a b => a.1 < b.1 := by
  induction l with
  | nil => simp [removeBucket]
  | cons c l ih =>
    obtain ⟨k, v⟩ := c
    rw [List.pairwise_cons] at hs
    unfold removeBucket
    split
    · simp only
      split
      · exact hs.2
      · rw [List.pairwise_cons]; exact ⟨fun b hb => hs.1 b hb, hs.2⟩
    · rw [List.pairwise_cons]
      refine ⟨fun b hb => ?_, ih hs.2⟩
      obtain ⟨c, hc, h⟩ := removeBucket_keys hb
      rw [← h]; exact hs.1 c hc

/-- Specification of `removeStorageDistribution` on well-formed sets. -/
theorem remove_spec {s : SDSet n} (hs : s.WF) {d : SD n} (hd : d.Consistent) :
    (s.remove d).WF ∧ (∀ x, x ∈ (s.remove d).members ↔ x ∈ s.members ∧ x.quantity ≠ d.quantity) := by
  have e : (s.remove d).buckets = removeBucket d s.buckets := rfl
  have hf : ∀ x : SD n, (!(x.eqv d)) = true ↔ x.quantity ≠ d.quantity := by
    intro x
    rw [Bool.not_eq_true', ← Bool.not_eq_true, SD.eqv_iff]
  refine ⟨⟨?_, ?_, ?_, ?_⟩, ?_⟩
  · rw [e]; exact removeBucket_sorted hs.sorted
  · rw [e]; intro b hb
    rcases (mem_removeBucket hs.sorted b).mp hb with ⟨h, -⟩ | ⟨v, -, -, h⟩
    · exact hs.nonempty b h
    · exact h
  · rw [e]; intro b hb x hx
    rcases (mem_removeBucket hs.sorted b).mp hb with ⟨h, -⟩ | ⟨v, hv, h, -⟩
    · exact hs.filed b h x hx
    · rw [h] at hx ⊢
      exact hs.filed _ hv x (List.mem_filter.mp hx).1
  · rw [e]; intro b hb
    rcases (mem_removeBucket hs.sorted b).mp hb with ⟨h, -⟩ | ⟨v, hv, h, -⟩
    · exact hs.distinct b h
    · rw [h]; exact (hs.distinct _ hv).filter _
  · intro x
    rw [mem_members, mem_members, e]
    constructor
    · rintro ⟨b, hb, hx⟩
      rcases (mem_removeBucket hs.sorted b).mp hb with ⟨h, h'⟩ | ⟨v, hv, h, -⟩
      · refine ⟨⟨b, h, hx⟩, fun hq => h' ?_⟩
        rw [← (hs.filed b h x hx).1]
        exact SD.size_of_quantity (hs.filed b h x hx).2 hd hq
      · rw [h] at hx
        have := List.mem_filter.mp hx
        exact ⟨⟨_, hv, this.1⟩, (hf x).mp this.2⟩
    · rintro ⟨⟨b, hb, hx⟩, hq⟩
      by_cases hk : b.1 = d.size
      · have hx' : x ∈ b.2.filter fun x => !(x.eqv d) := List.mem_filter.mpr ⟨hx, (hf x).mpr hq⟩
        refine ⟨(d.size, b.2.filter fun x => !(x.eqv d)), (mem_removeBucket hs.sorted _).mpr (Or.inr ⟨b.2, by rw [← hk]; exact hb, rfl, ?_⟩), hx'⟩
        exact List.ne_nil_of_mem hx'
      · exact ⟨b, (mem_removeBucket hs.sorted _).mpr (Or.inl ⟨hb, hk⟩), hx⟩

/-- Members are pairwise different. -/
theorem WF.nodup {s : SDSet n} (hs : s.WF) : s.members.Pairwise fun x y => x.quantity ≠ y.quantity := by
  obtain ⟨l, p⟩ := s
  obtain ⟨h1, h2, h3, h4⟩ := hs
  simp only [members] at *
  induction l with
  | nil => simp
  | cons b l ih =>
    rw [List.pairwise_cons] at h1
    rw [List.flatMap_cons, List.pairwise_append]
    refine ⟨h4 b (by simp), ih h1.2 (fun c hc => h2 c (by simp [hc])) (fun c hc => h3 c (by simp [hc]))
      (fun c hc => h4 c (by simp [hc])), ?_⟩
    intro x hx y hy hq
    rw [List.mem_flatMap] at hy
    obtain ⟨c, hc, hy⟩ := hy
    have a := h3 b (by simp) x hx
    have b' := h3 c (by simp [hc]) y hy
    have := SD.size_of_quantity a.2 b'.2 hq
    have := h1.1 c hc
    omega

theorem next_spec {s : SDSet n} (hs : s.WF) :
    (s.next = none ↔ s.members = []) ∧ ∀ d, s.next = some d → d ∈ s.members ∧ ∀ x ∈ s.members, d.size ≤ x.size := by
  cases hb : s.buckets with
  | nil => simp [next, hb, members]
  | cons b l =>
    have hne := hs.nonempty b (by rw [hb]; simp)
    cases hv : b.2 with
    | nil => exact absurd hv hne
    | cons d v =>
      have e : s.next = some d := by unfold next; rw [hb]; simp [hv]
      rw [e]
      constructor
      · simp [members, hb, hv]
      · intro d' hd; cases hd
        refine ⟨mem_members.mpr ⟨b, by rw [hb]; simp, by rw [hv]; simp⟩, fun x hx => ?_⟩
        obtain ⟨c, hc, hx⟩ := mem_members.mp hx
        rw [(hs.filed c hc x hx).1, (hs.filed b (by rw [hb]; simp) d (by rw [hv]; simp)).1]
        rw [hb] at hc
        rcases List.mem_cons.mp hc with rfl | hc
        · exact le_refl _
        · have := hs.sorted; rw [hb, List.pairwise_cons] at this
          exact (this.1 c hc).le

theorem hasDistribution_spec {s : SDSet n} (hs : s.WF) (sz : Int) :
    s.hasDistribution sz = true ↔ ∃ x ∈ s.members, x.size = sz := by
  unfold hasDistribution
  constructor
  · intro h
    obtain ⟨v, hv⟩ := Option.isSome_iff_exists.mp h
    have hm := bucket_some hv
    obtain ⟨x, hx⟩ := List.exists_mem_of_ne_nil _ (hs.nonempty _ hm)
    exact ⟨x, mem_members.mpr ⟨_, hm, hx⟩, (hs.filed _ hm x hx).1⟩
  · rintro ⟨x, hx, rfl⟩
    obtain ⟨b, hb, hxb⟩ := mem_members.mp hx
    cases h : bucket x.size s.buckets with
    | none => exact absurd (hs.filed b hb x hxb).1.symm (bucket_none h b hb)
    | some v => rfl

theorem getSize_eq (s : SDSet n) : s.getSize = s.members.length := by
  unfold getSize members
  rw [List.length_flatMap]
  have : ∀ (l : List (Int × List (SD n))) (a : ℕ), l.foldl (fun acc b => acc + b.2.length) a = a + (l.map fun b => b.2.length).sum := by
    intro l
    induction l with
    | nil => simp
    | cons b l ih => intro a; simp only [List.foldl_cons, ih, List.map_cons, List.sum_cons]; omega
  rw [this]; simp

theorem has_spec (s : SDSet n) (d : SD n) : s.has d = true ↔ ∃ x ∈ s.members, x.quantity = d.quantity := by
  have : ∀ (l : List (SD n)) (a : Bool), l.foldl (fun acc x => if d.eqv x then true else acc) a = true ↔
      a = true ∨ ∃ x ∈ l, x.quantity = d.quantity := by
    intro l
    induction l with
    | nil => simp
    | cons y l ih =>
      intro a
      rw [List.foldl_cons, ih]
      by_cases h : d.eqv y = true
      · rw [if_pos h]
        have := ((SD.eqv_iff _ _).mp h).symm
        simp [this]
      · rw [if_neg h]
        have hq : y.quantity ≠ d.quantity := fun hq => h ((SD.eqv_iff _ _).mpr hq.symm)
        simp [hq]
  unfold has
  rw [this]; simp

/-- Adding a list of consistent distributions. -/
theorem foldl_add_spec {s : SDSet n} (hs : s.WF) (l : List (SD n)) (hl : ∀ d ∈ l, d.Consistent) :
    (l.foldl add s).WF ∧ (∀ x ∈ (l.foldl add s).members, x ∈ s.members ∨ x ∈ l) ∧
    (∀ x ∈ s.members, x ∈ (l.foldl add s).members) ∧
    (∀ x ∈ l, ∃ y ∈ (l.foldl add s).members, y.quantity = x.quantity) := by
  induction l generalizing s with
  | nil => exact ⟨hs, fun x hx => Or.inl hx, fun x hx => hx, by simp⟩
  | cons d l ih =>
    obtain ⟨w, m⟩ := add_spec hs (hl d (by simp))
    obtain ⟨a1, a2, a3, a4⟩ := ih w (fun x hx => hl x (by simp [hx]))
    rw [List.foldl_cons]
    refine ⟨a1, fun x hx => ?_, fun x hx => a3 x ((m x).mpr (Or.inl hx)), fun x hx => ?_⟩
    · rcases a2 x hx with h | h
      · rcases (m x).mp h with h | ⟨h, -⟩
        · exact Or.inl h
        · right; simp [h]
      · right; simp [h]
    · rcases List.mem_cons.mp hx with rfl | hx
      · by_cases hq : ∀ y ∈ s.members, y.quantity ≠ x.quantity
        · exact ⟨x, a3 x ((m x).mpr (Or.inr ⟨rfl, hq⟩)), rfl⟩
        · push Not at hq
          obtain ⟨y, hy, hq⟩ := hq
          exact ⟨y, a3 y ((m y).mpr (Or.inl hy)), hq⟩
      · exact a4 x hx

/-- Removing a list of consistent distributions. -/
theorem removeAll_spec {s : SDSet n} (hs : s.WF) (l : List (SD n)) (hl : ∀ d ∈ l, d.Consistent) :
    (s.removeAll l).WF ∧ (∀ x, x ∈ (s.removeAll l).members ↔ x ∈ s.members ∧ ∀ d ∈ l, x.quantity ≠ d.quantity) := by
  unfold removeAll
  induction l generalizing s with
  | nil => exact ⟨hs, by simp⟩
  | cons d l ih =>
    obtain ⟨w, m⟩ := remove_spec hs (hl d (by simp))
    obtain ⟨a1, a2⟩ := ih w (fun x hx => hl x (by simp [hx]))
    rw [List.foldl_cons]
    refine ⟨a1, fun x => ?_⟩
    rw [a2, m]
    constructor
    · rintro ⟨⟨h1, h2⟩, h3⟩
      refine ⟨h1, fun y hy => ?_⟩
      rcases List.mem_cons.mp hy with rfl | hy
      · exact h2
      · exact h3 y hy
    · rintro ⟨h1, h2⟩
      exact ⟨⟨h1, h2 d (by simp)⟩, fun y hy => h2 y (by simp [hy])⟩

/-! ### Infeasible, feasible and knee points -/

theorem unsatScan_spec (d : SD n) (l : List (SD n)) (hl : ∀ x ∈ l, x.Consistent) (sub : SDSet n) (hsub : sub.WF) :
    (unsatScan d l sub = none ↔ ∃ x ∈ l, d.quantity ≤ x.quantity) ∧
    ∀ r, unsatScan d l sub = some r → r.WF ∧
      ∀ q, (∃ x ∈ r.members, x.quantity = q) ↔
        (∃ x ∈ sub.members, x.quantity = q) ∨ ∃ x ∈ l, x.quantity = q ∧ q ≤ d.quantity ∧ q ≠ d.quantity := by
  induction l generalizing sub with
  | nil => exact ⟨by simp [unsatScan], fun r hr => by cases hr; exact ⟨hsub, by simp⟩⟩
  | cons y l ih =>
    have hy := hl y (by simp)
    have hl' : ∀ x ∈ l, x.Consistent := fun x hx => hl x (by simp [hx])
    unfold unsatScan
    split
    · rename_i h
      rw [Bool.and_eq_true, SD.back_iff, SD.neqv_iff] at h
      obtain ⟨w, m⟩ := add_spec hsub hy
      obtain ⟨i1, i2⟩ := ih hl' (sub.add y) w
      refine ⟨?_, fun r hr => ?_⟩
      · rw [i1]
        constructor
        · rintro ⟨x, hx, h'⟩; exact ⟨x, by simp [hx], h'⟩
        · rintro ⟨x, hx, h'⟩
          rcases List.mem_cons.mp hx with rfl | hx
          · exact absurd (le_antisymm h.1 h') h.2
          · exact ⟨x, hx, h'⟩
      · obtain ⟨r1, r2⟩ := i2 r hr
        refine ⟨r1, fun q => ?_⟩
        rw [r2]
        constructor
        · rintro (⟨x, hx, h'⟩ | ⟨x, hx, h'⟩)
          · rcases (m x).mp hx with hx | ⟨rfl, -⟩
            · exact Or.inl ⟨x, hx, h'⟩
            · exact Or.inr ⟨x, by simp, h', by rw [← h']; exact h.1, by rw [← h']; exact h.2⟩
          · exact Or.inr ⟨x, by simp [hx], h'⟩
        · rintro (⟨x, hx, h'⟩ | ⟨x, hx, h'⟩)
          · exact Or.inl ⟨x, (m x).mpr (Or.inl hx), h'⟩
          · rcases List.mem_cons.mp hx with rfl | hx
            · left
              by_cases hq : ∀ y ∈ sub.members, y.quantity ≠ x.quantity
              · exact ⟨x, (m x).mpr (Or.inr ⟨rfl, hq⟩), h'.1⟩
              · push Not at hq
                obtain ⟨z, hz, hq⟩ := hq
                exact ⟨z, (m z).mpr (Or.inl hz), by rw [hq]; exact h'.1⟩
            · exact Or.inr ⟨x, hx, h'⟩
    · rename_i h
      rw [Bool.and_eq_true, SD.back_iff, SD.neqv_iff] at h
      split
      · rename_i h2
        rw [SD.back_iff] at h2
        exact ⟨⟨fun _ => ⟨y, by simp, h2⟩, fun _ => rfl⟩, by simp⟩
      · rename_i h2
        rw [SD.back_iff] at h2
        obtain ⟨i1, i2⟩ := ih hl' sub hsub
        refine ⟨?_, fun r hr => ?_⟩
        · rw [i1]
          constructor
          · rintro ⟨x, hx, h'⟩; exact ⟨x, by simp [hx], h'⟩
          · rintro ⟨x, hx, h'⟩
            rcases List.mem_cons.mp hx with rfl | hx
            · exact absurd h' h2
            · exact ⟨x, hx, h'⟩
        · obtain ⟨r1, r2⟩ := i2 r hr
          refine ⟨r1, fun q => ?_⟩
          rw [r2]
          constructor
          · rintro (h' | ⟨x, hx, h'⟩)
            · exact Or.inl h'
            · exact Or.inr ⟨x, by simp [hx], h'⟩
          · rintro (h' | ⟨x, hx, h'⟩)
            · exact Or.inl h'
            · rcases List.mem_cons.mp hx with rfl | hx
              · rw [← h'.1] at h'
                exact absurd h'.2 h
              · exact Or.inr ⟨x, hx, h'⟩

theorem addToUnsat_spec {s : SDSet n} (hs : s.WF) {d : SD n} (hd : d.Consistent) :
    (s.addToUnsat d).1.WF ∧
    ((s.addToUnsat d).2 = false ↔ ∃ x ∈ s.members, d.quantity ≤ x.quantity) ∧
    ((s.addToUnsat d).2 = false → (s.addToUnsat d).1 = s) ∧
    ((s.addToUnsat d).2 = true → ∀ x, x ∈ (s.addToUnsat d).1.members ↔ (x ∈ s.members ∧ ¬ x.quantity ≤ d.quantity) ∨ x = d) := by
  obtain ⟨h1, h2⟩ := unsatScan_spec d s.members (fun x hx => hs.consistent hx) empty wf_empty
  unfold addToUnsat
  cases h : unsatScan d s.members empty with
  | none => exact ⟨hs, ⟨fun _ => h1.mp h, fun _ => rfl⟩, fun _ => rfl, by simp⟩
  | some sub =>
    obtain ⟨w, m⟩ := h2 sub h
    have hno : ¬ ∃ x ∈ s.members, d.quantity ≤ x.quantity := by rw [← h1, h]; simp
    obtain ⟨rw1, rm⟩ := removeAll_spec hs sub.members (fun x hx => w.consistent hx)
    obtain ⟨aw, am⟩ := add_spec rw1 hd
    refine ⟨aw, ⟨by simp, fun hh => absurd hh hno⟩, by simp, fun _ x => ?_⟩
    show x ∈ ((s.removeAll sub.members).add d).members ↔ _
    rw [am, rm]
    have key : ∀ x ∈ s.members, (∀ y ∈ sub.members, x.quantity ≠ y.quantity) ↔ ¬ x.quantity ≤ d.quantity := by
      intro x hx
      have hne : x.quantity ≠ d.quantity := fun he => hno ⟨x, hx, he.ge⟩
      constructor
      · intro h hle
        obtain ⟨y, hy, hq⟩ := (m x.quantity).mpr (Or.inr ⟨x, hx, rfl, hle, hne⟩)
        exact h y hy hq.symm
      · intro hle y hy hq
        rcases (m y.quantity).mp ⟨y, hy, rfl⟩ with ⟨z, hz, -⟩ | ⟨z, hz, -, h2, -⟩
        · simp [members_empty] at hz
        · rw [← hq] at h2; exact hle h2
    constructor
    · rintro (⟨hx, h⟩ | ⟨rfl, -⟩)
      · exact Or.inl ⟨hx, (key x hx).mp h⟩
      · exact Or.inr rfl
    · rintro (⟨hx, h⟩ | rfl)
      · exact Or.inl ⟨hx, (key x hx).mpr h⟩
      · refine Or.inr ⟨rfl, fun y hy hq => ?_⟩
        exact hno ⟨y, ((rm y).mp hy).1, hq.ge⟩

open Classical in
theorem satScan_spec (d : SD n) (l : List (SD n)) (sub : SDSet n) :
    satScan d l sub = if ∃ x ∈ l, x.quantity ≤ d.quantity then none else some sub := by
  induction l with
  | nil => simp [satScan]
  | cons y l ih =>
    unfold satScan
    simp only [SD.for_iff, SD.back_iff]
    by_cases h : y.quantity ≤ d.quantity
    · rw [if_pos h, if_pos ⟨y, by simp, h⟩]
    · rw [if_neg h, if_neg h, ih]
      by_cases h2 : ∃ x ∈ l, x.quantity ≤ d.quantity
      · rw [if_pos h2, if_pos]
        obtain ⟨x, hx, h2⟩ := h2
        exact ⟨x, by simp [hx], h2⟩
      · rw [if_neg h2, if_neg]
        rintro ⟨x, hx, h3⟩
        rcases List.mem_cons.mp hx with rfl | hx
        · exact h h3
        · exact h2 ⟨x, hx, h3⟩

theorem addToSat_spec {s : SDSet n} (hs : s.WF) {d : SD n} (hd : d.Consistent) :
    (s.addToSat d).WF ∧
    ((∃ x ∈ s.members, x.quantity ≤ d.quantity) → s.addToSat d = s) ∧
    ((¬ ∃ x ∈ s.members, x.quantity ≤ d.quantity) → ∀ x, x ∈ (s.addToSat d).members ↔ x ∈ s.members ∨ x = d) := by
  unfold addToSat
  rw [satScan_spec]
  by_cases h : ∃ x ∈ s.members, x.quantity ≤ d.quantity
  · rw [if_pos h]; exact ⟨hs, fun _ => rfl, fun hn => absurd h hn⟩
  · rw [if_neg h]
    obtain ⟨w, m⟩ := add_spec hs hd
    refine ⟨w, fun hh => absurd hh h, fun _ x => ?_⟩
    show x ∈ (s.add d).members ↔ _
    rw [m]
    constructor
    · rintro (h | ⟨h, -⟩)
      · exact Or.inl h
      · exact Or.inr h
    · rintro (h | rfl)
      · exact Or.inl h
      · exact Or.inr ⟨rfl, fun y hy hq => h ⟨y, hy, hq.le⟩⟩

theorem extScan_spec (d : SD n) (l : List (SD n)) (hl : ∀ x ∈ l, x.Consistent) (sub : SDSet n) (hsub : sub.WF)
    (hsd : ∀ x ∈ sub.members, d.quantity ≤ x.quantity) :
    (extScan d l sub = none → ∃ x ∈ l, x.quantity ≤ d.quantity) ∧
    ∀ r, extScan d l sub = some r → r.WF ∧ ∀ x ∈ r.members, d.quantity ≤ x.quantity := by
  induction l generalizing sub with
  | nil => exact ⟨by simp [extScan], fun r hr => by cases hr; exact ⟨hsub, hsd⟩⟩
  | cons y l ih =>
    have hy := hl y (by simp)
    have hl' : ∀ x ∈ l, x.Consistent := fun x hx => hl x (by simp [hx])
    unfold extScan
    split
    · rename_i h
      rw [SD.for_iff] at h
      obtain ⟨w, m⟩ := add_spec hsub hy
      obtain ⟨i1, i2⟩ := ih hl' (sub.add y) w (fun x hx => by
        rcases (m x).mp hx with hx | ⟨rfl, -⟩
        · exact hsd x hx
        · exact h)
      refine ⟨fun hn => ?_, i2⟩
      obtain ⟨x, hx, h'⟩ := i1 hn
      exact ⟨x, by simp [hx], h'⟩
    · split
      · rename_i h2
        rw [SD.for_iff] at h2
        exact ⟨fun _ => ⟨y, by simp, h2⟩, by simp⟩
      · obtain ⟨i1, i2⟩ := ih hl' sub hsub hsd
        refine ⟨fun hn => ?_, i2⟩
        obtain ⟨x, hx, h'⟩ := i1 hn
        exact ⟨x, by simp [hx], h'⟩

theorem addToExtensions_spec {s : SDSet n} (hs : s.WF) {d : SD n} (hd : d.Consistent) :
    (s.addToExtensions d).WF ∧ (∀ x ∈ (s.addToExtensions d).members, x ∈ s.members ∨ x = d) ∧
    (∀ x, x ∈ s.members ∨ x = d → ∃ y ∈ (s.addToExtensions d).members, y.quantity ≤ x.quantity) := by
  obtain ⟨h1, h2⟩ := extScan_spec d s.members (fun x hx => hs.consistent hx) empty wf_empty (by simp [members_empty])
  unfold addToExtensions
  cases h : extScan d s.members empty with
  | none =>
    refine ⟨hs, fun x hx => Or.inl hx, fun x hx => ?_⟩
    rcases hx with hx | rfl
    · exact ⟨x, hx, le_refl _⟩
    · exact h1 h
  | some sub =>
    obtain ⟨w, hle⟩ := h2 sub h
    obtain ⟨rw1, rm⟩ := removeAll_spec hs sub.members (fun x hx => w.consistent hx)
    obtain ⟨aw, am⟩ := add_spec rw1 hd
    have hdin : ∃ y ∈ ((s.removeAll sub.members).add d).members, y.quantity = d.quantity := by
      by_cases hq : ∀ y ∈ (s.removeAll sub.members).members, y.quantity ≠ d.quantity
      · exact ⟨d, (am d).mpr (Or.inr ⟨rfl, hq⟩), rfl⟩
      · push Not at hq
        obtain ⟨y, hy, hq⟩ := hq
        exact ⟨y, (am y).mpr (Or.inl hy), hq⟩
    refine ⟨aw, fun x hx => ?_, fun x hx => ?_⟩
    · rcases (am x).mp hx with hx | ⟨hx, -⟩
      · exact Or.inl ((rm x).mp hx).1
      · exact Or.inr hx
    · obtain ⟨y, hy, hq⟩ := hdin
      rcases hx with hx | rfl
      · by_cases hr : ∀ z ∈ sub.members, x.quantity ≠ z.quantity
        · exact ⟨x, (am x).mpr (Or.inl ((rm x).mpr ⟨hx, hr⟩)), le_refl _⟩
        · push Not at hr
          obtain ⟨z, hz, hr⟩ := hr
          exact ⟨y, hy, by rw [hq, hr]; exact hle z hz⟩
      · exact ⟨y, hy, hq.le⟩

theorem foldl_ext_spec {s : SDSet n} (hs : s.WF) (l : List (SD n)) (hl : ∀ d ∈ l, d.Consistent) :
    (l.foldl addToExtensions s).WF ∧ (∀ x ∈ (l.foldl addToExtensions s).members, x ∈ s.members ∨ x ∈ l) ∧
    (∀ x, x ∈ s.members ∨ x ∈ l → ∃ y ∈ (l.foldl addToExtensions s).members, y.quantity ≤ x.quantity) := by
  induction l generalizing s with
  | nil => exact ⟨hs, fun x hx => Or.inl hx, fun x hx => ⟨x, by simpa using hx, le_refl _⟩⟩
  | cons d l ih =>
    obtain ⟨w, m1, m2⟩ := addToExtensions_spec hs (hl d (by simp))
    obtain ⟨a1, a2, a3⟩ := ih w (fun x hx => hl x (by simp [hx]))
    rw [List.foldl_cons]
    refine ⟨a1, fun x hx => ?_, fun x hx => ?_⟩
    · rcases a2 x hx with h | h
      · rcases m1 x h with h | h
        · exact Or.inl h
        · right; simp [h]
      · right; simp [h]
    · have : (∃ y ∈ (s.addToExtensions d).members, y.quantity ≤ x.quantity) ∨ x ∈ l := by
        rcases hx with hx | hx
        · exact Or.inl (m2 x (Or.inl hx))
        · rcases List.mem_cons.mp hx with hx | hx
          · exact Or.inl (m2 x (Or.inr hx))
          · exact Or.inr hx
      rcases this with ⟨y, hy, h⟩ | hx
      · obtain ⟨z, hz, h'⟩ := a3 y (Or.inl hy)
        exact ⟨z, hz, h'.trans h⟩
      · exact a3 x (Or.inr hx)

/-- `add(sd, kneePoints)`: effect on the region strictly above the knees. -/
theorem addKnee_spec {s knees : SDSet n} (hk : knees.WF) {d : SD n} :
    (s.addKnee d knees).1 = (s.addToUnsat d).1 ∧ (s.addKnee d knees).2.WF ∧
    ((s.addToUnsat d).2 = false → (s.addKnee d knees).2 = knees) ∧
    ((s.addToUnsat d).2 = true → ∀ x : Fin n → Int,
      (∃ k ∈ (s.addKnee d knees).2.members, ∀ e, k.quantity e < x e) ↔
      (∃ k ∈ knees.members, ∀ e, k.quantity e < x e) ∧ ¬ x ≤ d.quantity) := by
  cases hr : (s.addToUnsat d).2 with
  | false =>
    have e : s.addKnee d knees = ((s.addToUnsat d).1, knees) := by unfold addKnee; simp [hr]
    rw [e]
    exact ⟨rfl, hk, fun _ => rfl, by simp⟩
  | true =>
    set subsumed := (knees.members.filter fun k => k.inBackConeOf d).foldl add (empty : SDSet n) with hsub
    set ext := (subsumed.members.flatMap fun k => (List.finRange n).map fun e => k.setQuantity e (d.quantity e)).foldl
      addToExtensions (empty : SDSet n) with hext
    have e : s.addKnee d knees = ((s.addToUnsat d).1, ext.members.foldl add (knees.removeAll subsumed.members)) := by
      unfold addKnee; simp [hr, hsub, hext]
    rw [e]
    obtain ⟨w1, w2, w3, w4⟩ := foldl_add_spec (wf_empty (n := n)) (knees.members.filter fun k => k.inBackConeOf d)
      (fun k hkk => hk.consistent (List.mem_filter.mp hkk).1)
    rw [← hsub] at w1 w2 w3 w4
    have hsubmem : ∀ k ∈ subsumed.members, k ∈ knees.members ∧ k.quantity ≤ d.quantity := by
      intro k hkk
      rcases w2 k hkk with h | h
      · simp [members_empty] at h
      · exact ⟨(List.mem_filter.mp h).1, (SD.back_iff _ _).mp (List.mem_filter.mp h).2⟩
    have hsubin : ∀ k ∈ knees.members, k.quantity ≤ d.quantity → ∃ y ∈ subsumed.members, y.quantity = k.quantity :=
      fun k hkk hle => w4 k (List.mem_filter.mpr ⟨hkk, (SD.back_iff _ _).mpr hle⟩)
    obtain ⟨v1, v2⟩ := removeAll_spec hk subsumed.members (fun x hx => w1.consistent hx)
    obtain ⟨x1, x2, x3⟩ := foldl_ext_spec (wf_empty (n := n))
      (subsumed.members.flatMap fun k => (List.finRange n).map fun e => k.setQuantity e (d.quantity e)) (by
        intro y hy
        obtain ⟨k, -, hy⟩ := List.mem_flatMap.mp hy
        obtain ⟨f, -, rfl⟩ := List.mem_map.mp hy
        exact (k.setQuantity_spec f _).1)
    rw [← hext] at x1 x2 x3
    obtain ⟨y1, y2, y3, y4⟩ := foldl_add_spec v1 ext.members (fun x hx => x1.consistent hx)
    refine ⟨rfl, y1, by simp, fun _ x => ?_⟩
    show (∃ k ∈ (ext.members.foldl add (knees.removeAll subsumed.members)).members, ∀ e, k.quantity e < x e) ↔ _
    constructor
    · rintro ⟨k, hkk, hlt⟩
      rcases y2 k hkk with h | h
      · obtain ⟨h1, h2⟩ := (v2 k).mp h
        refine ⟨⟨k, h1, hlt⟩, fun hle => ?_⟩
        have : k.quantity ≤ d.quantity := fun f => (hlt f).le.trans (hle f)
        obtain ⟨y, hy, hq⟩ := hsubin k h1 this
        exact h2 y hy hq.symm
      · rcases x2 k h with h | h
        · simp [members_empty] at h
        · obtain ⟨k0, hk0, h⟩ := List.mem_flatMap.mp h
          obtain ⟨f, -, rfl⟩ := List.mem_map.mp h
          obtain ⟨m1, m2⟩ := hsubmem k0 hk0
          rw [(k0.setQuantity_spec f _).2.1] at hlt
          refine ⟨⟨k0, m1, fun g => ?_⟩, fun hle => ?_⟩
          · have := hlt g
            by_cases hg : g = f
            · subst hg
              rw [Function.update_self] at this
              exact (m2 g).trans_lt this
            · rwa [Function.update_of_ne hg] at this
          · have h1 := hlt f
            rw [Function.update_self] at h1
            exact absurd (hle f) (not_le.mpr h1)
    · rintro ⟨⟨k, hkk, hlt⟩, hle⟩
      by_cases hkd : k.quantity ≤ d.quantity
      · obtain ⟨y, hy, hq⟩ := hsubin k hkk hkd
        have : ∃ f, d.quantity f < x f := by
          by_contra hcon
          push Not at hcon
          exact hle hcon
        obtain ⟨f, hf⟩ := this
        obtain ⟨z, hz, hzle⟩ := x3 (y.setQuantity f (d.quantity f)) (Or.inr
          (List.mem_flatMap.mpr ⟨y, hy, List.mem_map.mpr ⟨f, List.mem_finRange f, rfl⟩⟩))
        obtain ⟨z', hz', hq'⟩ := y4 z hz
        refine ⟨z', hz', fun g => ?_⟩
        rw [hq']
        have h1 := hzle g
        rw [(y.setQuantity_spec f _).2.1] at h1
        by_cases hg : g = f
        · subst hg
          rw [Function.update_self] at h1
          exact h1.trans_lt hf
        · rw [Function.update_of_ne hg, hq] at h1
          exact h1.trans_lt (hlt g)
      · refine ⟨k, y3 k ((v2 k).mpr ⟨hkk, fun y hy hq => hkd ?_⟩), hlt⟩
        rw [hq]; exact (hsubmem y hy).2

end SDSet

end Kiter
