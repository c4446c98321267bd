/-
Properties C27-C33: storage distributions and the sets of distributions used by the buffer explorations.

Specification vocabulary: a distribution is observed through its quantities `Fin n → Int` (one per channel), ordered
pointwise by `≤`; a set of distributions is observed through `members` (what iterating over it yields).
-/
import Verif.Lemmas.Storage

set_option autoImplicit false

namespace Kiter

open Finset

variable {n : ℕ}

/-! ### C27: one distribution -/

/-- The mutators of a distribution. -/
inductive SDOp (n : ℕ)
  | setQuantity (e : Fin n) (q : Int)
  | setInitial (e : Fin n) (q : Int)
  | setThr (t : ℚ)

/-- Run one mutator. -/
def SDOp.run (s : SD n) : SDOp n → SD n
  | .setQuantity e q => s.setQuantity e q
  | .setInitial e q => s.setInitial e q
  | .setThr t => s.setThr t

/-- The quantity a mutator writes to channel `e`, if any. -/
def SDOp.written (e : Fin n) : SDOp n → Option Int
  | .setQuantity e' q => if e' = e then some q else none
  | _ => none

/-- Specification: the quantity last written to channel `e` by a history, if any. -/
def lastQuantity (e : Fin n) (ops : List (SDOp n)) : Option Int := (ops.reverse.filterMap (SDOp.written e)).head?

theorem lastQuantity_append (e : Fin n) (a : List (SDOp n)) (op : SDOp n) :
    lastQuantity e (a ++ [op]) = (op.written e).or (lastQuantity e a) := by
  unfold lastQuantity
  rw [List.reverse_append, List.reverse_singleton, List.singleton_append, List.filterMap_cons]
  cases op.written e <;> simp

/-- **C27.** After any history of mutator calls on a distribution whose size was right at the start (or after any history
containing at least one quantity update, whatever the start), the reported size is the sum of the quantities, and every
quantity read is the last one written, or the original one if none was. -/
theorem C27_size_is_sum (s : SD n) (ops : List (SDOp n))
    (h : s.size = ∑ e, s.quantity e ∨ ∃ e q, SDOp.setQuantity e q ∈ ops) :
    (ops.foldl SDOp.run s).size = ∑ e, (ops.foldl SDOp.run s).quantity e ∧
    ∀ e, (ops.foldl SDOp.run s).quantity e = (lastQuantity e ops).getD (s.quantity e) := by
  induction ops using List.reverseRecOn with
  | nil => simpa [lastQuantity] using h
  | append_singleton ops op ih =>
    rw [List.foldl_append, List.foldl_cons, List.foldl_nil]
    have hq : ∀ e, (ops.foldl SDOp.run s).quantity e = (lastQuantity e ops).getD (s.quantity e) := by
      clear ih h
      induction ops using List.reverseRecOn with
      | nil => simp [lastQuantity]
      | append_singleton ops op' ih' =>
        intro e
        rw [List.foldl_append, List.foldl_cons, List.foldl_nil, lastQuantity_append]
        cases op' with
        | setQuantity e' q =>
          show ((ops.foldl SDOp.run s).setQuantity e' q).quantity e = _
          rw [((ops.foldl SDOp.run s).setQuantity_spec e' q).2.1]
          by_cases he : e' = e
          · subst he; simp [SDOp.written]
          · rw [Function.update_of_ne (Ne.symm he), ih']; simp [SDOp.written, he]
        | setInitial e' q => show (ops.foldl SDOp.run s).quantity e = _; rw [ih']; simp [SDOp.written]
        | setThr t => show (ops.foldl SDOp.run s).quantity e = _; rw [ih']; simp [SDOp.written]
    cases op with
    | setQuantity e' q =>
      refine ⟨((ops.foldl SDOp.run s).setQuantity_spec e' q).1, fun e => ?_⟩
      show ((ops.foldl SDOp.run s).setQuantity e' q).quantity e = _
      rw [((ops.foldl SDOp.run s).setQuantity_spec e' q).2.1, lastQuantity_append]
      by_cases he : e' = e
      · subst he; simp [SDOp.written]
      · rw [Function.update_of_ne (Ne.symm he), hq]; simp [SDOp.written, he]
    | setInitial e' q =>
      have h' : s.size = ∑ e, s.quantity e ∨ ∃ e q, SDOp.setQuantity e q ∈ ops := by
        rcases h with h | ⟨e, q, h⟩
        · exact Or.inl h
        · right; simp at h; exact ⟨e, q, h⟩
      refine ⟨(ih h').1, fun e => ?_⟩
      show (ops.foldl SDOp.run s).quantity e = _
      rw [hq, lastQuantity_append]; simp [SDOp.written]
    | setThr t =>
      have h' : s.size = ∑ e, s.quantity e ∨ ∃ e q, SDOp.setQuantity e q ∈ ops := by
        rcases h with h | ⟨e, q, h⟩
        · exact Or.inl h
        · right; simp at h; exact ⟨e, q, h⟩
      refine ⟨(ih h').1, fun e => ?_⟩
      show (ops.foldl SDOp.run s).quantity e = _
      rw [hq, lastQuantity_append]; simp [SDOp.written]

/-- The hypothesis of C27 is needed: a distribution constructed with a wrong size keeps it until a quantity is
written (the constructor of buffer_sizing.cpp:20-24 takes the size as an argument and does not check it). -/
theorem C27_needs_update : ((⟨![1, 2], ![0, 0], 0, 7⟩ : SD 2).setThr 1).size ≠
    ∑ e, ((⟨![1, 2], ![0, 0], 0, 7⟩ : SD 2).setThr 1).quantity e := by decide +kernel

example : ([SDOp.setQuantity 1 5, .setThr 3, .setQuantity 0 4, .setQuantity 1 2].foldl SDOp.run
    (⟨![1, 2], ![0, 0], 0, 7⟩ : SD 2)).size = 6 :=
  (C27_size_is_sum _ _ (Or.inr ⟨1, 5, by simp⟩)).1.trans (by decide +kernel)

/-! ### C33: pointwise minimum -/

/-- **C33.** `makeMinimalSD` computes the greatest lower bound of the two distributions: it is below both, above every
distribution below both, its size is the sum of its quantities, and it keeps the initial tokens of the first argument. -/
theorem C33_makeMinimal_glb (a b : SD n) (ha : a.size = ∑ e, a.quantity e) :
    (a.makeMinimal b).quantity ≤ a.quantity ∧ (a.makeMinimal b).quantity ≤ b.quantity ∧
    (∀ c : Fin n → Int, c ≤ a.quantity → c ≤ b.quantity → c ≤ (a.makeMinimal b).quantity) ∧
    (a.makeMinimal b).size = ∑ e, (a.makeMinimal b).quantity e ∧ (a.makeMinimal b).initial = a.initial := by
  have gen : ∀ (l : List (Fin n)) (m : SD n), m.Consistent → m.initial = a.initial →
      let r := l.foldl (fun m e => m.setQuantity e (min (a.quantity e) (b.quantity e))) m
      r.Consistent ∧ r.initial = a.initial ∧
        ∀ e, r.quantity e = if e ∈ l then min (a.quantity e) (b.quantity e) else m.quantity e := by
    intro l
    induction l with
    | nil => intro m hm hi; exact ⟨hm, hi, by simp⟩
    | cons f l ih =>
      intro m hm hi
      obtain ⟨s1, s2, s3, -⟩ := m.setQuantity_spec f (min (a.quantity f) (b.quantity f))
      obtain ⟨h1, h2, h3⟩ := ih _ s1 (s3.trans hi)
      refine ⟨h1, h2, fun e => ?_⟩
      rw [List.foldl_cons, h3, s2]
      by_cases hl : e ∈ l
      · simp [hl]
      · by_cases hf : e = f
        · subst hf; simp [hl]
        · simp [hl, hf]
  obtain ⟨h1, h2, h3⟩ := gen (List.finRange n) a ha rfl
  have h4 : ∀ e, (a.makeMinimal b).quantity e = min (a.quantity e) (b.quantity e) := fun e => by
    have := h3 e; rw [if_pos (List.mem_finRange e)] at this; exact this
  refine ⟨fun e => ?_, fun e => ?_, fun c hca hcb e => ?_, h1, h2⟩
  · rw [h4]; exact min_le_left _ _
  · rw [h4]; exact min_le_right _ _
  · rw [h4]; exact le_min (hca e) (hcb e)

example : ((⟨![3, 2], ![1, 0], 0, 5⟩ : SD 2).makeMinimal ⟨![1, 6], ![0, 0], 0, 7⟩).size = 3 := by decide +kernel

/-! ### C28: a set of distributions -/

/-- Histories of additions and removals. -/
inductive SetOp (n : ℕ)
  | add (d : SD n)
  | remove (d : SD n)

/-- Run one operation. -/
def SetOp.run (s : SDSet n) : SetOp n → SDSet n
  | .add d => s.add d
  | .remove d => s.remove d

/-- The argument of an operation. -/
def SetOp.arg : SetOp n → SD n
  | .add d => d
  | .remove d => d

/-- Specification: the mathematical set of quantity vectors after a history. -/
def specSet : List (SetOp n) → Set (Fin n → Int) → Set (Fin n → Int)
  | [], S => S
  | .add d :: rest, S => specSet rest (insert d.quantity S)
  | .remove d :: rest, S => specSet rest (S \ {d.quantity})

theorem setHistory (ops : List (SetOp n)) (s : SDSet n) (hs : s.WF) (S : Set (Fin n → Int))
    (hS : ∀ q, q ∈ S ↔ ∃ x ∈ s.members, x.quantity = q) (h : ∀ op ∈ ops, op.arg.Consistent) :
    (ops.foldl SetOp.run s).WF ∧
    ∀ q, q ∈ specSet ops S ↔ ∃ x ∈ (ops.foldl SetOp.run s).members, x.quantity = q := by
  induction ops generalizing s S with
  | nil => exact ⟨hs, hS⟩
  | cons op ops ih =>
    have hop := h op (by simp)
    have hr : ∀ op ∈ ops, op.arg.Consistent := fun o ho => h o (by simp [ho])
    cases op with
    | add d =>
      obtain ⟨w, m⟩ := SDSet.add_spec hs hop
      refine ih (s.add d) w (insert d.quantity S) (fun q => ?_) hr
      rw [Set.mem_insert_iff, hS]
      constructor
      · rintro (rfl | ⟨x, hx, h⟩)
        · by_cases hq : ∀ y ∈ s.members, y.quantity ≠ d.quantity
          · exact ⟨d, (m d).mpr (Or.inr ⟨rfl, hq⟩), rfl⟩
          · push Not at hq
            obtain ⟨y, hy, hq⟩ := hq
            exact ⟨y, (m y).mpr (Or.inl hy), hq⟩
        · exact ⟨x, (m x).mpr (Or.inl hx), h⟩
      · rintro ⟨x, hx, hxq⟩
        rcases (m x).mp hx with hx | ⟨rfl, -⟩
        · exact Or.inr ⟨x, hx, hxq⟩
        · exact Or.inl hxq.symm
    | remove d =>
      obtain ⟨w, m⟩ := SDSet.remove_spec hs hop
      refine ih (s.remove d) w (S \ {d.quantity}) (fun q => ?_) hr
      rw [Set.mem_sdiff, Set.mem_singleton_iff, hS]
      constructor
      · rintro ⟨⟨x, hx, rfl⟩, h⟩
        exact ⟨x, (m x).mpr ⟨hx, h⟩, rfl⟩
      · rintro ⟨x, hx, rfl⟩
        exact ⟨⟨x, ((m x).mp hx).1, rfl⟩, ((m x).mp hx).2⟩

/-- **C28 (contents).** After any history of additions and removals of distributions with right sizes, the set contains
exactly the quantity vectors added and not removed since; `hasStorageDistribution` decides membership; no quantity vector
occurs twice; `getSize` is the number of members; the members come out in order of size, each filed under its own size;
and `getNextDistribution` is undefined exactly on the empty set, and otherwise a member of minimal size. -/
theorem C28_set_contents (ops : List (SetOp n)) (h : ∀ op ∈ ops, op.arg.size = ∑ e, op.arg.quantity e) :
    let s := ops.foldl SetOp.run SDSet.empty
    (∀ q, q ∈ specSet ops ∅ ↔ ∃ x ∈ s.members, x.quantity = q) ∧
    (∀ d : SD n, s.has d = true ↔ d.quantity ∈ specSet ops ∅) ∧
    (s.members.Pairwise fun x y => x.quantity ≠ y.quantity) ∧
    s.getSize = s.members.length ∧
    (∀ b ∈ s.buckets, ∀ d ∈ b.2, d.size = b.1) ∧
    (∀ sz, s.hasDistribution sz = true ↔ ∃ d ∈ s.members, d.size = sz) ∧
    (s.next = none ↔ specSet ops ∅ = ∅) ∧
    (∀ d, s.next = some d → d ∈ s.members ∧ ∀ x ∈ s.members, d.size ≤ x.size) := by
  intro s
  obtain ⟨w, m⟩ := setHistory ops SDSet.empty SDSet.wf_empty ∅ (by simp [SDSet.members_empty]) h
  refine ⟨m, fun d => ?_, w.nodup, SDSet.getSize_eq _, fun b hb d hd => (w.filed b hb d hd).1, fun sz => SDSet.hasDistribution_spec w sz, ?_, ?_⟩
  · rw [SDSet.has_spec, m]
  · rw [(SDSet.next_spec w).1, Set.eq_empty_iff_forall_notMem]
    constructor
    · intro he q hq
      obtain ⟨x, hx, -⟩ := (m q).mp hq
      rw [he] at hx; simp at hx
    · intro he
      rw [List.eq_nil_iff_forall_not_mem]
      intro x hx
      exact he x.quantity ((m _).mpr ⟨x, hx, rfl⟩)
  · exact (SDSet.next_spec w).2

/-- **C28 (best throughput).** After any history, the recorded best throughput is at least that of every member, is not
negative, and is 0 or the throughput of a distribution that was added. If throughput depends on the quantities only,
it is the maximum of 0 and all throughputs ever added. -/
theorem C28_pmax (ops : List (SetOp n)) (h : ∀ op ∈ ops, op.arg.size = ∑ e, op.arg.quantity e) :
    let s := ops.foldl SetOp.run SDSet.empty
    (∀ x ∈ s.members, x.thr ≤ s.pmax.2) ∧ 0 ≤ s.pmax.2 ∧
    (s.pmax.2 = 0 ∨ ∃ d, SetOp.add d ∈ ops ∧ s.pmax = (d.size, d.thr)) ∧
    (∀ f : (Fin n → Int) → ℚ, (∀ d, SetOp.add d ∈ ops → d.thr = f d.quantity) →
      ∀ d, SetOp.add d ∈ ops → d.thr ≤ s.pmax.2) := by
  intro s
  suffices H : s.WF ∧ (∀ x ∈ s.members, x.thr ≤ s.pmax.2 ∧ SetOp.add x ∈ ops) ∧ 0 ≤ s.pmax.2 ∧
      (s.pmax.2 = 0 ∨ ∃ d, SetOp.add d ∈ ops ∧ s.pmax = (d.size, d.thr)) ∧
      (∀ f : (Fin n → Int) → ℚ, (∀ d, SetOp.add d ∈ ops → d.thr = f d.quantity) →
        ∀ d, SetOp.add d ∈ ops → d.thr ≤ s.pmax.2) from ⟨fun x hx => (H.2.1 x hx).1, H.2.2⟩
  induction ops using List.reverseRecOn with
  | nil => exact ⟨SDSet.wf_empty, by simp [s, SDSet.members_empty], by simp [s, SDSet.empty], by simp [s, SDSet.empty], by simp⟩
  | append_singleton ops op ih =>
    obtain ⟨w, i1, i2, i3, i4⟩ := ih (fun o ho => h o (by simp [ho]))
    have hop := h op (by simp)
    have hs : s = op.run (ops.foldl SetOp.run SDSet.empty) := by
      simp only [s]; rw [List.foldl_append]; rfl
    set t := ops.foldl SetOp.run SDSet.empty with ht
    clear_value s
    subst hs
    cases op with
    | remove d =>
      obtain ⟨w', m⟩ := SDSet.remove_spec w hop
      refine ⟨w', fun x hx => ?_, i2, ?_, fun f hf d hd => i4 f (fun d hd => hf d (by simp [hd])) d ?_⟩
      · have := i1 x ((m x).mp hx).1
        exact ⟨this.1, by simp [this.2]⟩
      · rcases i3 with h | ⟨d, hd, h⟩
        · exact Or.inl h
        · exact Or.inr ⟨d, by simp [hd], h⟩
      · simpa using hd
    | add d =>
      obtain ⟨w', m⟩ := SDSet.add_spec w hop
      have hp : t.pmax.2 ≤ (t.add d).pmax.2 ∧ ((t.add d).pmax = t.pmax ∨ (t.add d).pmax = (d.size, d.thr)) ∧
          (t.duplicate d = false → d.thr ≤ (t.add d).pmax.2) := by
        unfold SDSet.add
        split
        · rename_i h; exact ⟨le_refl _, Or.inl rfl, by simp [h]⟩
        · simp only
          split
          · rename_i h; exact ⟨h.le, Or.inr rfl, fun _ => le_refl _⟩
          · rename_i h; exact ⟨le_refl _, Or.inl rfl, fun _ => not_lt.mp h⟩
      have hdup : t.duplicate d = true → ∃ x ∈ t.members, x.quantity = d.quantity := by
        intro hd
        unfold SDSet.duplicate at hd
        split at hd
        · simp at hd
        · rename_i l hl
          obtain ⟨x, hx, hxd⟩ := List.any_eq_true.mp hd
          exact ⟨x, SDSet.mem_members.mpr ⟨_, SDSet.bucket_some hl, hx⟩, ((SD.eqv_iff _ _).mp hxd).symm⟩
      refine ⟨w', fun x hx => ?_, i2.trans hp.1, ?_, fun f hf y hy => ?_⟩
      · rcases (m x).mp hx with hx | ⟨rfl, hx⟩
        · exact ⟨(i1 x hx).1.trans hp.1, by simp [(i1 x hx).2]⟩
        · refine ⟨hp.2.2 ?_, by simp⟩
          by_contra hc
          obtain ⟨y, hy, hq⟩ := hdup (by simpa using hc)
          exact hx y hy hq
      · rcases hp.2.1 with he | he
        · show (t.add d).pmax.2 = 0 ∨ _
          rcases i3 with h | ⟨z, hz, h⟩
          · left; rw [he]; exact h
          · right; exact ⟨z, by simp [hz], he.trans h⟩
        · right; exact ⟨d, by simp, he⟩
      · simp only [List.mem_append, List.mem_singleton, SetOp.add.injEq] at hy
        rcases hy with hy | rfl
        · exact (i4 f (fun d hd => hf d (by simp [hd])) y hy).trans hp.1
        · cases hd : t.duplicate y with
          | false => exact hp.2.2 hd
          | true =>
            obtain ⟨x, hx, hq⟩ := hdup hd
            have h1 := i1 x hx
            have e1 := hf x (by simp [h1.2])
            have e2 := hf y (by simp)
            rw [e2, ← hq, ← e1]
            exact h1.1.trans hp.1

/-- Without one throughput per quantity vector the recorded best can miss an added throughput: a second addition of the
same quantities is ignored even if its throughput is larger. -/
theorem C28_duplicate_ignored :
    ([SetOp.add (⟨![1], ![0], 1, 1⟩ : SD 1), SetOp.add ⟨![1], ![0], 2, 1⟩].foldl SetOp.run SDSet.empty).pmax.2 = 1 := by
  decide +kernel

example :
    let s := [SetOp.add (⟨![4, 1], ![0, 0], 1/2, 5⟩ : SD 2), .add ⟨![1, 2], ![0, 0], 1/3, 3⟩, .add ⟨![2, 3], ![0, 0], 0, 5⟩,
      .remove ⟨![4, 1], ![0, 0], 0, 5⟩].foldl SetOp.run SDSet.empty
    s.getSize = 2 ∧ s.pmax = (5, 1/2) ∧ s.has ⟨![2, 3], ![0, 0], 9, 0⟩ = true := by decide +kernel
example : ∀ op ∈ [SetOp.add (⟨![4, 1], ![0, 0], 1/2, 5⟩ : SD 2), .remove ⟨![4, 1], ![0, 0], 0, 5⟩],
    op.arg.size = ∑ e, op.arg.quantity e := by decide +kernel

/-! ### C29: Pareto minimisation -/

/-- Specification: `a` makes `b` useless: it is smaller with no less throughput (up to `eps`), or no larger with strictly
more throughput. -/
def Dominates (eps : ℚ) (a b : SD n) : Prop :=
  (a.size < b.size ∧ (b.thr < a.thr ∨ |b.thr - a.thr| < eps)) ∨ (a.size ≤ b.size ∧ b.thr < a.thr)

theorem minimizeLoop_spec (eps : ℚ) (new : SD n) (hnc : new.Consistent) (l : List (SD n)) (s : SDSet n) (hs : s.WF)
    (hl : ∀ x ∈ l, x.Consistent) (hln : l.Pairwise fun x y => x.quantity ≠ y.quantity) :
    let r := SDSet.minimizeLoop eps new l s
    r.WF ∧ (∀ x ∈ r.members, x ∈ s.members) ∧
    (∀ x ∈ s.members, x.quantity ≠ new.quantity → (∀ y ∈ l, y.size = new.size → y.thr < new.thr → x.quantity ≠ y.quantity) →
      x ∈ r.members) ∧
    ((∃ d ∈ l, Dominates eps d new) → ∀ x ∈ r.members, x.quantity ≠ new.quantity) ∧
    ((¬ ∃ d ∈ l, Dominates eps d new) →
      ∀ x, x ∈ r.members ↔ x ∈ s.members ∧ ∀ y ∈ l, y.size = new.size → y.thr < new.thr → x.quantity ≠ y.quantity) := by
  induction l generalizing s with
  | nil => exact ⟨hs, fun _ h => h, fun _ h _ _ => h, by simp, by simp [SDSet.minimizeLoop]⟩
  | cons d l ih =>
    have hcond : ((new.size > d.size ∧ (new.thr < d.thr ∨ SDSet.areSame eps new.thr d.thr = true)) ∨
        (new.size ≥ d.size ∧ new.thr < d.thr)) ↔ Dominates eps d new := by
      unfold Dominates SDSet.areSame
      simp only [decide_eq_true_eq, gt_iff_lt, ge_iff_le]
    intro r
    by_cases hdom : Dominates eps d new
    · have e : r = s.remove new := by
        simp only [r, SDSet.minimizeLoop]; rw [if_pos (hcond.mpr hdom)]
      clear_value r; subst e
      obtain ⟨w, m⟩ := SDSet.remove_spec hs hnc
      refine ⟨w, fun x hx => ((m x).mp hx).1, fun x hx hne _ => (m x).mpr ⟨hx, hne⟩, fun _ x hx => ((m x).mp hx).2,
        fun hno => absurd ⟨d, by simp, hdom⟩ hno⟩
    · have hl' : ∀ x ∈ l, x.Consistent := fun x hx => hl x (by simp [hx])
      have hln' := (List.pairwise_cons.mp hln).2
      have hex : (∃ y ∈ d :: l, Dominates eps y new) ↔ ∃ y ∈ l, Dominates eps y new := by
        constructor
        · rintro ⟨y, hy, h⟩
          rcases List.mem_cons.mp hy with rfl | hy
          · exact absurd h hdom
          · exact ⟨y, hy, h⟩
        · rintro ⟨y, hy, h⟩; exact ⟨y, by simp [hy], h⟩
      by_cases hd : new.size = d.size ∧ new.thr > d.thr
      · have e : r = SDSet.minimizeLoop eps new l (s.remove d) := by
          simp only [r, SDSet.minimizeLoop]; rw [if_neg (mt hcond.mp hdom), if_pos hd]
        clear_value r; subst e
        obtain ⟨w, m⟩ := SDSet.remove_spec hs (hl d (by simp))
        obtain ⟨i1, i2, i3, i4, i5⟩ := ih (s.remove d) w hl' hln'
        rw [hex]
        refine ⟨i1, fun x hx => ((m x).mp (i2 x hx)).1, fun x hx hne hall => ?_, i4, fun hno x => ?_⟩
        · exact i3 x ((m x).mpr ⟨hx, hall d (by simp) hd.1.symm hd.2⟩) hne (fun y hy => hall y (by simp [hy]))
        · rw [i5 hno, m]
          constructor
          · rintro ⟨⟨hx, hq⟩, hall⟩
            refine ⟨hx, fun y hy => ?_⟩
            rcases List.mem_cons.mp hy with rfl | hy
            · exact fun _ _ => hq
            · exact hall y hy
          · rintro ⟨hx, hall⟩
            exact ⟨⟨hx, hall d (by simp) hd.1.symm hd.2⟩, fun y hy => hall y (by simp [hy])⟩
      · have e : r = SDSet.minimizeLoop eps new l s := by
          simp only [r, SDSet.minimizeLoop]; rw [if_neg (mt hcond.mp hdom), if_neg hd]
        clear_value r; subst e
        obtain ⟨i1, i2, i3, i4, i5⟩ := ih s hs hl' hln'
        rw [hex]
        refine ⟨i1, i2, fun x hx hne hall => i3 x hx hne (fun y hy => hall y (by simp [hy])), i4, fun hno x => ?_⟩
        rw [i5 hno]
        constructor
        · rintro ⟨hx, hall⟩
          refine ⟨hx, fun y hy => ?_⟩
          rcases List.mem_cons.mp hy with rfl | hy
          · intro h1 h2; exact absurd ⟨h1.symm, h2⟩ hd
          · exact hall y hy
        · rintro ⟨hx, hall⟩
          exact ⟨hx, fun y hy => hall y (by simp [hy])⟩

theorem pairwise_inj {l : List (SD n)} (h : l.Pairwise fun x y => x.quantity ≠ y.quantity) {x y : SD n} (hx : x ∈ l)
    (hy : y ∈ l) (hq : x.quantity = y.quantity) : x = y := by
  by_contra hne
  have : Std.Symm fun x y : SD n => x.quantity ≠ y.quantity := ⟨fun _ _ h => h.symm⟩
  exact (h.forall hx hy hne) hq

/-- Effect of one minimisation, exactly: if some member dominates `new`, `new` goes (and possibly slower ones of the same
size); otherwise exactly the slower ones of the same size go. -/
theorem minimize_spec (eps : ℚ) {s : SDSet n} (hs : s.WF) {new : SD n} (hnew : new ∈ s.members) :
    (s.minimize eps new).WF ∧ (∀ x ∈ (s.minimize eps new).members, x ∈ s.members) ∧
    (∀ x ∈ s.members, x ≠ new → ¬ (x.size = new.size ∧ x.thr < new.thr) → x ∈ (s.minimize eps new).members) ∧
    ((∃ d ∈ s.members, Dominates eps d new) → new ∉ (s.minimize eps new).members) ∧
    ((¬ ∃ d ∈ s.members, Dominates eps d new) →
      ∀ x, x ∈ (s.minimize eps new).members ↔ x ∈ s.members ∧ ¬ (x.size = new.size ∧ x.thr < new.thr)) := by
  obtain ⟨h1, h2, h3, h4, h5⟩ := minimizeLoop_spec eps new (hs.consistent hnew) s.members s hs
    (fun x hx => hs.consistent hx) hs.nodup
  refine ⟨h1, h2, fun x hx hne hno => ?_, fun he hin => h4 he new hin rfl, fun hno x => ?_⟩
  · refine h3 x hx (fun hq => hne (pairwise_inj hs.nodup hx hnew hq)) (fun y hy h1 h2 hq => ?_)
    have := pairwise_inj hs.nodup hx hy hq
    subst this
    exact hno ⟨h1, h2⟩
  · show x ∈ (SDSet.minimizeLoop eps new s.members s).members ↔ _
    rw [h5 hno]
    constructor
    · rintro ⟨hx, hall⟩
      exact ⟨hx, fun h => hall x hx h.1 h.2 rfl⟩
    · rintro ⟨hx, hno⟩
      refine ⟨hx, fun y hy h1 h2 hq => ?_⟩
      have := pairwise_inj hs.nodup hx hy hq
      subst this
      exact hno ⟨h1, h2⟩

/-- **C29 (nothing useful is lost).** One call of `minimizeStorageDistributions` keeps, for every distribution of the set,
one that is no larger and, up to `eps`, no slower; it invents nothing. -/
theorem C29_no_loss (eps : ℚ) (heps : 0 < eps) (s : SDSet n) (hs : s.WF) (new : SD n) (hnew : new ∈ s.members) :
    (∀ x ∈ (s.minimize eps new).members, x ∈ s.members) ∧
    ∀ d ∈ s.members, ∃ r ∈ (s.minimize eps new).members, r.size ≤ d.size ∧ d.thr - eps < r.thr := by
  obtain ⟨-, h2, h3, h4, h5⟩ := minimize_spec eps hs hnew
  refine ⟨h2, fun x hx => ?_⟩
  by_cases hdom : ∃ d ∈ s.members, Dominates eps d new
  · obtain ⟨d, hd, hdn⟩ := hdom
    have hsz : d.size ≤ new.size := by rcases hdn with ⟨h, -⟩ | ⟨h, -⟩ <;> omega
    have hth : new.thr - eps < d.thr := by
      rcases hdn with ⟨-, h | h⟩ | ⟨-, h⟩
      · linarith
      · rw [abs_lt] at h; linarith [h.2]
      · linarith
    have hne : d ≠ new := by
      rintro rfl
      rcases hdn with ⟨h, -⟩ | ⟨-, h⟩
      · omega
      · exact absurd h (lt_irrefl _)
    have hkeep : d ∈ (s.minimize eps new).members := h3 d hd hne (by
      rintro ⟨a, b⟩
      rcases hdn with ⟨h, -⟩ | ⟨-, h⟩
      · omega
      · linarith)
    by_cases hxn : x = new
    · subst hxn; exact ⟨d, hkeep, hsz, hth⟩
    · by_cases hxs : x.size = new.size ∧ x.thr < new.thr
      · exact ⟨d, hkeep, by omega, by linarith [hxs.2]⟩
      · exact ⟨x, h3 x hx hxn hxs, le_refl _, by linarith⟩
  · by_cases hxs : x.size = new.size ∧ x.thr < new.thr
    · exact ⟨new, (h5 hdom new).mpr ⟨hnew, fun h => absurd h.2 (lt_irrefl _)⟩, by omega, by linarith [hxs.2]⟩
    · exact ⟨x, (h5 hdom x).mpr ⟨hx, hxs⟩, le_refl _, by linarith⟩

/-- **C29 (no useless point is kept).** If the other distributions do not dominate one another and the new one is not
smaller than any of them - the exploration inserts in order of size - then after the call no retained distribution
dominates another. -/
theorem C29_nondominated_partial (eps : ℚ) (s : SDSet n) (hs : s.WF) (new : SD n) (hnew : new ∈ s.members)
    (hlast : ∀ x ∈ s.members, x.size ≤ new.size)
    (hold : ∀ x ∈ s.members, ∀ y ∈ s.members, x ≠ new → y ≠ new → ¬ Dominates eps x y) :
    ∀ x ∈ (s.minimize eps new).members, ∀ y ∈ (s.minimize eps new).members, x ≠ y → ¬ Dominates eps x y := by
  obtain ⟨-, h2, h3, h4, h5⟩ := minimize_spec eps hs hnew
  intro x hx y hy hxy
  by_cases hdom : ∃ d ∈ s.members, Dominates eps d new
  · have hn := h4 hdom
    exact hold x (h2 x hx) y (h2 y hy) (fun h => hn (h ▸ hx)) (fun h => hn (h ▸ hy))
  · by_cases hyn : y = new
    · intro h; exact hdom ⟨x, h2 x hx, hyn ▸ h⟩
    · by_cases hxn : x = new
      · subst hxn
        obtain ⟨hym, hyno⟩ := (h5 hdom y).mp hy
        have := hlast y hym
        rintro (⟨h, -⟩ | ⟨h, h'⟩)
        · omega
        · exact hyno ⟨by omega, h'⟩
      · exact hold x (h2 x hx) y (h2 y hy) hxn hyn

/-- The order of insertion matters: a larger, slower point already in the set stays when a smaller, faster one is added
(the second branch of the loop only removes points of the same size), against the English property. -/
theorem C29_late_small_point_counterexample :
    let s := ((SDSet.empty.add (⟨![5], ![0], 1, 5⟩ : SD 1)).add ⟨![3], ![0], 2, 3⟩).minimize (1/1000) ⟨![3], ![0], 2, 3⟩
    s.getSize = 2 ∧ Dominates (1/1000) (⟨![3], ![0], 2, 3⟩ : SD 1) ⟨![5], ![0], 1, 5⟩ := by
  refine ⟨by decide +kernel, Or.inr ⟨?_, ?_⟩⟩ <;> norm_num

/-- A concrete call meeting the hypotheses of C29. -/
theorem C29_example :
    let s := (SDSet.empty.add (⟨![3, 1], ![0, 0], 1/3, 4⟩ : SD 2)).add ⟨![3, 2], ![0, 0], 1/2, 5⟩
    let t := s.add ⟨![2, 3], ![0, 0], 1/4, 5⟩
    t.WF ∧ (∀ x ∈ t.members, x.size ≤ 5) ∧ (t.minimize (1/1000) ⟨![2, 3], ![0, 0], 1/4, 5⟩).getSize = 2 := by
  refine ⟨(SDSet.add_spec (SDSet.add_spec (SDSet.add_spec SDSet.wf_empty ?_).1 ?_).1 ?_).1, by decide +kernel, by decide +kernel⟩
  all_goals (unfold SD.Consistent; decide +kernel)

/-! ### C30, C31: infeasible and feasible regions -/

/-- **C30.** After any history of recorded infeasible points, a point is reported infeasible exactly when it is pointwise
below a recorded one, and the stored points form an antichain. `addToUnsat` returns false exactly when the point was
already covered. -/
theorem C30_unsat_exact (added : List (SD n)) (h : ∀ d ∈ added, d.size = ∑ e, d.quantity e) :
    let s := added.foldl (fun s d => (s.addToUnsat d).1) SDSet.empty
    (∀ x : SD n, s.unsatContains x = true ↔ ∃ d ∈ added, x.quantity ≤ d.quantity) ∧
    (∀ a ∈ s.members, ∀ b ∈ s.members, a.quantity ≤ b.quantity → a = b) ∧
    (∀ d : SD n, d.size = ∑ e, d.quantity e → ((s.addToUnsat d).2 = false ↔ ∃ a ∈ added, d.quantity ≤ a.quantity)) := by
  intro s
  suffices H : s.WF ∧ (∀ x : SD n, s.unsatContains x = true ↔ ∃ d ∈ added, x.quantity ≤ d.quantity) ∧
      (∀ a ∈ s.members, ∀ b ∈ s.members, a.quantity ≤ b.quantity → a = b) by
    refine ⟨H.2.1, H.2.2, fun d hd => ?_⟩
    rw [(SDSet.addToUnsat_spec H.1 hd).2.1, ← H.2.1]
    unfold SDSet.unsatContains
    simp only [List.any_eq_true, SD.back_iff]
  induction added using List.reverseRecOn with
  | nil => exact ⟨SDSet.wf_empty, by simp [s, SDSet.unsatContains, SDSet.members_empty], by simp [s, SDSet.members_empty]⟩
  | append_singleton added d ih =>
    obtain ⟨w, i1, i2⟩ := ih (fun x hx => h x (by simp [hx]))
    have hd := h d (by simp)
    have hs : s = ((added.foldl (fun s d => (s.addToUnsat d).1) SDSet.empty).addToUnsat d).1 := by
      simp only [s]; rw [List.foldl_append]; rfl
    set t := added.foldl (fun s d => (s.addToUnsat d).1) SDSet.empty with ht
    clear_value s; subst hs
    have hu : ∀ (t : SDSet n) (x : SD n), t.unsatContains x = true ↔ ∃ y ∈ t.members, x.quantity ≤ y.quantity := by
      intro t x; unfold SDSet.unsatContains; simp only [List.any_eq_true, SD.back_iff]
    obtain ⟨a1, a2, a3, a4⟩ := SDSet.addToUnsat_spec w hd
    have hsplit : ∀ x : SD n, (∃ y ∈ added ++ [d], x.quantity ≤ y.quantity) ↔
        (∃ y ∈ added, x.quantity ≤ y.quantity) ∨ x.quantity ≤ d.quantity := by
      intro x
      simp only [List.mem_append, List.mem_singleton]
      constructor
      · rintro ⟨y, hy | rfl, h⟩
        · exact Or.inl ⟨y, hy, h⟩
        · exact Or.inr (by assumption)
      · rintro (⟨y, hy, h⟩ | h)
        · exact ⟨y, Or.inl hy, h⟩
        · exact ⟨d, Or.inr rfl, h⟩
    cases hr : (t.addToUnsat d).2 with
    | false =>
      rw [a3 hr]
      refine ⟨w, fun x => ?_, i2⟩
      rw [i1, hsplit]
      constructor
      · exact Or.inl
      · rintro (h | h)
        · exact h
        · obtain ⟨y, hy, hy'⟩ := a2.mp hr
          exact (i1 x).mp ((hu t x).mpr ⟨y, hy, h.trans hy'⟩)
    | true =>
      have m := a4 hr
      refine ⟨a1, fun x => ?_, fun a ha b hb hab => ?_⟩
      · rw [hu, hsplit, ← i1, hu]
        constructor
        · rintro ⟨y, hy, h⟩
          rcases (m y).mp hy with ⟨hy, -⟩ | rfl
          · exact Or.inl ⟨y, hy, h⟩
          · exact Or.inr (by assumption)
        · rintro (⟨y, hy, h⟩ | h)
          · by_cases hyd : y.quantity ≤ d.quantity
            · exact ⟨d, (m d).mpr (Or.inr rfl), h.trans hyd⟩
            · exact ⟨y, (m y).mpr (Or.inl ⟨hy, hyd⟩), h⟩
          · exact ⟨d, (m d).mpr (Or.inr rfl), h⟩
      · have hno : ¬ ∃ x ∈ t.members, d.quantity ≤ x.quantity := by rw [← a2, hr]; simp
        rcases (m a).mp ha with ⟨ha, ha'⟩ | rfl
        · rcases (m b).mp hb with ⟨hb, -⟩ | rfl
          · exact i2 a ha b hb hab
          · exact absurd hab ha'
        · rcases (m b).mp hb with ⟨hb, -⟩ | rfl
          · exact absurd ⟨b, hb, hab⟩ hno
          · rfl

example :
    let s := [(⟨![1, 3], ![0, 0], 0, 4⟩ : SD 2), ⟨![3, 1], ![0, 0], 0, 4⟩, ⟨![3, 3], ![0, 0], 0, 6⟩].foldl
      (fun s d => (s.addToUnsat d).1) SDSet.empty
    s.getSize = 1 ∧ s.unsatContains ⟨![2, 1], ![0, 0], 0, 3⟩ = true ∧ s.unsatContains ⟨![4, 1], ![0, 0], 0, 5⟩ = false := by
  decide +kernel

/-- **C31.** After any history of recorded feasible points, a point is reported feasible exactly when it is pointwise
above a recorded one. -/
theorem C31_sat_exact (added : List (SD n)) (h : ∀ d ∈ added, d.size = ∑ e, d.quantity e) :
    ∀ x : SD n, (added.foldl SDSet.addToSat SDSet.empty).satContains x = true ↔ ∃ d ∈ added, d.quantity ≤ x.quantity := by
  suffices H : (added.foldl SDSet.addToSat SDSet.empty).WF ∧ ∀ x : SD n,
      (added.foldl SDSet.addToSat SDSet.empty).satContains x = true ↔ ∃ d ∈ added, d.quantity ≤ x.quantity from H.2
  have hu : ∀ (t : SDSet n) (x : SD n), t.satContains x = true ↔ ∃ y ∈ t.members, y.quantity ≤ x.quantity := by
    intro t x; unfold SDSet.satContains; simp only [List.any_eq_true, SD.for_iff]
  induction added using List.reverseRecOn with
  | nil => exact ⟨SDSet.wf_empty, by simp [SDSet.satContains, SDSet.members_empty]⟩
  | append_singleton added d ih =>
    obtain ⟨w, i1⟩ := ih (fun x hx => h x (by simp [hx]))
    rw [List.foldl_append, List.foldl_cons, List.foldl_nil]
    set t := added.foldl SDSet.addToSat SDSet.empty
    obtain ⟨a1, a2, a3⟩ := SDSet.addToSat_spec w (h d (by simp))
    refine ⟨a1, fun x => ?_⟩
    have hsplit : (∃ y ∈ added ++ [d], y.quantity ≤ x.quantity) ↔
        (∃ y ∈ added, y.quantity ≤ x.quantity) ∨ d.quantity ≤ x.quantity := by
      simp only [List.mem_append, List.mem_singleton]
      constructor
      · rintro ⟨y, hy | rfl, h⟩
        · exact Or.inl ⟨y, hy, h⟩
        · exact Or.inr (by assumption)
      · rintro (⟨y, hy, h⟩ | h)
        · exact ⟨y, Or.inl hy, h⟩
        · exact ⟨d, Or.inr rfl, h⟩
    rw [hsplit, ← i1]
    by_cases hex : ∃ y ∈ t.members, y.quantity ≤ d.quantity
    · rw [a2 hex]
      constructor
      · exact Or.inl
      · rintro (h | h)
        · exact h
        · obtain ⟨y, hy, hy'⟩ := hex
          exact (hu t x).mpr ⟨y, hy, hy'.trans h⟩
    · rw [hu, hu]
      constructor
      · rintro ⟨y, hy, h⟩
        rcases (a3 hex y).mp hy with hy | rfl
        · exact Or.inl ⟨y, hy, h⟩
        · exact Or.inr (by assumption)
      · rintro (⟨y, hy, h⟩ | h)
        · exact ⟨y, (a3 hex y).mpr (Or.inl hy), h⟩
        · exact ⟨d, (a3 hex d).mpr (Or.inr rfl), h⟩

/-- The stored feasible points need not be an antichain: the two conditions of the loop in `addToSat` test the same
thing, so no stored point is ever removed. -/
theorem C31_not_antichain :
    let s := [(⟨![2], ![0], 0, 2⟩ : SD 1), ⟨![1], ![0], 0, 1⟩].foldl SDSet.addToSat SDSet.empty
    s.getSize = 2 ∧ s.has ⟨![2], ![0], 0, 2⟩ = true ∧ s.has ⟨![1], ![0], 0, 1⟩ = true := by decide +kernel

example : ([(⟨![2, 1], ![0, 0], 0, 3⟩ : SD 2), ⟨![1, 2], ![0, 0], 0, 3⟩].foldl SDSet.addToSat SDSet.empty).satContains
    ⟨![1, 5], ![0, 0], 0, 6⟩ = true := by decide +kernel

/-! ### C32: knee points -/

/-- Recording an infeasible point: the point itself, or the cut through the critical channels of an analysis. -/
inductive KneeOp (n : ℕ)
  | add (d : SD n)
  | cut (d : SD n) (modelled : Fin n → Bool) (critical : List (Fin n))

/-- Run one recording on (infeasible set, knee set). -/
def KneeOp.run (s : SDSet n × SDSet n) : KneeOp n → SDSet n × SDSet n
  | .add d => s.1.addKnee d s.2
  | .cut d modelled critical => s.1.addCut d modelled critical s.2

/-- The recorded distribution has a right size. -/
def KneeOp.Ok : KneeOp n → Prop
  | .add d => d.size = ∑ e, d.quantity e
  | .cut d _ _ => d.size = ∑ e, d.quantity e

/-- Specification: the region a recording declares infeasible. For a cut: every point that does not exceed `d` on a
critical channel nor on one that is not modelled (and stays within `int` elsewhere); nothing if there is no critical
channel or no channel to relax. -/
def KneeOp.covers (x : Fin n → Int) : KneeOp n → Prop
  | .add d => x ≤ d.quantity
  | .cut d modelled critical => critical ≠ [] ∧ (∃ e, modelled e = true ∧ e ∉ critical) ∧
      ∀ e, x e ≤ if modelled e = true ∧ e ∉ critical then 2147483647 else d.quantity e

theorem foldl_intMax (l : List (Fin n)) (d : SD n) (hd : d.Consistent) :
    (l.foldl (fun t e => t.setQuantity e SDSet.intMax) d).Consistent ∧
    ∀ e, (l.foldl (fun t e => t.setQuantity e SDSet.intMax) d).quantity e = if e ∈ l then SDSet.intMax else d.quantity e := by
  induction l generalizing d with
  | nil => exact ⟨hd, by simp⟩
  | cons f l ih =>
    obtain ⟨s1, s2, -, -⟩ := d.setQuantity_spec f SDSet.intMax
    obtain ⟨h1, h2⟩ := ih _ s1
    refine ⟨h1, fun e => ?_⟩
    rw [List.foldl_cons, h2, s2]
    by_cases hl : e ∈ l
    · simp [hl]
    · by_cases hf : e = f
      · subst hf; simp [hl]
      · simp [hl, hf]

/-- The infeasible points and the knees after any recordings, from one knee. -/
theorem knees_from {origin : SD n} {K : SDSet n} (hK : K.WF) (hm : K.members = [origin]) (ops : List (KneeOp n))
    (h : ∀ op ∈ ops, op.Ok) : ∀ s, s = ops.foldl KneeOp.run (SDSet.empty, K) → s.1.WF ∧ s.2.WF ∧
      (∀ x : Fin n → Int, (∃ u ∈ s.1.members, x ≤ u.quantity) ↔ ∃ op ∈ ops, op.covers x) ∧
      ∀ x : Fin n → Int, (∃ k ∈ s.2.members, ∀ e, k.quantity e < x e) ↔
        (∀ e, origin.quantity e < x e) ∧ ∀ op ∈ ops, ¬ op.covers x := by
  induction ops using List.reverseRecOn with
  | nil =>
    rintro s rfl
    refine ⟨SDSet.wf_empty, hK, by simp [SDSet.members_empty], fun x => ?_⟩
    simp [hm]
  | append_singleton ops op ih =>
    intro s hs
    rw [List.foldl_append, List.foldl_cons, List.foldl_nil] at hs
    obtain ⟨w1, w2, i1, i2⟩ := ih (fun o ho => h o (by simp [ho])) _ rfl
    set t := ops.foldl KneeOp.run (SDSet.empty, K)
    have hok := h op (by simp)
    -- one step: recording a consistent point `d`, covering exactly the points below it
    have step : ∀ d : SD n, d.Consistent → (∀ x, op.covers x ↔ x ≤ d.quantity) → s = t.1.addKnee d t.2 →
        s.1.WF ∧ s.2.WF ∧
        (∀ x : Fin n → Int, (∃ u ∈ s.1.members, x ≤ u.quantity) ↔ ∃ o ∈ ops ++ [op], o.covers x) ∧
        ∀ x : Fin n → Int, (∃ k ∈ s.2.members, ∀ e, k.quantity e < x e) ↔
          (∀ e, origin.quantity e < x e) ∧ ∀ o ∈ ops ++ [op], ¬ o.covers x := by
      intro d hd hcov hs
      obtain ⟨k1, k2, k3, k4⟩ := SDSet.addKnee_spec (s := t.1) w2 (d := d)
      obtain ⟨a1, a2, a3, a4⟩ := SDSet.addToUnsat_spec w1 hd
      rw [hs, k1]
      have hE : ∀ x, (∃ o ∈ ops ++ [op], o.covers x) ↔ (∃ o ∈ ops, o.covers x) ∨ x ≤ d.quantity := by
        intro x
        rw [← hcov]
        simp only [List.mem_append, List.mem_singleton]
        constructor
        · rintro ⟨o, ho | rfl, h⟩
          · exact Or.inl ⟨o, ho, h⟩
          · exact Or.inr (by assumption)
        · rintro (⟨o, ho, h⟩ | h)
          · exact ⟨o, Or.inl ho, h⟩
          · exact ⟨op, Or.inr rfl, h⟩
      have hA : ∀ x, (∀ o ∈ ops ++ [op], ¬ o.covers x) ↔ (∀ o ∈ ops, ¬ o.covers x) ∧ ¬ x ≤ d.quantity := by
        intro x
        have := not_congr (hE x)
        push Not at this
        exact this
      cases hr : (t.1.addToUnsat d).2 with
      | false =>
        rw [k3 hr, a3 hr]
        obtain ⟨u, hu, hdu⟩ := a2.mp hr
        have hsub : ∀ x : Fin n → Int, x ≤ d.quantity → ∃ o ∈ ops, o.covers x :=
          fun x hx => (i1 x).mp ⟨u, hu, hx.trans hdu⟩
        refine ⟨w1, w2, fun x => ?_, fun x => ?_⟩
        · rw [i1, hE]
          exact ⟨Or.inl, fun h => h.elim id (hsub x)⟩
        · rw [i2, hA]
          constructor
          · rintro ⟨h1, h2⟩
            exact ⟨h1, h2, fun hx => by obtain ⟨o, ho, h⟩ := hsub x hx; exact h2 o ho h⟩
          · rintro ⟨h1, h2, -⟩; exact ⟨h1, h2⟩
      | true =>
        refine ⟨a1, k2, fun x => ?_, fun x => ?_⟩
        · rw [hE, ← i1]
          constructor
          · rintro ⟨u, hu, h⟩
            rcases (a4 hr u).mp hu with ⟨hu, -⟩ | rfl
            · exact Or.inl ⟨u, hu, h⟩
            · exact Or.inr h
          · rintro (⟨u, hu, h⟩ | h)
            · by_cases hud : u.quantity ≤ d.quantity
              · exact ⟨d, (a4 hr d).mpr (Or.inr rfl), h.trans hud⟩
              · exact ⟨u, (a4 hr u).mpr (Or.inl ⟨hu, hud⟩), h⟩
            · exact ⟨d, (a4 hr d).mpr (Or.inr rfl), h⟩
        · rw [k4 hr, i2, hA]; tauto
    -- a recording that does nothing covers nothing
    have skip : (∀ x, ¬ op.covers x) → s = t → s.1.WF ∧ s.2.WF ∧
        (∀ x : Fin n → Int, (∃ u ∈ s.1.members, x ≤ u.quantity) ↔ ∃ o ∈ ops ++ [op], o.covers x) ∧
        ∀ x : Fin n → Int, (∃ k ∈ s.2.members, ∀ e, k.quantity e < x e) ↔
          (∀ e, origin.quantity e < x e) ∧ ∀ o ∈ ops ++ [op], ¬ o.covers x := by
      intro hno hs
      rw [hs]
      refine ⟨w1, w2, fun x => ?_, fun x => ?_⟩
      · rw [i1]
        simp only [List.mem_append, List.mem_singleton]
        constructor
        · rintro ⟨o, ho, h⟩; exact ⟨o, Or.inl ho, h⟩
        · rintro ⟨o, ho | rfl, h⟩
          · exact ⟨o, ho, h⟩
          · exact absurd (by assumption) (hno x)
      · rw [i2]
        simp only [List.mem_append, List.mem_singleton]
        constructor
        · rintro ⟨h1, h2⟩
          refine ⟨h1, fun o ho => ?_⟩
          rcases ho with ho | rfl
          · exact h2 o ho
          · exact hno x
        · rintro ⟨h1, h2⟩; exact ⟨h1, fun o ho => h2 o (Or.inl ho)⟩
    cases op with
    | add d => exact step d hok (fun x => Iff.rfl) hs
    | cut d modelled critical =>
      have hs' : s = t.1.addCut d modelled critical t.2 := hs
      unfold SDSet.addCut at hs'
      by_cases hc : critical.isEmpty
      · rw [if_pos hc] at hs'
        exact skip (fun x hx => hx.1 (List.isEmpty_iff.mp hc)) hs'
      · rw [if_neg hc] at hs'
        simp only at hs'
        set cut := (List.finRange n).filter fun e => modelled e && !decide (e ∈ critical) with hcut
        have hmem : ∀ e, e ∈ cut ↔ modelled e = true ∧ e ∉ critical := by
          intro e; simp [hcut]
        by_cases hce : cut.isEmpty
        · rw [if_pos hce] at hs'
          refine skip (fun x hx => ?_) hs'
          obtain ⟨e, he⟩ := hx.2.1
          have := (hmem e).mpr he
          rw [List.isEmpty_iff.mp hce] at this; simp at this
        · rw [if_neg hce] at hs'
          obtain ⟨f1, f2⟩ := foldl_intMax cut d hok
          refine step _ f1 (fun x => ?_) hs'
          have hne : critical ≠ [] := fun h => hc (List.isEmpty_iff.mpr h)
          obtain ⟨e0, he0⟩ := List.exists_mem_of_ne_nil cut (fun h => hce (List.isEmpty_iff.mpr h))
          constructor
          · rintro ⟨-, -, hx⟩ e
            rw [f2]
            have := hx e
            by_cases he : e ∈ cut
            · rw [if_pos he]; rw [if_pos ((hmem e).mp he)] at this; exact this
            · rw [if_neg he]; rw [if_neg (mt (hmem e).mpr he)] at this; exact this
          · intro hx
            refine ⟨hne, ⟨e0, (hmem e0).mp he0⟩, fun e => ?_⟩
            have := hx e
            rw [f2] at this
            by_cases he : e ∈ cut
            · rw [if_pos ((hmem e).mp he)]; rw [if_pos he] at this; exact this
            · rw [if_neg (mt (hmem e).mpr he)]; rw [if_neg he] at this; exact this

/-- **C32.** Start from one knee `origin` and no infeasible point, and record any sequence of infeasible points and cuts.
Then the points strictly above some current knee (in every channel) are exactly the points strictly above the origin
that no recording covers: the search never misses a point, and never proposes one known to be infeasible. -/
theorem C32_knees_exact (origin : SD n) (horigin : origin.size = ∑ e, origin.quantity e) (ops : List (KneeOp n))
    (h : ∀ op ∈ ops, op.Ok) (x : Fin n → Int) :
    (∃ k ∈ (ops.foldl KneeOp.run (SDSet.empty, SDSet.single origin.size origin)).2.members, ∀ e, k.quantity e < x e) ↔
    (∀ e, origin.quantity e < x e) ∧ ∀ op ∈ ops, ¬ op.covers x :=
  (knees_from (SDSet.wf_single horigin) (by simp [SDSet.single, SDSet.members]) ops h _ rfl).2.2.2 x

/-- **C32 (for feasibility).** If every recording is right - no feasible point is covered - then every feasible point
above the origin is strictly above a current knee. -/
theorem C32_no_feasible_point_missed (origin : SD n) (horigin : origin.size = ∑ e, origin.quantity e) (ops : List (KneeOp n))
    (h : ∀ op ∈ ops, op.Ok) (feasible : (Fin n → Int) → Prop)
    (hsound : ∀ op ∈ ops, ∀ x, feasible x → ¬ op.covers x) (x : Fin n → Int) (hx : feasible x)
    (hpos : ∀ e, origin.quantity e < x e) :
    ∃ k ∈ (ops.foldl KneeOp.run (SDSet.empty, SDSet.single origin.size origin)).2.members, ∀ e, k.quantity e < x e :=
  (C32_knees_exact origin horigin ops h x).mpr ⟨hpos, fun op hop => hsound op hop x hx⟩

example :
    let s := [KneeOp.add (⟨![2, 3], ![0, 0], 0, 5⟩ : SD 2), .cut ⟨![4, 1], ![0, 0], 0, 5⟩ (fun _ => true) [1]].foldl
      KneeOp.run (SDSet.empty, SDSet.single 0 ⟨![0, 0], ![0, 0], 0, 0⟩)
    s.2.members.map (fun k => (k.quantity 0, k.quantity 1)) =
      [(0, 3), (2, 1), (2147483647, 0)] := by decide +kernel
example : ∀ op ∈ [KneeOp.add (⟨![2, 3], ![0, 0], 0, 5⟩ : SD 2), .cut ⟨![4, 1], ![0, 0], 0, 5⟩ (fun _ => true) [1]], op.Ok := by
  intro op hop
  simp only [List.mem_cons, List.not_mem_nil, or_false] at hop
  rcases hop with rfl | rfl <;> (unfold KneeOp.Ok; decide +kernel)

end Kiter
