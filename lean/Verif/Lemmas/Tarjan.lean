/-
Tarjan's algorithm: the invariant of the calls and its preservation.
-/
import Verif.Spec.Tarjan
import Mathlib.Data.List.Basic
import Mathlib.Data.List.Nodup
import Mathlib.Data.List.Pairwise

set_option autoImplicit false

namespace Kiter.Tarjan

/-- There is an edge from `u` to `v`. -/
def E (g : Graph) (u v : Nat) : Prop := ∃ e ∈ g.edges, e.src = u ∧ e.dst = v

theorem mem_succ {g : Graph} {u v : Nat} : v ∈ g.succ u ↔ E g u v := by
  unfold Graph.succ E
  simp only [List.mem_map, List.mem_filter, beq_iff_eq]
  constructor
  · rintro ⟨e, ⟨h1, h2⟩, h3⟩; exact ⟨e, h1, h2, h3⟩
  · rintro ⟨e, h1, h2, h3⟩; exact ⟨e, ⟨h1, h2⟩, h3⟩

theorem path_edge {g : Graph} {u v : Nat} (h : E g u v) : g.Path u v := Relation.ReflTransGen.single h
theorem path_refl {g : Graph} {u : Nat} : g.Path u u := Relation.ReflTransGen.refl
theorem path_trans {g : Graph} {u v w : Nat} (h : g.Path u v) (h' : g.Path v w) : g.Path u w :=
  Relation.ReflTransGen.trans h h'

/-- The number of a visited vertex. -/
def nm (s : St) (v : Nat) : Nat := (s.num v).getD 0

/-- The invariant; `P` is the stack of the calls. -/
structure Inv (g : Graph) (P : List Nat) (s : St) : Prop where
  lt : ∀ v, s.num v ≠ none → nm s v < s.index ∧ v < g.events.length
  vis : ∀ v ∈ s.stack, s.num v ≠ none
  sorted : s.stack.Pairwise fun a b => nm s b < nm s a
  sub : P.Sublist s.stack
  black : ∀ v, s.num v ≠ none → v ∉ P → ∀ w, E g v w → s.num w ≠ none
  closed : ∀ v, s.num v ≠ none → v ∉ s.stack → ∀ w, E g v w → w ∉ s.stack
  gray : ∀ y ∈ s.stack, ∃ x ∈ P, nm s x ≤ nm s y ∧ g.Path y x
  older : ∀ x ∈ s.stack, ∀ y ∈ s.stack, nm s x ≤ nm s y → g.Path x y
  label : ∀ v, s.num v ≠ none → v ∉ s.stack →
    s.num (s.scc v) ≠ none ∧ s.scc v ∉ s.stack ∧ g.Path v (s.scc v) ∧ g.Path (s.scc v) v
  same : ∀ u v, s.num u ≠ none → u ∉ s.stack → s.num v ≠ none → v ∉ s.stack → g.Path u v → g.Path v u →
    s.scc u = s.scc v
  low : ∀ v, s.num v = none ↔ s.low v = none

theorem Inv.nodup {g : Graph} {P : List Nat} {s : St} (h : Inv g P s) : s.stack.Nodup := by
  refine h.sorted.imp ?_
  rintro a b hab rfl
  exact absurd hab (lt_irrefl _)

/-- A path that starts from a closed vertex stays among closed vertices. -/
theorem Inv.closed_path {g : Graph} {P : List Nat} {s : St} (h : Inv g P s) {u v : Nat} (hp : g.Path u v)
    (hu : s.num u ≠ none) (hs : u ∉ s.stack) : s.num v ≠ none ∧ v ∉ s.stack := by
  induction hp with
  | refl => exact ⟨hu, hs⟩
  | tail _ e ih =>
    obtain ⟨a, b⟩ := ih
    exact ⟨h.black _ a (fun hc => b (h.sub.subset hc)) _ e, h.closed _ a b _ e⟩

theorem enter_num {s : St} {v : Nat} (hv : s.num v = none) :
    (enter s v).num = Function.update s.num v (some s.index) := by
  unfold enter insertMap; simp only [hv]

theorem enter_low {s : St} {v : Nat} (hv : s.low v = none) :
    (enter s v).low = Function.update s.low v (some s.index) := by
  unfold enter insertMap; simp only [hv]

theorem enter_inv {g : Graph} {P : List Nat} {s : St} {v : Nat} (h : Inv g P s) (hv : s.num v = none)
    (hn : v < g.events.length) (hp : ∀ p ∈ P.head?, E g p v) : Inv g (v :: P) (enter s v) := by
  have hlv : s.low v = none := (h.low v).1 hv
  have e1 := enter_num hv
  have e2 := enter_low hlv
  have e3 : (enter s v).stack = v :: s.stack := rfl
  have e4 : (enter s v).scc = s.scc := rfl
  have e5 : (enter s v).index = s.index + 1 := rfl
  have hne : ∀ u, s.num u ≠ none → u ≠ v := by rintro u hu rfl; exact hu hv
  have n1 : nm (enter s v) v = s.index := by unfold nm; rw [e1, Function.update_self]; rfl
  have n2 : ∀ u, u ≠ v → nm (enter s v) u = nm s u := by
    intro u hu; unfold nm; rw [e1, Function.update_of_ne hu]
  have n3 : ∀ u, u ≠ v → (enter s v).num u = s.num u := by
    intro u hu; rw [e1, Function.update_of_ne hu]
  have n4 : (enter s v).num v ≠ none := by rw [e1, Function.update_self]; simp
  have n5 : ∀ u, s.num u ≠ none → (enter s v).num u ≠ none := by
    intro u hu; rw [n3 u (hne u hu)]; exact hu
  have hvs : v ∉ s.stack := fun hc => h.vis v hc hv
  have key : ∀ x ∈ s.stack, g.Path x v := by
    intro x hx
    obtain ⟨y, hy, _, hxy⟩ := h.gray x hx
    cases P with
    | nil => cases hy
    | cons p P =>
      have hsp := h.sorted.sublist h.sub
      have : nm s y ≤ nm s p := by
        rcases List.mem_cons.1 hy with rfl | hy
        · exact le_refl _
        · exact le_of_lt ((List.pairwise_cons.1 hsp).1 y hy)
      have hyp := h.older y (h.sub.subset hy) p (h.sub.subset List.mem_cons_self) this
      exact path_trans hxy (path_trans hyp (path_edge (hp p rfl)))
  refine ⟨?_, ?_, ?_, ?_, ?_, ?_, ?_, ?_, ?_, ?_, ?_⟩
  · intro u hu
    by_cases huv : u = v
    · subst huv; rw [n1, e5]; exact ⟨Nat.lt_succ_self _, hn⟩
    · rw [n3 u huv] at hu
      rw [n2 u huv, e5]
      exact ⟨Nat.lt_succ_of_lt (h.lt u hu).1, (h.lt u hu).2⟩
  · intro u hu
    rw [e3] at hu
    rcases List.mem_cons.1 hu with rfl | hu
    · exact n4
    · exact n5 u (h.vis u hu)
  · rw [e3, List.pairwise_cons]
    refine ⟨?_, ?_⟩
    · intro b hb
      have hb' := h.vis b hb
      rw [n1, n2 b (hne b hb')]
      exact (h.lt b hb').1
    · refine h.sorted.imp_of_mem ?_
      intro a b ha hb hab
      rw [n2 a (hne a (h.vis a ha)), n2 b (hne b (h.vis b hb))]
      exact hab
  · rw [e3]; exact h.sub.cons_cons v
  · intro u hu huP w hw
    have huv : u ≠ v := fun hc => huP (by rw [hc]; exact List.mem_cons_self)
    rw [n3 u huv] at hu
    exact n5 w (h.black u hu (fun hc => huP (List.mem_cons_of_mem _ hc)) w hw)
  · intro u hu hus w hw
    rw [e3] at hus ⊢
    have huv : u ≠ v := fun hc => hus (by rw [hc]; exact List.mem_cons_self)
    have hus' : u ∉ s.stack := fun hc => hus (List.mem_cons_of_mem _ hc)
    rw [n3 u huv] at hu
    have hw1 := h.black u hu (fun hc => hus' (h.sub.subset hc)) w hw
    intro hc
    rcases List.mem_cons.1 hc with rfl | hc
    · exact hw1 hv
    · exact h.closed u hu hus' w hw hc
  · intro y hy
    rw [e3] at hy
    rcases List.mem_cons.1 hy with rfl | hy
    · exact ⟨y, List.mem_cons_self, le_refl _, path_refl⟩
    · obtain ⟨x, hx, h1, h2⟩ := h.gray y hy
      refine ⟨x, List.mem_cons_of_mem _ hx, ?_, h2⟩
      rw [n2 x (hne x (h.vis x (h.sub.subset hx))), n2 y (hne y (h.vis y hy))]
      exact h1
  · intro x hx y hy hxy
    rw [e3] at hx hy
    rcases List.mem_cons.1 hy with rfl | hy
    · rcases List.mem_cons.1 hx with rfl | hx
      · exact path_refl
      · exact key x hx
    · have hy' := h.vis y hy
      rcases List.mem_cons.1 hx with rfl | hx
      · rw [n1, n2 y (hne y hy')] at hxy
        exact absurd (h.lt y hy').1 (by omega)
      · rw [n2 x (hne x (h.vis x hx)), n2 y (hne y hy')] at hxy
        exact h.older x hx y hy hxy
  · intro u hu hus
    rw [e3] at hus ⊢
    rw [e4]
    have huv : u ≠ v := fun hc => hus (by rw [hc]; exact List.mem_cons_self)
    rw [n3 u huv] at hu
    obtain ⟨a, b, c, d⟩ := h.label u hu (fun hc => hus (List.mem_cons_of_mem _ hc))
    refine ⟨n5 _ a, ?_, c, d⟩
    intro hc
    rcases List.mem_cons.1 hc with hc | hc
    · exact hne _ a hc
    · exact b hc
  · intro u w hu hus hw hws h1 h2
    rw [e3] at hus hws
    rw [e4]
    have huv : u ≠ v := fun hc => hus (by rw [hc]; exact List.mem_cons_self)
    have hwv : w ≠ v := fun hc => hws (by rw [hc]; exact List.mem_cons_self)
    rw [n3 u huv] at hu
    rw [n3 w hwv] at hw
    exact h.same u w hu (fun hc => hus (List.mem_cons_of_mem _ hc)) hw (fun hc => hws (List.mem_cons_of_mem _ hc)) h1 h2
  · intro u
    rw [e1, e2]
    by_cases huv : u = v
    · subst huv
      rw [Function.update_self, Function.update_self]
    · rw [Function.update_of_ne huv, Function.update_of_ne huv]; exact h.low u

/-- Changing the `lowlink` of a visited vertex keeps the invariant. -/
theorem lower_inv {g : Graph} {P : List Nat} {s : St} {v x : Nat} (h : Inv g P s) (hv : s.num v ≠ none) :
    Inv g P { s with low := Function.update s.low v (some x) } := by
  refine ⟨h.lt, h.vis, h.sorted, h.sub, h.black, h.closed, h.gray, h.older, h.label, h.same, ?_⟩
  intro u
  show s.num u = none ↔ Function.update s.low v (some x) u = none
  by_cases huv : u = v
  · subst huv; rw [Function.update_self]; simp [hv]
  · rw [Function.update_of_ne huv]; exact h.low u

theorem popTo_spec (v : Nat) : ∀ (T S0 : List Nat) (c : Nat → Nat), v ∉ T →
    popTo v (T ++ v :: S0) c = some (S0, fun u => if u ∈ T ∨ u = v then v else c u)
  | [], S0, c, _ => by
    simp only [List.nil_append, popTo, if_true]
    congr 2
    funext u
    by_cases hu : u = v
    · subst hu; simp
    · rw [Function.update_of_ne hu]; simp [hu]
  | w :: T, S0, c, h => by
    have hw : w ≠ v := fun hc => h (by rw [hc]; exact List.mem_cons_self)
    rw [List.cons_append, popTo, if_neg hw, popTo_spec v T S0 _ fun hc => h (List.mem_cons_of_mem _ hc)]
    congr 2
    funext u
    by_cases hu : u = w
    · subst hu
      by_cases hT : u ∈ T <;> simp [hT, hw]
    · rw [Function.update_of_ne hu]
      simp [hu]

/-- What a call of `StrongConnect` for `v` has done when it returns. -/
structure Post (g : Graph) (P : List Nat) (s : St) (v : Nat) (s' : St) : Prop where
  inv : Inv g P s'
  frame : ∀ u, s.num u ≠ none → s'.num u = s.num u ∧ s'.low u = s.low u
  num : s'.num v = some s.index
  stack : ∃ T l, s'.stack = T ++ s.stack ∧ s'.low v = some l ∧
    ((v ∉ s'.stack ∧ l = s.index) ∨ ∃ y ∈ s'.stack, nm s' y = l ∧ g.Path v y) ∧
    ∀ z ∈ T, ∀ y ∈ s.stack, E g z y → l ≤ nm s' y

/-- The state of the loop over the successors of `v`; `s0` is the state at the call, `D` the successors seen. -/
structure Loop (g : Graph) (P : List Nat) (s0 : St) (v : Nat) (D : Nat → Prop) (s : St) : Prop where
  inv : Inv g (v :: P) s
  frame : ∀ u, s0.num u ≠ none → s.num u = s0.num u ∧ s.low u = s0.low u
  num : s.num v = some s0.index
  done : ∀ w, D w → s.num w ≠ none
  stack : ∃ T l, s.stack = T ++ v :: s0.stack ∧ s.low v = some l ∧ l ≤ s0.index ∧
    (∃ y ∈ s.stack, nm s y = l ∧ g.Path v y) ∧
    (∀ z ∈ T, ∀ y ∈ s0.stack, E g z y → l ≤ nm s y) ∧ ∀ y ∈ s0.stack, D y → l ≤ nm s y

/-- Number of vertices not visited. -/
def unv (g : Graph) (s : St) : Nat := ((List.range g.events.length).filter fun u => (s.num u).isNone).length

theorem filter_length_mono {α : Type} (l : List α) (p q : α → Bool) (h : ∀ x ∈ l, p x = true → q x = true) :
    (l.filter p).length ≤ (l.filter q).length := by
  induction l with
  | nil => simp
  | cons a l ih =>
    have ih := ih fun x hx => h x (List.mem_cons_of_mem _ hx)
    simp only [List.filter_cons]
    by_cases hp : p a = true
    · rw [if_pos hp, if_pos (h a List.mem_cons_self hp)]; simpa using ih
    · rw [if_neg hp]; split <;> simp <;> omega

theorem filter_length_strict {α : Type} (l : List α) (p q : α → Bool) (h : ∀ x ∈ l, p x = true → q x = true)
    (a : α) (ha : a ∈ l) (hp : p a = false) (hq : q a = true) : (l.filter p).length < (l.filter q).length := by
  induction l with
  | nil => cases ha
  | cons b l ih =>
    have hm := filter_length_mono l p q fun x hx => h x (List.mem_cons_of_mem _ hx)
    simp only [List.filter_cons]
    rcases List.mem_cons.1 ha with rfl | ha
    · rw [if_neg (by simp [hp]), if_pos hq]; simp; omega
    · have ih := ih (fun x hx => h x (List.mem_cons_of_mem _ hx)) ha
      by_cases hp : p b = true
      · rw [if_pos hp, if_pos (h b List.mem_cons_self hp)]; simpa using ih
      · rw [if_neg hp]; split <;> simp <;> omega

theorem unv_mono {g : Graph} {s s' : St} (h : ∀ u, s.num u ≠ none → s'.num u ≠ none) : unv g s' ≤ unv g s := by
  apply filter_length_mono
  intro x _ hx
  simp only [Option.isNone_iff_eq_none] at hx ⊢
  by_contra hc
  exact h x hc hx

theorem unv_enter {g : Graph} {s : St} {v : Nat} (hv : s.num v = none) (hn : v < g.events.length) :
    unv g (enter s v) < unv g s := by
  apply filter_length_strict _ _ _ _ v (List.mem_range.2 hn)
  · rw [enter_num hv, Function.update_self]; rfl
  · rw [hv]; rfl
  · intro x _ hx
    by_cases hxv : x = v
    · subst hxv; rw [hv]; rfl
    · rw [enter_num hv, Function.update_of_ne hxv] at hx; exact hx

theorem enter_loop {g : Graph} {P : List Nat} {s : St} {v : Nat} (h : Inv g P s) (hv : s.num v = none)
    (hn : v < g.events.length) (hp : ∀ p ∈ P.head?, E g p v) : Loop g P s v (fun _ => False) (enter s v) := by
  have hlv : s.low v = none := (h.low v).1 hv
  refine ⟨enter_inv h hv hn hp, ?_, ?_, fun _ hc => hc.elim, [], s.index, rfl, ?_, le_refl _, ?_, ?_, ?_⟩
  · intro u hu
    have : u ≠ v := by rintro rfl; exact hu hv
    rw [enter_num hv, enter_low hlv, Function.update_of_ne this, Function.update_of_ne this]
    exact ⟨rfl, rfl⟩
  · rw [enter_num hv, Function.update_self]
  · rw [enter_low hlv, Function.update_self]
  · exact ⟨v, List.mem_cons_self, by unfold nm; rw [enter_num hv, Function.update_self]; rfl, path_refl⟩
  · intro z hz; cases hz
  · intro y _ hc; exact hc.elim

/-- The end of the call. -/
theorem leave_post {g : Graph} {P : List Nat} {s0 s : St} {v : Nat} {D : Nat → Prop} (h0 : Inv g P s0)
    (hv : s0.num v = none) (hL : Loop g P s0 v D s) (hD : ∀ w, E g v w → D w) :
    ∃ s', leave s v = some s' ∧ Post g P s0 v s' := by
  obtain ⟨hi, hf, hnum, hdone, T, l, hst, hlow, hle, ⟨y0, hy0, hy0n, hy0p⟩, hcr, hcrv⟩ := hL
  have hnmv : nm s v = s0.index := by unfold nm; rw [hnum]; rfl
  have hnd := hi.nodup
  rw [hst] at hnd
  have hvT : v ∉ T := by
    intro hc
    exact (List.nodup_append.1 hnd).2.2 v hc v List.mem_cons_self rfl
  have hsort := hi.sorted
  rw [hst, List.pairwise_append, List.pairwise_cons] at hsort
  have hS0lt : ∀ y ∈ s0.stack, nm s y < nm s v := fun y hy => hsort.2.1.1 y hy
  have hTgt : ∀ z ∈ T, nm s v < nm s z := fun z hz => hsort.2.2 z hz v List.mem_cons_self
  have hvS0 : v ∉ s0.stack := fun hc => h0.vis v hc hv
  have hTS0 : ∀ z ∈ T, z ∉ s0.stack := by
    intro z hz hc
    have := hTgt z hz
    have := hS0lt z hc
    omega
  have hPS0 : P.Sublist s0.stack := h0.sub
  have hvis : s.num v ≠ none := by rw [hnum]; simp
  have hvst : v ∈ s.stack := by rw [hst]; simp
  unfold leave
  rw [hlow, hnum]
  dsimp only
  by_cases hl : l = s0.index
  · -- the component is complete
    rw [if_pos hl, hst, popTo_spec v T s0.stack s.scc hvT]
    simp only [Option.map_some, Option.some.injEq, exists_eq_left']
    set s' : St := { s with stack := s0.stack, scc := fun u => if u ∈ T ∨ u = v then v else s.scc u } with hs'
    have hnm : ∀ u, nm s' u = nm s u := fun _ => rfl
    have hmem : ∀ u, u ∈ s.stack ↔ (u ∈ T ∨ u = v) ∨ u ∈ s0.stack := by
      intro u; rw [hst, List.mem_append, List.mem_cons]; tauto
    have hblack : ∀ u, s.num u ≠ none → u ∉ P → ∀ w, E g u w → s.num w ≠ none := by
      intro u hu huP w hw
      by_cases huv : u = v
      · subst huv; exact hdone w (hD w hw)
      · exact hi.black u hu (by rw [List.mem_cons]; rintro (hc | hc); exacts [huv hc, huP hc]) w hw
    have hclosed : ∀ u, s.num u ≠ none → u ∉ s0.stack → ∀ w, E g u w → w ∉ s0.stack := by
      intro u hu hus w hw hws
      by_cases hc : u ∈ s.stack
      · rcases (hmem u).1 hc with (hT | rfl) | hS
        · have := hcr u hT w hws hw
          have := hS0lt w hws
          omega
        · have := hcrv w hws (hD w hw)
          have := hS0lt w hws
          omega
        · exact hus hS
      · exact hi.closed u hu hc w hw ((hmem w).2 (Or.inr hws))
    have hpath : ∀ u w, g.Path u w → s.num u ≠ none → u ∉ s0.stack → s.num w ≠ none ∧ w ∉ s0.stack := by
      intro u w hp hu hus
      induction hp with
      | refl => exact ⟨hu, hus⟩
      | tail _ e ih => exact ⟨hblack _ ih.1 (fun hc => ih.2 (hPS0.subset hc)) _ e, hclosed _ ih.1 ih.2 _ e⟩
    have hto : ∀ u, u ∈ T ∨ u = v → g.Path u v ∧ g.Path v u ∧ s.num u ≠ none ∧ u ∉ s0.stack := by
      intro u hu
      have hus : u ∈ s.stack := (hmem u).2 (Or.inl hu)
      have hu0 : u ∉ s0.stack := by
        rcases hu with hu | rfl
        · exact hTS0 u hu
        · exact hvS0
      have hge : nm s v ≤ nm s u := by
        rcases hu with hu | rfl
        · exact le_of_lt (hTgt u hu)
        · exact le_refl _
      refine ⟨?_, hi.older v hvst u hus hge, hi.vis u hus, hu0⟩
      obtain ⟨x, hx, _, hxp⟩ := hi.gray u hus
      rcases List.mem_cons.1 hx with rfl | hx
      · exact hxp
      · exact absurd (hPS0.subset hx) (hpath u x hxp (hi.vis u hus) hu0).2
    have hlab : ∀ u, (u ∈ T ∨ u = v) → s'.scc u = v := fun u hu => if_pos hu
    have hlab' : ∀ u, ¬ (u ∈ T ∨ u = v) → s'.scc u = s.scc u := fun u hu => if_neg hu
    have hold : ∀ u, ¬ (u ∈ T ∨ u = v) → u ∉ s0.stack → u ∉ s.stack := by
      intro u h1 h2 hc
      rcases (hmem u).1 hc with hc | hc
      · exact h1 hc
      · exact h2 hc
    refine ⟨⟨hi.lt, ?_, ?_, hPS0, hblack, hclosed, ?_, ?_, ?_, ?_, hi.low⟩, hf, hnum, [], l, rfl, hlow, ?_, ?_⟩
    · intro u hu; exact hi.vis u ((hmem u).2 (Or.inr hu))
    · exact hsort.2.1.2
    · intro y hy
      obtain ⟨x, hx, h1, h2⟩ := hi.gray y ((hmem y).2 (Or.inr hy))
      rcases List.mem_cons.1 hx with rfl | hx
      · have := hS0lt y hy; omega
      · exact ⟨x, hx, h1, h2⟩
    · intro x hx y hy hxy
      exact hi.older x ((hmem x).2 (Or.inr hx)) y ((hmem y).2 (Or.inr hy)) hxy
    · intro u hu hus
      by_cases hc : u ∈ T ∨ u = v
      · rw [hlab u hc]
        exact ⟨hvis, hvS0, (hto u hc).1, (hto u hc).2.1⟩
      · rw [hlab' u hc]
        obtain ⟨a, b, c, d⟩ := hi.label u hu (hold u hc hus)
        exact ⟨a, fun hh => b ((hmem _).2 (Or.inr hh)), c, d⟩
    · intro u w hu hus hw hws p1 p2
      by_cases hc : u ∈ T ∨ u = v
      · by_cases hc' : w ∈ T ∨ w = v
        · rw [hlab u hc, hlab w hc']
        · exact absurd ((hmem u).2 (Or.inl hc)) (hi.closed_path p2 hw (hold w hc' hws)).2
      · by_cases hc' : w ∈ T ∨ w = v
        · exact absurd ((hmem w).2 (Or.inl hc')) (hi.closed_path p1 hu (hold u hc hus)).2
        · rw [hlab' u hc, hlab' w hc']
          exact hi.same u w hu (hold u hc hus) hw (hold w hc' hws) p1 p2
    · exact Or.inl ⟨hvS0, hl⟩
    · intro z hz; cases hz
  · -- the component goes on below
    rw [if_neg hl]
    refine ⟨s, rfl, ?_, hf, hnum, T ++ [v], l, by rw [hst]; simp, hlow, Or.inr ⟨y0, hy0, hy0n, hy0p⟩, ?_⟩
    · refine ⟨hi.lt, hi.vis, hi.sorted, ?_, ?_, hi.closed, ?_, hi.older, hi.label, hi.same, hi.low⟩
      · rw [hst]
        exact (hPS0.cons v).trans (List.sublist_append_right _ _)
      · intro u hu huP w hw
        by_cases huv : u = v
        · subst huv; exact hdone w (hD w hw)
        · exact hi.black u hu (by rw [List.mem_cons]; rintro (hc | hc); exacts [huv hc, huP hc]) w hw
      · intro y hy
        obtain ⟨x, hx, h1, h2⟩ := hi.gray y hy
        rcases List.mem_cons.1 hx with rfl | hx
        · obtain ⟨x', hx', h3, h4⟩ := hi.gray y0 hy0
          rcases List.mem_cons.1 hx' with rfl | hx'
          · omega
          · exact ⟨x', hx', by omega, path_trans h2 (path_trans hy0p h4)⟩
        · exact ⟨x, hx, h1, h2⟩
    · intro z hz y hy hzy
      rcases List.mem_append.1 hz with hz | hz
      · exact hcr z hz y hy hzy
      · rw [List.mem_singleton.1 hz] at hzy
        exact hcrv y hy (hD y hzy)

/-- The recursion. -/
theorem strongConnect_post {g : Graph} (hg : g.OK) : ∀ (f : Nat) (v : Nat) (P : List Nat) (s : St), Inv g P s →
    s.num v = none → v < g.events.length → (∀ p ∈ P.head?, E g p v) → unv g s ≤ f →
    ∃ s', strongConnect g f v s = some s' ∧ Post g P s v s'
  | 0, v, P, s, _, hv, hn, _, hf => by
    have := unv_enter hv hn
    omega
  | f + 1, v, P, s0, h, hv, hn, hp, hf => by
    have hstep : ∀ (ws : List Nat) (D : Nat → Prop) (s : St), (∀ w ∈ ws, E g v w) → Loop g P s0 v D s → unv g s ≤ f →
        ∃ s', ws.foldlM (fun (s : St) w =>
          match s.num w with
          | none => (strongConnect g f w s).bind fun s' => lower s' v (s'.low w)
          | some i => if w ∈ s.stack then lower s v (some i) else some s) s = some s' ∧
          Loop g P s0 v (fun w => D w ∨ w ∈ ws) s' := by
      intro ws
      induction ws with
      | nil =>
        intro D s _ hL _
        exact ⟨s, rfl, by simpa using hL⟩
      | cons w ws ih =>
        intro D s hw hL hu
        have hvw := hw w List.mem_cons_self
        have hrest : ∀ w ∈ ws, E g v w := fun x hx => hw x (List.mem_cons_of_mem _ hx)
        rw [List.foldlM_cons]
        have hfin : ∀ s1, Loop g P s0 v (fun x => D x ∨ x = w) s1 → unv g s1 ≤ f →
            ∃ s', ws.foldlM (fun (s : St) w =>
              match s.num w with
              | none => (strongConnect g f w s).bind fun s' => lower s' v (s'.low w)
              | some i => if w ∈ s.stack then lower s v (some i) else some s) s1 = some s' ∧
              Loop g P s0 v (fun x => D x ∨ x ∈ w :: ws) s' := by
          intro s1 h1 h2
          obtain ⟨s', e, hL'⟩ := ih _ s1 hrest h1 h2
          refine ⟨s', e, ?_⟩
          have : (fun x => (D x ∨ x = w) ∨ x ∈ ws) = fun x => D x ∨ x ∈ w :: ws := by
            funext x; rw [List.mem_cons]; exact propext or_assoc
          rw [← this]; exact hL'
        obtain ⟨hi, hfr, hnum, hdone, T, l, hst, hlow, hle, ⟨y0, hy0, hy0n, hy0p⟩, hcr, hcrv⟩ := hL
        have hvis : s.num v ≠ none := by rw [hnum]; simp
        have hnmv : nm s v = s0.index := by unfold nm; rw [hnum]; rfl
        cases hc : s.num w with
        | none =>
          dsimp only
          obtain ⟨e, he, hes, hew⟩ := hvw
          have hwn : w < g.events.length := by rw [← hew]; exact (hg e he).2
          obtain ⟨s1, e1, hP⟩ := strongConnect_post hg f w (v :: P) s hi hc hwn
            (by intro p hp'; simp at hp'; subst hp'; exact ⟨e, he, hes, hew⟩) hu
          obtain ⟨pi, pf, pn, T', l', pst, plow, pl, pcr⟩ := hP
          rw [e1]
          have hvf := pf v hvis
          have hlv1 : s1.low v = some l := by rw [hvf.2, hlow]
          have hnv1 : s1.num v = some s0.index := by rw [hvf.1, hnum]
          have hnm1 : ∀ u, s.num u ≠ none → nm s1 u = nm s u := by
            intro u hu'; unfold nm; rw [(pf u hu').1]
          have hsidx : s0.index < s.index := by
            have := (hi.lt v hvis).1; omega
          have hwlow : lower s1 v (s1.low w) = some { s1 with low := Function.update s1.low v (some (min l l')) } := by
            unfold lower; rw [hlv1, plow]
          have hgoal := hfin { s1 with low := Function.update s1.low v (some (min l l')) } ?_ ?_
          · obtain ⟨s', e2, hL'⟩ := hgoal
            refine ⟨s', ?_, hL'⟩
            show (((some s1).bind fun s' => lower s' v (s'.low w)).bind _) = _
            simp only [Option.bind_some, hwlow]
            exact e2
          · have hold : ∀ u, s0.num u ≠ none → s.num u ≠ none := by
              intro u hu'; rw [(hfr u hu').1]; exact hu'
            refine ⟨lower_inv pi (by rw [hnv1]; simp), ?_, hnv1, ?_, T' ++ T, min l l', ?_, ?_, ?_, ?_, ?_, ?_⟩
            · intro u hu'
              have huv : u ≠ v := by rintro rfl; exact hu' hv
              show s1.num u = _ ∧ Function.update s1.low v (some (min l l')) u = _
              rw [Function.update_of_ne huv, (pf u (hold u hu')).1, (pf u (hold u hu')).2]
              exact hfr u hu'
            · rintro x (hx | rfl)
              · show s1.num x ≠ none
                rw [(pf x (hdone x hx)).1]; exact hdone x hx
              · show s1.num x ≠ none
                rw [pn]; simp
            · show s1.stack = _
              rw [pst, hst, List.append_assoc]
            · show Function.update s1.low v (some (min l l')) v = _
              rw [Function.update_self]
            · omega
            · rcases pl with ⟨_, rfl⟩ | ⟨y, hy, hyn, hyp⟩
              · refine ⟨y0, by show y0 ∈ s1.stack; rw [pst]; exact List.mem_append_right _ hy0, ?_, hy0p⟩
                show nm s1 y0 = _
                rw [hnm1 y0 (hi.vis y0 hy0), hy0n]
                omega
              · by_cases hmin : l ≤ l'
                · refine ⟨y0, by show y0 ∈ s1.stack; rw [pst]; exact List.mem_append_right _ hy0, ?_, hy0p⟩
                  show nm s1 y0 = _
                  rw [hnm1 y0 (hi.vis y0 hy0), hy0n]
                  omega
                · refine ⟨y, hy, ?_, path_trans (path_edge ⟨e, he, hes, hew⟩) hyp⟩
                  show nm s1 y = _
                  rw [hyn]; omega
            · intro z hz y hy hzy
              show _ ≤ nm s1 y
              have hys : y ∈ s.stack := by
                rw [hst]; exact List.mem_append_right _ (List.mem_cons_of_mem _ hy)
              rcases List.mem_append.1 hz with hz | hz
              · have := pcr z hz y hys hzy; omega
              · have := hcr z hz y hy hzy
                rw [hnm1 y (hi.vis y hys)]; omega
            · rintro y hy (hD | rfl)
              · show _ ≤ nm s1 y
                have hys : y ∈ s.stack := by
                  rw [hst]; exact List.mem_append_right _ (List.mem_cons_of_mem _ hy)
                have := hcrv y hy hD
                rw [hnm1 y (hi.vis y hys)]; omega
              · exfalso
                have hys : y ∈ s.stack := by
                  rw [hst]; exact List.mem_append_right _ (List.mem_cons_of_mem _ hy)
                exact hi.vis y hys hc
          · refine le_trans (unv_mono ?_) hu
            intro u hu'
            show s1.num u ≠ none
            rw [(pf u hu').1]; exact hu'
        | some i =>
          dsimp only
          have hnw : nm s w = i := by unfold nm; rw [hc]; rfl
          have hdone' : ∀ x, D x ∨ x = w → s.num x ≠ none := by
            rintro x (hx | rfl)
            · exact hdone x hx
            · rw [hc]; simp
          by_cases hws : w ∈ s.stack
          · rw [if_pos hws]
            have hwlow : lower s v (some i) = some { s with low := Function.update s.low v (some (min l i)) } := by
              unfold lower; rw [hlow]
            rw [hwlow]
            have hgoal := hfin { s with low := Function.update s.low v (some (min l i)) } ?_ hu
            · exact hgoal
            · refine ⟨lower_inv hi hvis, ?_, hnum, hdone', T, min l i, hst, ?_, by omega, ?_, ?_, ?_⟩
              · intro u hu'
                have huv : u ≠ v := by rintro rfl; exact hu' hv
                show s.num u = _ ∧ Function.update s.low v (some (min l i)) u = _
                rw [Function.update_of_ne huv]
                exact hfr u hu'
              · show Function.update s.low v (some (min l i)) v = _
                rw [Function.update_self]
              · by_cases hmin : l ≤ i
                · exact ⟨y0, hy0, by show nm s y0 = _; omega, hy0p⟩
                · exact ⟨w, hws, by show nm s w = _; omega, path_edge hvw⟩
              · intro z hz y hy hzy
                show _ ≤ nm s y
                have := hcr z hz y hy hzy; omega
              · rintro y hy (hD | rfl)
                · show _ ≤ nm s y
                  have := hcrv y hy hD; omega
                · show _ ≤ nm s y
                  omega
          · rw [if_neg hws]
            refine hfin s ⟨hi, hfr, hnum, hdone', T, l, hst, hlow, hle, ⟨y0, hy0, hy0n, hy0p⟩, hcr, ?_⟩ hu
            rintro y hy (hD | rfl)
            · exact hcrv y hy hD
            · exfalso
              exact hws (by rw [hst]; exact List.mem_append_right _ (List.mem_cons_of_mem _ hy))
    have hun := unv_enter hv hn
    obtain ⟨s1, e1, hL⟩ := hstep (g.succ v) _ (enter s0 v) (fun w hw => mem_succ.1 hw) (enter_loop h hv hn hp) (by omega)
    obtain ⟨s2, e2, hP⟩ := leave_post h hv hL (fun w hw => Or.inr (mem_succ.2 hw))
    refine ⟨s2, ?_, hP⟩
    unfold strongConnect
    exact (congrArg (fun o => Option.bind o fun s => leave s v) e1).trans e2

theorem inv_init (g : Graph) : Inv g [] ⟨0, fun _ => none, fun _ => none, [], fun _ => 0⟩ := by
  refine ⟨?_, ?_, List.Pairwise.nil, List.Sublist.refl _, ?_, ?_, ?_, ?_, ?_, ?_, fun _ => Iff.rfl⟩
  · intro v hv; exact absurd rfl hv
  · intro v hv; cases hv
  · intro v hv; exact absurd rfl hv
  · intro v hv; exact absurd rfl hv
  · intro v hv; cases hv
  · intro v hv; cases hv
  · intro v hv; exact absurd rfl hv
  · intro v w hv; exact absurd rfl hv

theorem unv_le (g : Graph) (s : St) : unv g s ≤ g.events.length := by
  have := List.length_filter_le (fun u => (s.num u).isNone) (List.range g.events.length)
  rw [List.length_range] at this
  exact this

theorem inv_nil_stack {g : Graph} {s : St} (h : Inv g [] s) : s.stack = [] := by
  cases hs : s.stack with
  | nil => rfl
  | cons a l =>
    obtain ⟨x, hx, _⟩ := h.gray a (by rw [hs]; exact List.mem_cons_self)
    cases hx

/-- The loop over all vertices. -/
theorem outer {g : Graph} (hg : g.OK) : ∀ (l : List Nat) (s : St), (∀ v ∈ l, v < g.events.length) → Inv g [] s →
    ∃ s', l.foldlM (fun (s : St) v =>
      match s.num v with
      | none => strongConnect g (g.events.length + 1) v s
      | some _ => some s) s = some s' ∧ Inv g [] s' ∧ (∀ u, s.num u ≠ none → s'.num u ≠ none) ∧ ∀ v ∈ l, s'.num v ≠ none
  | [], s, _, h => ⟨s, rfl, h, fun _ hu => hu, by simp⟩
  | v :: l, s, hl, h => by
    rw [List.foldlM_cons]
    have hrest : ∀ v ∈ l, v < g.events.length := fun x hx => hl x (List.mem_cons_of_mem _ hx)
    cases hv : s.num v with
    | none =>
      dsimp only
      obtain ⟨s1, e1, hP⟩ := strongConnect_post hg (g.events.length + 1) v [] s h hv (hl v List.mem_cons_self)
        (by intro p hp; cases hp) (le_trans (unv_le g s) (Nat.le_succ _))
      obtain ⟨s2, e2, h2, h3, h4⟩ := outer hg l s1 hrest hP.inv
      have hmono : ∀ u, s.num u ≠ none → s2.num u ≠ none := by
        intro u hu; exact h3 u (by rw [(hP.frame u hu).1]; exact hu)
      refine ⟨s2, by rw [e1]; exact e2, h2, hmono, ?_⟩
      intro x hx
      rcases List.mem_cons.1 hx with rfl | hx
      · exact h3 x (by rw [hP.num]; simp)
      · exact h4 x hx
    | some i =>
      dsimp only
      obtain ⟨s2, e2, h2, h3, h4⟩ := outer hg l s hrest h
      refine ⟨s2, e2, h2, h3, ?_⟩
      intro x hx
      rcases List.mem_cons.1 hx with rfl | hx
      · exact h3 x (by rw [hv]; simp)
      · exact h4 x hx

/-- The labels after the loop: the same exactly for vertices of the same component. -/
theorem components_spec (g : Graph) (hg : g.OK) :
    ∃ scc, components g = some scc ∧ ∀ u v, u < g.events.length → v < g.events.length → (scc u = scc v ↔ g.Together u v) := by
  obtain ⟨s, e, hi, _, hall⟩ := outer hg (List.range g.events.length) _ (fun v hv => List.mem_range.1 hv) (inv_init g)
  have hst := inv_nil_stack hi
  refine ⟨s.scc, ?_, ?_⟩
  · unfold components
    refine (congrArg (fun o => Option.bind o fun s : St => if s.stack.length = 0 then some s.scc else none) e).trans ?_
    simp [hst]
  · intro u v hu hv
    have hu' := hall u (List.mem_range.2 hu)
    have hv' := hall v (List.mem_range.2 hv)
    have hus : u ∉ s.stack := by rw [hst]; simp
    have hvs : v ∉ s.stack := by rw [hst]; simp
    constructor
    · intro hs
      obtain ⟨_, _, a, b⟩ := hi.label u hu' hus
      obtain ⟨_, _, c, d⟩ := hi.label v hv' hvs
      rw [hs] at a b
      exact ⟨path_trans a d, path_trans c b⟩
    · rintro ⟨a, b⟩
      exact hi.same u v hu' hus hv' hvs a b

end Kiter.Tarjan
