/-
The effect of `singleOutput` and `addPathNode` on the lists of tasks and channels.
-/
import Verif.Lemmas.DataflowEffect
import Mathlib.Data.List.Perm.Basic

set_option autoImplicit false

namespace Kiter.DF

theorem edge_of_mem {s : State} (hi : Inv s) {e : Edg} (he : e ∈ s.edges) : edge s e.key = some e := by
  unfold edge
  have hk := hi.keys
  generalize s.edges = l at he hk
  induction l with
  | nil => cases he
  | cons x l ih =>
    rw [List.find?_cons]
    rw [List.map_cons, List.nodup_cons] at hk
    rcases List.mem_cons.1 he with rfl | he
    · simp
    · have : x.key ≠ e.key := fun h => hk.1 (h ▸ List.mem_map_of_mem he)
      simp only [show (x.key == e.key) = false by simpa using this]
      exact ih he hk.2

theorem key_inj {s : State} (hi : Inv s) {e f : Edg} (he : e ∈ s.edges) (hf : f ∈ s.edges) (h : e.key = f.key) :
    e = f := by
  have h1 := edge_of_mem hi he
  rw [h, edge_of_mem hi hf] at h1
  exact (Option.some.inj h1).symm

theorem perm_remove {s : State} (hi : Inv s) {e : Edg} (he : e ∈ s.edges) :
    s.edges.Perm (e :: s.edges.filter fun x => x.key ≠ e.key) := by
  have hn : s.edges.Nodup := List.Nodup.of_map _ hi.keys
  have h1 := List.perm_cons_erase he
  rw [hn.erase_eq_filter] at h1
  have : s.edges.filter (fun x => x != e) = s.edges.filter fun x => x.key ≠ e.key := by
    apply List.filter_congr
    intro x hx
    have : (x.key ≠ e.key) ↔ x ≠ e := ⟨fun h h' => h (h' ▸ rfl), fun h h' => h (key_inj hi hx he h')⟩
    by_cases hxe : x = e
    · simp [hxe]
    · simp [hxe, this.2 hxe]
  rw [this] at h1
  exact h1

theorem eff_dupStep {s s' : State} (hi : Inv s) {t cnt : Nat} (h2 : 1 < (outKeys s t).length)
    (hm : dupStep s t cnt = some s') :
    ∃ (x : Vtx) (c1 c2 : Edg) (id id1 id2 id3 : Int),
      s.verts[t]? = some x ∧ c1 ∈ s.edges ∧ c2 ∈ s.edges ∧ c1.key ≠ c2.key ∧ c1.src = t ∧ c2.src = t ∧
      Keep (s.verts ++ [⟨id, x.name ++ "_Dup" ++ toString cnt, 1, 0, [1], 0, []⟩]) s'.verts ∧
      Eff s s' s'.verts ((s.edges.filter fun e => e.key ≠ c1.key ∧ e.key ≠ c2.key) ++
        [one s.nextKey t s.verts.length id1 "" 1 1 0,
          one (s.nextKey + 1) s.verts.length c1.tgt id2 "" 1 1 0,
          one (s.nextKey + 2) s.verts.length c2.tgt id3 "" 1 1 0]) (s.nextKey + 3) := by
  unfold dupStep at hm
  obtain ⟨x, hx, hm⟩ := Option.bind_eq_some_iff.mp hm
  obtain ⟨s1, h1, hm⟩ := Option.bind_eq_some_iff.mp hm
  obtain ⟨s2, h2', hm⟩ := Option.bind_eq_some_iff.mp hm
  obtain ⟨s3, h3, hm⟩ := Option.bind_eq_some_iff.mp hm
  obtain ⟨s4, h4, hm⟩ := Option.bind_eq_some_iff.mp hm
  have hpt : pathTask s (x.name ++ "_Dup" ++ toString cnt) 1 = some s3 := by
    rw [← named_addVertex hi]
    simp only [Option.bind_eq_bind, h1, h2', h3, Option.bind_some]
  obtain ⟨id, e3, -⟩ := eff_pathTask hi hpt
  obtain ⟨ht, -, -, -, k4, id1, e4⟩ := eff_unitEdge e3.inv h4
  obtain ⟨c1, c2, rest, hc⟩ : ∃ c1 c2 rest, s.edges.filter (fun e => e.src == t) = c1 :: c2 :: rest := by
    unfold outKeys at h2
    rw [List.length_map] at h2
    match h : s.edges.filter (fun e => e.src == t) with
    | [] => rw [h] at h2; simp at h2
    | [a] => rw [h] at h2; simp at h2
    | a :: b :: r => exact ⟨a, b, r, h⟩
  have hc1 : c1 ∈ s.edges.filter (fun e => e.src == t) := by rw [hc]; simp
  have hc2 : c2 ∈ s.edges.filter (fun e => e.src == t) := by rw [hc]; simp
  rw [List.mem_filter] at hc1 hc2
  have h12 : c1.key ≠ c2.key := by
    have hn : ((s.edges.filter (fun e => e.src == t)).map fun e => e.key).Nodup :=
      hi.keys.sublist (List.Sublist.map _ List.filter_sublist)
    rw [hc] at hn
    simp only [List.map_cons, List.nodup_cons, List.mem_cons, not_or] at hn
    exact hn.1.1
  have hout : outKeys s4 t = c1.key :: c2.key :: (rest.map (fun e => e.key) ++ [s.nextKey]) := by
    unfold outKeys
    rw [e4.edges, e3.edges, List.filter_append, hc]
    simp [one, e3.next]
  rw [hout] at hm
  simp only at hm
  obtain ⟨w1, hw1, hm⟩ := Option.bind_eq_some_iff.mp hm
  obtain ⟨s5, h5, hm⟩ := Option.bind_eq_some_iff.mp hm
  obtain ⟨w2, hw2, hm⟩ := Option.bind_eq_some_iff.mp hm
  obtain ⟨s6, h6, hm⟩ := Option.bind_eq_some_iff.mp hm
  obtain ⟨s7, h7, h8⟩ := Option.bind_eq_some_iff.mp hm
  have hm4 : ∀ c ∈ s.edges, c ∈ s4.edges := by
    intro c hc
    rw [e4.edges, e3.edges]
    exact List.mem_append_left _ hc
  have hw1' : w1 = c1.tgt := by
    unfold targetOf at hw1
    rw [edge_of_mem e4.inv (hm4 _ hc1.1)] at hw1
    exact (Option.some.inj hw1).symm
  obtain ⟨-, -, -, -, k5, id2, e5⟩ := eff_unitEdge e4.inv h5
  have hw2' : w2 = c2.tgt := by
    unfold targetOf at hw2
    rw [edge_of_mem e5.inv (by rw [e5.edges]; exact List.mem_append_left _ (hm4 _ hc2.1))] at hw2
    exact (Option.some.inj hw2).symm
  subst hw1' hw2'
  obtain ⟨-, -, -, -, k6, id3, e6⟩ := eff_unitEdge e5.inv h6
  have e7 := eff_removeEdge e6.inv h7
  have e8 := eff_removeEdge e7.inv h8
  have n4 : s4.nextKey = s.nextKey + 1 := by rw [e4.next, e3.next]
  have n5 : s5.nextKey = s.nextKey + 2 := by rw [e5.next, n4]
  have kl1 := hi.keyLt c1 hc1.1
  have kl2 := hi.keyLt c2 hc2.1
  refine ⟨x, c1, c2, id, id1, id2, id3, hx, hc1.1, hc2.1, h12, by simpa using hc1.2, by simpa using hc2.2, ?_,
    e8.inv, rfl, ?_, ?_, e8.writable⟩
  · have := k4.trans (k5.trans k6)
    rw [e3.verts] at this
    rwa [e8.verts, e7.verts]
  · have hlast : ∀ (a b c : Edg), a.key = s.nextKey → b.key = s.nextKey + 1 → c.key = s.nextKey + 2 →
        (((s.edges ++ [a]) ++ [b] ++ [c]).filter fun e => decide (e.key ≠ c1.key)).filter (fun e => decide (e.key ≠ c2.key))
          = (s.edges.filter fun e => decide (e.key ≠ c1.key ∧ e.key ≠ c2.key)) ++ [a, b, c] := by
      intro a b c ha hb hc
      rw [List.filter_filter, List.append_assoc, List.append_assoc, List.filter_append]
      congr 1
      · apply List.filter_congr
        intro x _
        by_cases hh1 : x.key = c1.key <;> by_cases hh2 : x.key = c2.key <;> simp [hh1, hh2]
      · show ([a, b, c] : List Edg).filter _ = _
        rw [List.filter_eq_self]
        intro y hy
        have : y.key ≠ c1.key ∧ y.key ≠ c2.key := by
          simp only [List.mem_cons, List.not_mem_nil, or_false] at hy
          rcases hy with rfl | rfl | rfl <;> omega
        simp [this.1, this.2]
    rw [e8.edges, e7.edges, e6.edges, e5.edges, e4.edges, n5, n4, e3.edges, e3.next]
    exact hlast _ _ _ rfl rfl rfl
  · rw [e8.next, e7.next, e6.next, n5]

/-- What the loop maintains: `s0` is the graph at the start, `t` the task whose outputs are merged. -/
structure DupInv (s0 : State) (t : Nat) (s : State) : Prop where
  inv : Inv s
  vlen : s0.verts.length ≤ s.verts.length
  keep : ∀ (i : Nat) (x : Vtx), s0.verts[i]? = some x →
    ∃ y, s.verts[i]? = some y ∧ (y = x ∨ x.phases ≤ 0 ∧ y = { x with phases := 1 })
  dups : ∀ (i : Nat) (y : Vtx), s0.verts.length ≤ i → s.verts[i]? = some y → y.phases = 1 ∧ y.durs = [1]
  others : s.edges.filter (fun e => decide (e.src ≠ t ∧ e.src < s0.verts.length)) =
    s0.edges.filter fun e => decide (e.src ≠ t)
  dupOut : ∀ n, s0.verts.length ≤ n → n < s.verts.length → s.edges.countP (fun e => decide (e.src = n)) = 2
  dupIn : ∀ n, s0.verts.length ≤ n → n < s.verts.length → s.edges.countP (fun e => decide (e.tgt = n)) = 1
  fromTo : ∀ e ∈ s.edges, s0.verts.length ≤ e.tgt → e.src = t ∨ e.tgt < e.src
  indeg : ∀ w, w < s0.verts.length → s.edges.countP (fun e => decide (e.tgt = w)) =
    s0.edges.countP fun e => decide (e.tgt = w)
  unit : ∀ e ∈ s.edges, e ∈ s0.edges ∨
    e.ins = [1] ∧ e.outs = [1] ∧ e.preload = 0 ∧ e.iins = [] ∧ e.iouts = []
  old : ∀ e ∈ s.edges, (e.src = t ∨ s0.verts.length ≤ e.src) → e.tgt < s0.verts.length →
    ∃ f ∈ s0.edges, f.src = t ∧ f.tgt = e.tgt

theorem dupInv_refl {s0 : State} (hi : Inv s0) (t : Nat) : DupInv s0 t s0 where
  inv := hi
  vlen := le_refl _
  keep := fun i x h => ⟨x, h, Or.inl rfl⟩
  dups := fun i y h1 h2 => by
    rw [List.getElem?_eq_none h1] at h2
    cases h2
  others := by
    apply List.filter_congr
    intro e he
    simp [(hi.ends e he).1]
  dupOut := fun n h1 h2 => by omega
  dupIn := fun n h1 h2 => by omega
  fromTo := fun e he h => by have := (hi.ends e he).2; omega
  indeg := fun _ _ => rfl
  unit := fun e he => Or.inl he
  old := fun e he h _ => ⟨e, he, h.resolve_right (by have := (hi.ends e he).1; omega), rfl⟩

theorem count_new {s : State} (hi : Inv s) {c1 c2 : Edg} (h1 : c1 ∈ s.edges) (h2 : c2 ∈ s.edges) (h12 : c1.key ≠ c2.key)
    (p : Edg → Bool) (l : List Edg) :
    ((s.edges.filter fun e => decide (e.key ≠ c1.key ∧ e.key ≠ c2.key)) ++ l).countP p +
      (if p c1 then 1 else 0) + (if p c2 then 1 else 0) = s.edges.countP p + l.countP p := by
  have hp1 := perm_remove hi h1
  set s1 : State := { s with edges := s.edges.filter fun x => x.key ≠ c1.key } with hs1
  have hi1 : Inv s1 := inv_subEdges hi List.filter_sublist
  have h2' : c2 ∈ s1.edges := by
    show c2 ∈ s.edges.filter _
    rw [List.mem_filter]
    exact ⟨h2, by simpa using fun h => h12 h.symm⟩
  have hp2 := perm_remove hi1 h2'
  have hp : s.edges.Perm (c1 :: c2 :: s.edges.filter fun e => decide (e.key ≠ c1.key ∧ e.key ≠ c2.key)) := by
    refine hp1.trans (List.Perm.cons _ (hp2.trans (List.Perm.cons _ ?_)))
    show ((s.edges.filter fun x => decide (x.key ≠ c1.key)).filter fun x => decide (x.key ≠ c2.key)).Perm _
    rw [List.filter_filter]
    apply List.Perm.of_eq
    apply List.filter_congr
    intro x _
    by_cases hh1 : x.key = c1.key <;> by_cases hh2 : x.key = c2.key <;> simp [hh1, hh2]
  have := hp.countP_eq p
  rw [List.countP_cons, List.countP_cons] at this
  rw [List.countP_append, this]
  omega

theorem dupInv_step {s0 s s' : State} {t cnt : Nat} (hl : t < s0.verts.length) (h : DupInv s0 t s)
    (h2 : 1 < (outKeys s t).length) (hm : dupStep s t cnt = some s') :
    DupInv s0 t s' ∧ (outKeys s' t).length + 1 = (outKeys s t).length ∧ s'.verts.length = s.verts.length + 1 := by
  obtain ⟨x, c1, c2, id, id1, id2, id3, hx, m1, m2, h12, t1, t2, hk, he⟩ := eff_dupStep h.inv h2 hm
  have hlen : s'.verts.length = s.verts.length + 1 := by rw [hk.1]; simp
  have hV := h.vlen
  have en1 := (h.inv.ends c1 m1)
  have en2 := (h.inv.ends c2 m2)
  have cn := fun p => count_new h.inv m1 m2 h12 p
    [one s.nextKey t s.verts.length id1 "" 1 1 0, one (s.nextKey + 1) s.verts.length c1.tgt id2 "" 1 1 0,
      one (s.nextKey + 2) s.verts.length c2.tgt id3 "" 1 1 0]
  rw [← he.edges] at cn
  have zero : ∀ (p : Edg → Bool), (∀ e ∈ s.edges, p e = false) → s.edges.countP p = 0 := by
    intro p hp
    rw [List.countP_eq_zero]
    intro e he'
    simp [hp e he']
  refine ⟨⟨he.inv, by omega, ?_, ?_, ?_, ?_, ?_, ?_, ?_, ?_, ?_⟩, ?_, hlen⟩
  · intro i y hy
    have hil : i < s0.verts.length := by rw [List.getElem?_eq_some_iff] at hy; exact hy.1
    obtain ⟨z, hz, h3⟩ := h.keep i y hy
    obtain ⟨w, hw, h4⟩ := hk.2 i z (by rw [List.getElem?_append_left (by omega)]; exact hz)
    refine ⟨w, hw, ?_⟩
    rcases h3 with rfl | ⟨hp, rfl⟩
    · exact h4
    · rcases h4 with rfl | ⟨-, rfl⟩ <;> exact Or.inr ⟨hp, rfl⟩
  · intro i y hi hy
    have hil : i < s'.verts.length := by rw [List.getElem?_eq_some_iff] at hy; exact hy.1
    rcases Nat.lt_or_ge i s.verts.length with hi2 | hi2
    · have hz := List.getElem?_eq_getElem hi2
      obtain ⟨w, hw, h4⟩ := hk.2 i _ (by rw [List.getElem?_append_left hi2]; exact hz)
      rw [hy] at hw
      have := Option.some.inj hw
      subst this
      obtain ⟨d1, d2⟩ := h.dups i _ hi hz
      rcases h4 with rfl | ⟨-, rfl⟩
      · exact ⟨d1, d2⟩
      · exact ⟨rfl, d2⟩
    · have : i = s.verts.length := by omega
      subst this
      obtain ⟨w, hw, h4⟩ := hk.2 s.verts.length _ (by rw [List.getElem?_append_right (le_refl _), Nat.sub_self]; rfl)
      rw [hy] at hw
      have := Option.some.inj hw
      subst this
      rcases h4 with rfl | ⟨-, rfl⟩ <;> exact ⟨rfl, rfl⟩
  · rw [he.edges, List.filter_append, ← h.others]
    have hz : ([one s.nextKey t s.verts.length id1 "" 1 1 0, one (s.nextKey + 1) s.verts.length c1.tgt id2 "" 1 1 0,
      one (s.nextKey + 2) s.verts.length c2.tgt id3 "" 1 1 0] : List Edg).filter
        (fun e => decide (e.src ≠ t ∧ e.src < s0.verts.length)) = [] := by
      rw [List.filter_eq_nil_iff]
      intro e he'
      simp only [List.mem_cons, List.not_mem_nil, or_false] at he'
      rcases he' with rfl | rfl | rfl
      · simp [one]
      · show ¬ (decide (s.verts.length ≠ t ∧ s.verts.length < s0.verts.length) = true)
        rw [decide_eq_true_eq]; omega
      · show ¬ (decide (s.verts.length ≠ t ∧ s.verts.length < s0.verts.length) = true)
        rw [decide_eq_true_eq]; omega
    rw [hz, List.append_nil, List.filter_filter]
    apply List.filter_congr
    intro e hes
    by_cases hp : e.src ≠ t ∧ e.src < s0.verts.length
    · have : e.key ≠ c1.key ∧ e.key ≠ c2.key := by
        constructor
        · intro hh; exact hp.1 (by rw [key_inj h.inv hes m1 hh]; exact t1)
        · intro hh; exact hp.1 (by rw [key_inj h.inv hes m2 hh]; exact t2)
      simp [hp, this]
    · simp [hp]
  · intro n hn1 hn2
    have := cn (fun e => decide (e.src = n))
    simp only [t1, t2, one, List.countP_cons, List.countP_nil, decide_eq_true_eq] at this
    have htn : ¬ t = n := by omega
    simp only [htn, if_false] at this
    rcases Nat.lt_or_ge n s.verts.length with hn | hn
    · rw [h.dupOut n hn1 hn] at this
      have : ¬ s.verts.length = n := by omega
      simp_all
    · have : n = s.verts.length := by omega
      subst this
      rw [zero _ (fun e hes => by have := (h.inv.ends e hes).1; simp; omega)] at this
      simp_all
  · intro n hn1 hn2
    have := cn (fun e => decide (e.tgt = n))
    simp only [one, List.countP_cons, List.countP_nil, decide_eq_true_eq] at this
    rcases Nat.lt_or_ge n s.verts.length with hn | hn
    · rw [h.dupIn n hn1 hn] at this
      have : ¬ s.verts.length = n := by omega
      simp_all
      omega
    · have hh : n = s.verts.length := by omega
      subst hh
      rw [zero _ (fun e hes => by have := (h.inv.ends e hes).2; simp; omega)] at this
      have : ¬ c1.tgt = s.verts.length := by omega
      have : ¬ c2.tgt = s.verts.length := by omega
      simp_all
  · intro e hes hte
    rw [he.edges, List.mem_append, List.mem_filter] at hes
    rcases hes with ⟨hes, -⟩ | hes
    · exact h.fromTo e hes hte
    · simp only [List.mem_cons, List.not_mem_nil, or_false] at hes
      rcases hes with rfl | rfl | rfl
      · exact Or.inl rfl
      · exact Or.inr en1.2
      · exact Or.inr en2.2
  · intro w hw
    have := cn (fun e => decide (e.tgt = w))
    simp only [one, List.countP_cons, List.countP_nil, decide_eq_true_eq] at this
    have : ¬ s.verts.length = w := by omega
    rw [← h.indeg w hw]
    simp_all
    omega
  · intro e hes
    rw [he.edges, List.mem_append, List.mem_filter] at hes
    rcases hes with ⟨hes, -⟩ | hes
    · exact h.unit e hes
    · right
      simp only [List.mem_cons, List.not_mem_nil, or_false] at hes
      rcases hes with rfl | rfl | rfl <;> exact ⟨rfl, rfl, rfl, rfl, rfl⟩
  · intro e hes hsrc htgt
    rw [he.edges, List.mem_append, List.mem_filter] at hes
    rcases hes with ⟨hes, -⟩ | hes
    · exact h.old e hes hsrc htgt
    · simp only [List.mem_cons, List.not_mem_nil, or_false] at hes
      rcases hes with rfl | rfl | rfl
      · exact absurd htgt (by simp only [one]; omega)
      · exact h.old c1 m1 (Or.inl t1) htgt
      · exact h.old c2 m2 (Or.inl t2) htgt
  · have hl' : ∀ u : State, (outKeys u t).length = u.edges.countP fun e => decide (e.src = t) := by
      intro u
      unfold outKeys
      rw [List.length_map, List.countP_eq_length_filter]
      congr 1
    rw [hl', hl']
    have := cn (fun e => decide (e.src = t))
    simp only [t1, t2, one, List.countP_cons, List.countP_nil, decide_eq_true_eq] at this
    have : ¬ s.verts.length = t := by omega
    simp_all

theorem dupLoop_spec {s0 : State} {t : Nat} (hl : t < s0.verts.length) : ∀ (fuel cnt : Nat) (s : State), DupInv s0 t s →
    (outKeys s t).length < fuel →
    dupLoop t fuel cnt s ≠ .running ∧ (∀ s', dupLoop t fuel cnt s = .done s' → DupInv s0 t s' ∧
      (outKeys s' t).length = min 1 (outKeys s t).length ∧
      s'.verts.length + (outKeys s' t).length = s.verts.length + (outKeys s t).length) ∧
    dupLoop t (fuel + 1) cnt s = dupLoop t fuel cnt s := by
  intro fuel
  induction fuel with
  | zero => intro cnt s _ h; omega
  | succ fuel ih =>
    intro cnt s hs hf
    by_cases hg : (outKeys s t).length > 1
    · have he : ∀ f, dupLoop t (f + 1) cnt s = match dupStep s t cnt with
          | none => .failed
          | some s => dupLoop t f (cnt + 1) s := by
        intro f
        rw [dupLoop, if_pos hg]
        cases dupStep s t cnt <;> rfl
      rw [he, he]
      cases hd : dupStep s t cnt with
      | none => exact ⟨by simp, by simp, rfl⟩
      | some s1 =>
        obtain ⟨i1, i2, i3⟩ := dupInv_step hl hs hg hd
        obtain ⟨j1, j2, j3⟩ := ih (cnt + 1) s1 i1 (by omega)
        refine ⟨j1, ?_, j3⟩
        intro s' hs'
        obtain ⟨k1, k2, k3⟩ := j2 s' hs'
        exact ⟨k1, by omega, by omega⟩
    · have he : ∀ f, dupLoop t (f + 1) cnt s = .done s := by
        intro f
        rw [dupLoop, if_neg hg]
      rw [he, he]
      refine ⟨by simp, ?_, rfl⟩
      intro s' hs'
      cases hs'
      exact ⟨hs, by omega, rfl⟩

/-! ### Chains -/

/-- The number of tasks put on a route: one per link and, with routers, one between two links. -/
def hops (routers : Bool) : List Int → Nat
  | [] => 0
  | [_] => 1
  | _ :: e :: rest => (if routers then 2 else 1) + hops routers (e :: rest)

theorem hops_eq (routers : Bool) (l : List Int) :
    hops routers l = if routers then 2 * l.length - 1 else l.length := by
  induction l with
  | nil => cases routers <;> rfl
  | cons a l ih =>
    cases l with
    | nil => cases routers <;> rfl
    | cons b l =>
      rw [hops, ih]
      cases routers
      · simp; omega
      · simp; omega

/-- The channels `L` lead from `src` through the tasks `V`, `V + 1`, …; the first one has the production rate `rate`. -/
def ChainEdges (V src : Nat) (rate : Int) (L : List Edg) : Prop :=
  ∀ (i : Nat) (e : Edg), L[i]? = some e →
    e.src = (if i = 0 then src else V + i - 1) ∧ e.tgt = V + i ∧ e.ins = [if i = 0 then rate else 1] ∧ e.outs = [1] ∧
    e.preload = 0 ∧ e.iins = [] ∧ e.iouts = []

theorem chain_cons {V src : Nat} {rate : Int} {e : Edg} {L : List Edg} (hL : ChainEdges (V + 1) V 1 L)
    (h : e.src = src ∧ e.tgt = V ∧ e.ins = [rate] ∧ e.outs = [1] ∧ e.preload = 0 ∧ e.iins = [] ∧ e.iouts = []) :
    ChainEdges V src rate (e :: L) := by
  intro i f hf
  cases i with
  | zero =>
    simp only [List.getElem?_cons_zero, Option.some.injEq] at hf
    subst hf
    simpa using h
  | succ i =>
    rw [List.getElem?_cons_succ] at hf
    obtain ⟨h1, h2, h3, h4⟩ := hL i f hf
    refine ⟨?_, by omega, ?_, h4⟩
    · rw [h1]
      cases i with
      | zero => simp
      | succ i => simp; omega
    · rw [h3]; simp

/-- The tasks of `vs` are kept (`Keep`), and the new ones have one phase; every second one is a router with routers. -/
def Grown (routers : Bool) (vs ws : List Vtx) : Prop :=
  vs.length ≤ ws.length ∧
  (∀ (i : Nat) (x : Vtx), vs[i]? = some x →
    ∃ y, ws[i]? = some y ∧ (y = x ∨ x.phases ≤ 0 ∧ y = { x with phases := 1 })) ∧
  ∀ (i : Nat) (y : Vtx), vs.length ≤ i → ws[i]? = some y →
    y.phases = 1 ∧ y.durs = [if routers = true ∧ (i - vs.length) % 2 = 1 then 0 else 1]

theorem Grown.refl (routers : Bool) (vs : List Vtx) : Grown routers vs vs :=
  ⟨le_refl _, fun _ x h => ⟨x, h, Or.inl rfl⟩, fun i y h1 h2 => by
    rw [List.getElem?_eq_none h1] at h2
    cases h2⟩

/-- One new task, then the channels to it. -/
theorem Grown.step {routers : Bool} {vs ws us : List Vtx} {x : Vtx} (h1 : Keep (vs ++ [x]) ws) (hp : x.phases = 1)
    (hd : x.durs = [1]) (h2 : Grown routers ws us) (hr : routers = true → us.length = ws.length) :
    Grown routers vs us := by
  have hl : ws.length = vs.length + 1 := by rw [h1.1]; simp
  obtain ⟨g1, g2, g3⟩ := h2
  refine ⟨by omega, ?_, ?_⟩
  · intro i y hy
    have hil : i < vs.length := by rw [List.getElem?_eq_some_iff] at hy; exact hy.1
    obtain ⟨z, hz, h3⟩ := h1.2 i y (by rw [List.getElem?_append_left hil]; exact hy)
    obtain ⟨w, hw, h4⟩ := g2 i z hz
    refine ⟨w, hw, ?_⟩
    rcases h3 with rfl | ⟨hp, rfl⟩
    · exact h4
    · rcases h4 with rfl | ⟨-, rfl⟩ <;> exact Or.inr ⟨hp, rfl⟩
  · intro i y hi hy
    have hil : i < us.length := by rw [List.getElem?_eq_some_iff] at hy; exact hy.1
    rcases Nat.lt_or_ge i ws.length with hi2 | hi2
    · have : i = vs.length := by omega
      subst this
      obtain ⟨z, hz, h3⟩ := h1.2 vs.length x (by simp)
      obtain ⟨w, hw, h4⟩ := g2 _ z hz
      rw [hy] at hw
      have := Option.some.inj hw
      subst this
      have hz1 : z = x := by
        rcases h3 with h3 | ⟨h3, -⟩
        · exact h3
        · omega
      subst hz1
      rcases h4 with rfl | ⟨h4, -⟩
      · exact ⟨hp, by simp [hd]⟩
      · omega
    · obtain ⟨q1, q2⟩ := g3 i y hi2 hy
      refine ⟨q1, ?_⟩
      rw [q2]
      cases routers with
      | false => simp
      | true =>
        have := hr rfl
        omega

/-- A link, a router, and the channels to them. -/
theorem Grown.step2 {vs ws us ts : List Vtx} {x y : Vtx} (h1 : Keep (vs ++ [x]) ws) (hp : x.phases = 1)
    (hd : x.durs = [1]) (h2 : Keep (ws ++ [y]) us) (hp2 : y.phases = 1) (hd2 : y.durs = [0])
    (h3 : Grown true us ts) : Grown true vs ts := by
  have hl : ws.length = vs.length + 1 := by rw [h1.1]; simp
  have hl2 : us.length = ws.length + 1 := by rw [h2.1]; simp
  obtain ⟨g1, g2, g3⟩ := h3
  have hk : Keep (vs ++ [x, y]) us := by
    refine ⟨by simp; omega, ?_⟩
    intro i z hz
    have hil : i < vs.length + 2 := by rw [List.getElem?_eq_some_iff] at hz; simpa using hz.1
    rw [show vs ++ [x, y] = (vs ++ [x]) ++ [y] by simp] at hz
    rcases Nat.lt_or_ge i (vs.length + 1) with hi | hi
    · rw [List.getElem?_append_left (by simpa using hi)] at hz
      obtain ⟨w, hw, h4⟩ := h1.2 i z hz
      obtain ⟨u, hu, h5⟩ := h2.2 i w (by rw [List.getElem?_append_left (by omega)]; exact hw)
      refine ⟨u, hu, ?_⟩
      rcases h4 with rfl | ⟨hp, rfl⟩
      · exact h5
      · rcases h5 with rfl | ⟨-, rfl⟩ <;> exact Or.inr ⟨hp, rfl⟩
    · have : i = vs.length + 1 := by omega
      subst this
      rw [List.getElem?_append_right (by simp)] at hz
      simp only [List.length_append, List.length_cons, List.length_nil, Nat.zero_add, Nat.sub_self,
        List.getElem?_cons_zero, Option.some.injEq] at hz
      subst hz
      exact h2.2 (vs.length + 1) y (by rw [← hl]; simp)
  have fixd : ∀ (i : Nat) (z : Vtx), (vs ++ [x, y])[i]? = some z → z.phases = 1 → ts[i]? = some z := by
    intro i z hz h1
    obtain ⟨w, hw, h4⟩ := hk.2 i z hz
    have : w = z := by
      rcases h4 with h4 | ⟨h4, -⟩
      · exact h4
      · omega
    subst this
    obtain ⟨u, hu, h5⟩ := g2 i w hw
    rcases h5 with rfl | ⟨h5, -⟩
    · exact hu
    · omega
  refine ⟨by omega, ?_, ?_⟩
  · intro i z hz
    have hil : i < vs.length := by rw [List.getElem?_eq_some_iff] at hz; exact hz.1
    obtain ⟨w, hw, h4⟩ := hk.2 i z (by rw [List.getElem?_append_left hil]; exact hz)
    obtain ⟨u, hu, h5⟩ := g2 i w hw
    refine ⟨u, hu, ?_⟩
    rcases h4 with rfl | ⟨hp, rfl⟩
    · exact h5
    · rcases h5 with rfl | ⟨-, rfl⟩ <;> exact Or.inr ⟨hp, rfl⟩
  · intro i z hi hz
    rcases Nat.lt_or_ge i us.length with hi2 | hi2
    · rcases Nat.lt_or_ge i (vs.length + 1) with hi3 | hi3
      · have : i = vs.length := by omega
        subst this
        have := fixd vs.length x (by simp) hp
        rw [hz] at this
        have := Option.some.inj this
        subst this
        exact ⟨hp, by simp [hd]⟩
      · have : i = vs.length + 1 := by omega
        subst this
        have := fixd (vs.length + 1) y (by rw [List.getElem?_append_right (by omega)]; simp) hp2
        rw [hz] at this
        have := Option.some.inj this
        subst this
        exact ⟨hp2, by simp [hd2]⟩
    · obtain ⟨q1, q2⟩ := g3 i z hi2 hz
      refine ⟨q1, ?_⟩
      rw [q2, show i - vs.length = (i - us.length) + 2 by omega, Nat.add_mod_right]

theorem eff_link {s1 s2 s3 : State} {nm : String} {r : Int} {a : Nat} {d : ℚ} (hi : Inv s1)
    (h1 : pathTask s1 nm d = some s2) (h2 : pathEdge s2 a s1.verts.length r = some s3) (ha : a < s1.verts.length) :
    ∃ (x : Vtx) (f : Edg), x.phases = 1 ∧ x.durs = [d] ∧ Keep (s1.verts ++ [x]) s3.verts ∧
      (f.src = a ∧ f.tgt = s1.verts.length ∧ f.ins = [r] ∧ f.outs = [1] ∧ f.preload = 0 ∧ f.iins = [] ∧ f.iouts = []) ∧
      Single s1.verts a ∧ s3.verts.length = s1.verts.length + 1 ∧ Eff s1 s3 s3.verts (s1.edges ++ [f]) s3.nextKey := by
  obtain ⟨id, e2, -⟩ := eff_pathTask hi h1
  obtain ⟨-, -, p1, -, k, id3, nm3, e3⟩ := eff_pathEdge e2.inv h2
  rw [e2.verts] at k p1
  refine ⟨⟨id, nm, 1, 0, [d], 0, []⟩, one s2.nextKey a s1.verts.length id3 nm3 r 1 0, rfl, rfl, k,
    ⟨rfl, rfl, rfl, rfl, rfl, rfl, rfl⟩, ?_, ?_, e3.inv, rfl, ?_, rfl, e3.writable⟩
  · obtain ⟨x, hx, hp⟩ := p1
    rw [List.getElem?_append_left ha] at hx
    exact ⟨x, hx, hp⟩
  · rw [k.1]; simp
  · rw [e3.edges, e2.edges]

theorem hops_cons_pos (routers : Bool) (e : Int) (l : List Int) : 0 < hops routers (e :: l) := by
  rw [hops_eq]
  cases routers <;> simp
  omega

theorem pathLoop_spec (known : Int → Bool) (routers : Bool) (eid : Int) : ∀ (route : List Int) (s : State) (src : Nat)
    (rate : Int) (s' : State) (last : Nat), Inv s → s.readonly = false → src < s.verts.length →
    pathLoop known routers eid s src rate route = some (s', last) →
    ∃ L : List Edg, L.length = hops routers route ∧ ChainEdges s.verts.length src rate L ∧
      last = (if hops routers route = 0 then src else s.verts.length + hops routers route - 1) ∧
      s'.verts.length = s.verts.length + hops routers route ∧ Grown routers s.verts s'.verts ∧
      (route ≠ [] → Single s.verts src) ∧
      Eff s s' s'.verts (s.edges ++ L) s'.nextKey := by
  intro route
  induction route with
  | nil =>
    intro s src rate s' last hi hw hs hm
    rw [pathLoop] at hm
    have := Option.some.inj hm
    cases this
    refine ⟨[], rfl, ?_, rfl, rfl, Grown.refl _ _, fun h => absurd rfl h, hi, rfl, by simp, rfl, hw⟩
    intro i e he
    simp at he
  | cons e rest ih =>
    intro s src rate s' last hi hw hs hm
    rw [pathLoop] at hm
    obtain ⟨s2, h2, hm⟩ := Option.bind_eq_some_iff.mp hm
    obtain ⟨s3, h3, hm⟩ := Option.bind_eq_some_iff.mp hm
    obtain ⟨x, f, hx1, hx2, hk, hf, hsg, hl3, e3⟩ := eff_link hi h2 h3 hs
    -- the turn without a router
    have plain : pathLoop known routers eid s3 s.verts.length 1 rest = some (s', last) →
        (routers = true → rest = []) →
        ∃ L : List Edg, L.length = hops routers (e :: rest) ∧ ChainEdges s.verts.length src rate L ∧
        last = (if hops routers (e :: rest) = 0 then src else s.verts.length + hops routers (e :: rest) - 1) ∧
        s'.verts.length = s.verts.length + hops routers (e :: rest) ∧ Grown routers s.verts s'.verts ∧
        (e :: rest ≠ [] → Single s.verts src) ∧ Eff s s' s'.verts (s.edges ++ L) s'.nextKey := by
      intro hm hr
      obtain ⟨L, g1, g2, g3, g4, g5, -, g7⟩ := ih s3 s.verts.length 1 s' last e3.inv e3.writable (by omega) hm
      have hh : hops routers (e :: rest) = 1 + hops routers rest := by
        cases rest with
        | nil => rfl
        | cons b rest =>
          rw [hops]
          cases routers with
          | false => simp
          | true => exact absurd (hr rfl) (by simp)
      have hpos := hops_cons_pos routers e rest
      refine ⟨f :: L, by simp [g1, hh]; omega, ?_, ?_, by omega, ?_, fun _ => hsg, g7.inv, rfl, ?_, rfl, g7.writable⟩
      · rw [hl3] at g2
        exact chain_cons g2 hf
      · rw [if_neg (by omega), g3, hh]
        split <;> omega
      · refine Grown.step hk hx1 hx2 g5 ?_
        intro hrt
        have := hr hrt
        subst this
        rw [g4]; rfl
      · rw [g7.edges, e3.edges]; simp
    cases routers with
    | false => exact plain hm (by simp)
    | true =>
      cases rest with
      | nil => exact plain hm (by simp)
      | cons e2 rest =>
        simp only at hm
        split at hm
        · obtain ⟨s4, h4, hm⟩ := Option.bind_eq_some_iff.mp hm
          obtain ⟨s5, h5, hm⟩ := Option.bind_eq_some_iff.mp hm
          have h5' : pathEdge s4 s.verts.length s3.verts.length 1 = some s5 := h5
          obtain ⟨y, f2, hy1, hy2, hk2, hf2, -, hl5, e5⟩ := eff_link e3.inv h4 h5' (by omega)
          obtain ⟨L, g1, g2, g3, g4, g5, -, g7⟩ := ih s5 s3.verts.length 1 s' last e5.inv e5.writable (by omega) hm
          have hh : hops true (e :: e2 :: rest) = 2 + hops true (e2 :: rest) := by rw [hops]; simp
          have hpos := hops_cons_pos true e2 rest
          refine ⟨f :: f2 :: L, by simp [g1, hh]; omega, ?_, ?_, by omega, ?_, fun _ => hsg, g7.inv, rfl, ?_, rfl,
            g7.writable⟩
          · rw [hl5, hl3] at g2
            rw [hl3] at hf2
            exact chain_cons (chain_cons g2 hf2) hf
          · rw [if_neg (by omega), g3, if_neg (by omega), hh]
            omega
          · exact Grown.step2 hk hx1 hx2 hk2 hy1 hy2 g5
          · rw [g7.edges, e5.edges, e3.edges]; simp
        · cases hm

end Kiter.DF
