/-
Property C130: the Graphviz text of a graph (`PrintGraph`).
-/
import Verif.Model.GraphDraw
import Verif.Spec.GraphDraw
import Verif.Props.Infos

set_option autoImplicit false

namespace Kiter.GraphDraw

open Kiter.DF Kiter.Text

theorem eat_append (w r : Str) : eat w (w ++ r) = some r := by
  unfold eat
  rw [if_pos (List.isPrefixOf_iff_prefix.mpr ⟨r, rfl⟩), List.drop_left]

theorem showInt_num {v : Int} {c : Char} (h : c ∈ showInt v) : numChar c = true := by
  have hd : ∀ n, c ∈ dec n → numChar c = true := by
    intro n hc
    obtain ⟨d, hd, rfl⟩ := dec_mem hc
    simp [numChar, (digit_facts d hd).1]
  unfold showInt at h
  split at h
  · rcases List.mem_cons.1 h with rfl | h
    · decide
    · exact hd _ h
  · exact hd _ h

theorem readSigned_show (v : Int) : readSigned (showInt v) = v := by
  have := readSigned_showInt v
  rwa [dropSpace (showInt_word v).space] at this

theorem num_show (v : Int) {c : Char} (r : Str) (hc : numChar c = false) : num (showInt v ++ c :: r) = (v, c :: r) := by
  unfold num
  rw [List.takeWhile_append_of_pos (fun x hx => showInt_num hx), List.dropWhile_append_of_pos (fun x hx => showInt_num hx),
    List.takeWhile_cons_of_neg (by simp [hc]), List.dropWhile_cons_of_neg (by simp [hc]), List.append_nil, readSigned_show]

theorem quoted_plain {l : Str} (r : Str) (h : ∀ c ∈ l, c ≠ '"' ∧ c ≠ '\\') : quoted (l ++ '"' :: r) = some (l, r) := by
  induction l with
  | nil =>
    rw [List.nil_append, quoted.eq_def]
    simp
  | cons c l ih =>
    obtain ⟨h1, h2⟩ := h c List.mem_cons_self
    rw [List.cons_append, quoted.eq_def]
    simp only [if_neg h1, if_neg h2]
    rw [ih fun x hx => h x (List.mem_cons_of_mem _ hx)]
    rfl

theorem num_plain {c : Char} (h : numChar c = true) : c ≠ '"' ∧ c ≠ '\\' ∧ c ≠ ')' ∧ c ≠ '(' := by
  refine ⟨?_, ?_, ?_, ?_⟩ <;> (rintro rfl; revert h; decide)

theorem vec_mem {l : List Int} {c : Char} (h : c ∈ vectorAsStr l) : numChar c = true ∨ c = ',' := by
  rw [vectorAsStr_join] at h
  rcases join_mem h with rfl | ⟨w, hw, hc⟩
  · exact Or.inr rfl
  · obtain ⟨v, _, rfl⟩ := List.mem_map.1 hw
    exact Or.inl (showInt_num hc)

theorem vecText_mem {l : List Int} {c : Char} (h : c ∈ vecText l) : c ≠ '"' ∧ c ≠ '\\' ∧ c ≠ ')' ∧ c ≠ '(' := by
  unfold vecText at h
  rcases List.mem_cons.1 h with rfl | h
  · decide
  · rcases List.mem_append.1 h with h | h
    · rcases vec_mem h with h | rfl
      · exact num_plain h
      · decide
    · rw [List.mem_singleton.1 h]
      decide

theorem readVec_text (l : List Int) : readVec (vecText l) = l := by
  unfold readVec vecText
  rw [List.drop_succ_cons, List.drop_zero, List.dropLast_concat, split_vec, List.map_map]
  conv_rhs => rw [← List.map_id l]
  exact List.map_congr_left fun v _ => readSigned_show v

theorem rateText_mem {n : Int} {i p : List Int} {c : Char} (h : c ∈ rateText n i p) : c ≠ '"' ∧ c ≠ '\\' := by
  unfold rateText at h
  split at h
  · rcases List.mem_cons.1 h with rfl | h
    · decide
    · rcases List.mem_append.1 h with h | h
      · exact ⟨(vecText_mem h).1, (vecText_mem h).2.1⟩
      · rcases List.mem_append.1 h with h | h
        · have : c = ')' ∨ c = ';' := by simpa using h
          rcases this with rfl | rfl <;> decide
        · exact ⟨(vecText_mem h).1, (vecText_mem h).2.1⟩
  · exact ⟨(vecText_mem h).1, (vecText_mem h).2.1⟩

theorem readRates_text (n : Int) (i p : List Int) : readRates (rateText n i p) = (if n > 0 then i else [], p) := by
  unfold rateText
  split
  · have h1 : ∀ c ∈ vecText i, (decide (c ≠ ')')) = true := fun c hc => by simpa using (vecText_mem hc).2.2.1
    simp only [readRates]
    rw [List.takeWhile_append_of_pos h1, List.dropWhile_append_of_pos h1]
    simp [readVec_text]
  · rw [show readRates (vecText p) = ([], readVec (vecText p)) from rfl, readVec_text]

theorem readItem_node (id : Int) {name : Str} (r : Str) (h : ∀ c ∈ name, c ≠ '"' ∧ c ≠ '\\') :
    readItem (nodeText id name ++ r) = some (Sum.inl ⟨id, name⟩, r) := by
  unfold readItem nodeText
  simp only [List.append_assoc]
  rw [eat_append]
  simp only [bind, Option.bind]
  have h1 : " [shape=circle,  fixedsize=\"shape\", fontsize=\"7\",label = \"".toList =
      ' ' :: "[shape=circle,  fixedsize=\"shape\", fontsize=\"7\",label = \"".toList := by decide +kernel
  have h2 : ∀ x : Str, num (showInt id ++ (" [shape=circle,  fixedsize=\"shape\", fontsize=\"7\",label = \"".toList ++ x)) =
      (id, " [shape=circle,  fixedsize=\"shape\", fontsize=\"7\",label = \"".toList ++ x) := by
    intro x
    rw [h1, List.cons_append]
    exact num_show _ _ (by decide)
  have h3 : ∀ x : Str, eat " -> t_".toList (" [shape=circle,  fixedsize=\"shape\", fontsize=\"7\",label = \"".toList ++ x) = none := by
    intro x
    unfold eat
    rw [if_neg]
    rw [h1]
    simp [List.isPrefixOf]
  have h4 : "\" ];\n".toList = '"' :: " ];\n".toList := by decide +kernel
  rw [h2]
  simp only [h3, eat_append]
  rw [h4, List.cons_append, quoted_plain _ h]
  simp only [eat_append]

theorem readItem_edge (a b p : Int) {h t : Str} (r : Str) (hh : ∀ c ∈ h, c ≠ '"' ∧ c ≠ '\\') (ht : ∀ c ∈ t, c ≠ '"' ∧ c ≠ '\\') :
    readItem (edgeText a b p h t ++ r) =
      some (Sum.inr ⟨a, b, p, (readRates t).1, (readRates t).2, (readRates h).1, (readRates h).2⟩, r) := by
  unfold readItem edgeText
  simp only [List.append_assoc]
  rw [eat_append]
  simp only [bind, Option.bind]
  have h1 : ∀ x : Str, num (showInt a ++ (" -> t_".toList ++ x)) = (a, " -> t_".toList ++ x) := by
    intro x
    exact num_show _ _ (by decide)
  have h2 : ∀ x : Str, num (showInt b ++ (" [ label=\"".toList ++ x)) = (b, " [ label=\"".toList ++ x) := by
    intro x
    exact num_show _ _ (by decide)
  have q1 : "\", headlabel=\"".toList = '"' :: ", headlabel=\"".toList := by decide +kernel
  have q2 : "\", taillabel=\"".toList = '"' :: ", taillabel=\"".toList := by decide +kernel
  have q3 : "\", ] ;\n".toList = '"' :: ", ] ;\n".toList := by decide +kernel
  rw [h1]
  simp only [eat_append]
  rw [h2]
  simp only [eat_append]
  rw [q1, List.cons_append, quoted_plain _ fun c hc => ⟨(num_plain (showInt_num hc)).1, (num_plain (showInt_num hc)).2.1⟩]
  simp only [eat_append]
  rw [q2, List.cons_append, quoted_plain _ hh]
  simp only [eat_append]
  rw [q3, List.cons_append, quoted_plain _ ht]
  simp only [eat_append, readSigned_show]

/-- Reading a sequence of texts, each of which reads as an item. -/
theorem readItems_flatten : ∀ (l : List (Str × (Node ⊕ Arrow))) (n : Nat), l.length < n →
    (∀ x ∈ l, (∀ r, readItem (x.1 ++ r) = some (x.2, r)) ∧ x.1.head? = some ' ') →
    readItems n ((l.map Prod.fst).flatten ++ "\n}\n".toList) = some (l.map Prod.snd) := by
  intro l
  induction l with
  | nil =>
    intro n hn _
    obtain ⟨n, rfl⟩ : ∃ m, n = m + 1 := ⟨n - 1, by simp at hn; omega⟩
    simp [readItems]
  | cons x l ih =>
    intro n hn h
    obtain ⟨n, rfl⟩ : ∃ m, n = m + 1 := ⟨n - 1, by simp at hn; omega⟩
    obtain ⟨h1, h2⟩ := h x List.mem_cons_self
    have hne : ¬ (((x :: l).map Prod.fst).flatten ++ "\n}\n".toList) = "\n}\n".toList := by
      intro he
      have := congrArg List.head? he
      obtain ⟨c, hc⟩ : ∃ c, x.1 = ' ' :: c := by
        cases hx : x.1 with
        | nil => rw [hx] at h2; simp at h2
        | cons a b => rw [hx] at h2; simp at h2; exact ⟨b, by rw [h2]⟩
      simp [hc] at this
    rw [readItems, if_neg hne]
    simp only [List.map_cons, List.flatten_cons, List.append_assoc]
    rw [h1]
    simp only [bind, Option.bind]
    rw [ih n (by simp at hn; omega) fun y hy => h y (List.mem_cons_of_mem _ hy)]

theorem node_head (id : Int) (name : Str) : (nodeText id name).head? = some ' ' := by
  unfold nodeText
  simp

theorem edge_head (a b p : Int) (h t : Str) : (edgeText a b p h t).head? = some ' ' := by
  unfold edgeText
  simp

/-- The test of consistency leaves tasks and channels as they are. -/
theorem isConsistent_bare {s t : State} {b : Bool} (h : Infos.isConsistent s = some (b, t)) : Infos.bare t = Infos.bare s := by
  unfold Infos.isConsistent at h
  split at h
  · simp only [Option.some.injEq, Prod.mk.injEq] at h
    rw [← h.2]
  · rename_i hd
    simp only [computeRV, if_neg hd, bind, Option.bind] at h
    cases hg : repOf (s.verts.map fun v => v.phases) s.edges with
    | none => simp [hg] at h
    | some g =>
      simp only [hg] at h
      cases hr : Rep.compute g with
      | none => simp [hr] at h
      | some res =>
        simp only [hr] at h
        cases res with
        | none =>
          simp only [Option.some.injEq, Prod.mk.injEq] at h
          rw [← h.2]; rfl
        | some N =>
          simp only [Option.some.injEq, Prod.mk.injEq] at h
          rw [← h.2]
          exact Infos.bare_putNi s N true true

theorem verts_of_bare {s t : State} (h : Infos.bare t = Infos.bare s) (v : Nat) (x : Vtx) (hx : t.verts[v]? = some x) :
    ∃ y, s.verts[v]? = some y ∧ y.id = x.id ∧ y.name = x.name ∧ y.iphases = x.iphases := by
  have h1 : (t.verts.map fun x => ({ x with ni := 0 } : Vtx)) = s.verts.map fun x => ({ x with ni := 0 } : Vtx) := congrArg Prod.fst h
  have h2 := congrArg (fun l => l[v]?) h1
  simp only [List.getElem?_map, hx, Option.map_some] at h2
  obtain ⟨y, k1, k2⟩ := Option.map_eq_some_iff.mp h2.symm
  simp only [Vtx.mk.injEq] at k2
  exact ⟨y, k1, k2.1, k2.2.1, k2.2.2.2.2.2.1⟩

/-- What a reader is to get for a channel. -/
def itemOf (u : State) (e : Edg) : Node ⊕ Arrow :=
  match u.verts[e.src]?, u.verts[e.tgt]? with
  | some a, some b => Sum.inr ⟨a.id, b.id, e.preload, if 0 < a.iphases then e.iins else [], e.ins,
      if 0 < b.iphases then e.iouts else [], e.outs⟩
  | _, _ => Sum.inl ⟨0, []⟩

/-- C130. Whenever the drawing is written and no name contains a quotation mark or a backslash, a reader of the text gets
one node per task, numbered and named as the task, and one arrow per channel, between the nodes of its ends, with its tokens,
the productions at the tail and the consumptions at the head, and the initial rates exactly when the task of that end has
initial phases. -/
theorem _root_.Kiter.C130_drawing {s t : State} {txt : Str} (hw : graphDOT s = some (txt, t))
    (hn : ∀ x ∈ s.verts, ∀ c ∈ x.name.toList, c ≠ '"' ∧ c ≠ '\\') :
    ∃ items, readDrawing txt = some items ∧ items.length = s.verts.length + s.edges.length ∧
      (∀ (v : Nat) (x : Vtx), s.verts[v]? = some x → items[v]? = some (Sum.inl ⟨x.id, x.name.toList⟩)) ∧
      ∀ (k : Nat) (e : Edg), s.edges[k]? = some e → ∃ a b, s.verts[e.src]? = some a ∧ s.verts[e.tgt]? = some b ∧
        items[s.verts.length + k]? = some (Sum.inr ⟨a.id, b.id, e.preload, if 0 < a.iphases then e.iins else [], e.ins,
          if 0 < b.iphases then e.iouts else [], e.outs⟩) := by
  unfold graphDOT at hw
  simp only [bind, Option.bind] at hw
  cases hc : Infos.isConsistent s with
  | none => simp [hc] at hw
  | some bt =>
    obtain ⟨b, u⟩ := bt
    simp only [hc] at hw
    have hb := isConsistent_bare hc
    have hedges : u.edges = s.edges := congrArg Prod.snd hb
    have hlen : u.verts.length = s.verts.length := by
      have := congrArg List.length (congrArg Prod.fst hb)
      simpa [Infos.bare] using this
    cases he : u.edges.mapM (channelText u) with
    | none => simp [he] at hw
    | some es =>
      simp only [he, Option.some.injEq, Prod.mk.injEq] at hw
      obtain ⟨hw, rfl⟩ := hw
      have hsome : ∀ e ∈ u.edges, ∃ a b, u.verts[e.src]? = some a ∧ u.verts[e.tgt]? = some b := by
        intro e hm
        cases ha : u.verts[e.src]? with
        | none => rw [Text.mapM_none hm (by simp [channelText, ha])] at he; simp at he
        | some a =>
          cases hb : u.verts[e.tgt]? with
          | none => rw [Text.mapM_none hm (by simp [channelText, hb])] at he; simp at he
          | some b => exact ⟨a, b, rfl, rfl⟩
      have hes : es = u.edges.map fun e => (channelText u e).getD [] := by
        have : u.edges.mapM (channelText u) = some (u.edges.map fun e => (channelText u e).getD []) := by
          refine Text.mapM_some fun e hm => ?_
          obtain ⟨a, b, ha, hb⟩ := hsome e hm
          simp [channelText, ha, hb]
        rw [he] at this
        exact Option.some.inj this
      let l : List (Str × (Node ⊕ Arrow)) :=
        u.verts.map (fun x : Vtx => (taskText x, Sum.inl ⟨x.id, x.name.toList⟩)) ++
          u.edges.map fun e => ((channelText u e).getD [], itemOf u e)
      have hfst : (l.map Prod.fst).flatten = (u.verts.map taskText).flatten ++ es.flatten := by
        simp only [l, hes, List.map_append, List.map_map, List.flatten_append]
        rfl
      have hread : ∀ x ∈ l, (∀ r, readItem (x.1 ++ r) = some (x.2, r)) ∧ x.1.head? = some ' ' := by
        intro x hx
        rcases List.mem_append.1 hx with hx | hx
        · obtain ⟨y, hy, rfl⟩ := List.mem_map.1 hx
          obtain ⟨v, hv, rfl⟩ := List.mem_iff_getElem.mp hy
          obtain ⟨z, h1, h2, h3, -⟩ := verts_of_bare hb v u.verts[v] (by simp [hv])
          refine ⟨fun r => ?_, node_head _ _⟩
          refine readItem_node _ _ fun c hc => hn z (List.mem_of_getElem? h1) c ?_
          rw [h3]
          exact hc
        · obtain ⟨e, hm, rfl⟩ := List.mem_map.1 hx
          obtain ⟨a, b, ha, hb⟩ := hsome e hm
          simp only [channelText, ha, hb, bind, Option.bind, Option.getD_some, itemOf]
          refine ⟨fun r => ?_, edge_head _ _ _ _ _⟩
          rw [readItem_edge _ _ _ _ (fun c hc => rateText_mem hc) (fun c hc => rateText_mem hc), readRates_text, readRates_text]
      have hpos : l.length ≤ ((l.map Prod.fst).flatten).length := by
        have hx : ∀ x ∈ l, 1 ≤ x.1.length := by
          intro x hx
          have := (hread x hx).2
          cases h : x.1 with
          | nil => simp [h] at this
          | cons _ _ => simp
        clear_value l
        clear hread hfst
        induction l with
        | nil => simp
        | cons x l ih =>
          have h1 := hx x List.mem_cons_self
          have h2 := ih fun y hy => hx y (List.mem_cons_of_mem _ hy)
          simp only [List.map_cons, List.flatten_cons, List.length_append, List.length_cons] at h2 ⊢
          omega
      refine ⟨l.map Prod.snd, ?_, ?_, ?_, ?_⟩
      · unfold readDrawing
        rw [← hw]
        rw [show header = opening from rfl, eat_append]
        simp only [bind, Option.bind]
        rw [← List.append_assoc (List.flatten _), ← hfst]
        refine readItems_flatten l _ ?_ hread
        simp only [List.length_append] at hpos ⊢
        omega
      · simp [l, hlen, hedges]
      · intro v x hx
        have hv : v < u.verts.length := by
          rw [hlen]
          exact (List.getElem?_eq_some_iff.mp hx).1
        obtain ⟨y, h1, h2, h3, -⟩ := verts_of_bare hb v u.verts[v] (by simp [hv])
        rw [hx, Option.some.injEq] at h1
        subst h1
        simp only [l, List.map_append, List.map_map]
        rw [List.getElem?_append_left (by simpa using hv), List.getElem?_map, List.getElem?_eq_getElem hv]
        simp [h2, h3]
      · intro k e hk
        rw [← hedges] at hk
        obtain ⟨a, b, ha, hb'⟩ := hsome e (List.mem_of_getElem? hk)
        obtain ⟨a', a1, a2, -, a4⟩ := verts_of_bare hb _ _ ha
        obtain ⟨b', b1, b2, -, b4⟩ := verts_of_bare hb _ _ hb'
        refine ⟨a', b', a1, b1, ?_⟩
        simp only [l, List.map_append, List.map_map]
        rw [List.getElem?_append_right (by simp [hlen])]
        simp [hlen, hk, itemOf, ha, hb', a2, a4, b2, b4]

/-- C130, two graphs with the same drawing have the same tasks (numbers and names) and the same channels. -/
theorem _root_.Kiter.C130_faithful {s s' t t' : State} {txt : Str} (h : graphDOT s = some (txt, t))
    (h' : graphDOT s' = some (txt, t')) (hn : ∀ x ∈ s.verts, ∀ c ∈ x.name.toList, c ≠ '"' ∧ c ≠ '\\')
    (hn' : ∀ x ∈ s'.verts, ∀ c ∈ x.name.toList, c ≠ '"' ∧ c ≠ '\\') :
    (s.verts.map fun x => (x.id, x.name)) = (s'.verts.map fun x => (x.id, x.name)) ∧
      s.edges.length = s'.edges.length ∧
      ∀ (k : Nat) (e e' : Edg), s.edges[k]? = some e → s'.edges[k]? = some e' →
        e.preload = e'.preload ∧ e.ins = e'.ins ∧ e.outs = e'.outs ∧
        ((s.verts[e.src]?).map fun x => x.id) = ((s'.verts[e'.src]?).map fun x => x.id) ∧
        ((s.verts[e.tgt]?).map fun x => x.id) = ((s'.verts[e'.tgt]?).map fun x => x.id) := by
  obtain ⟨i, r1, r2, r3, r4⟩ := C130_drawing h hn
  obtain ⟨i', q1, q2, q3, q4⟩ := C130_drawing h' hn'
  rw [r1, Option.some.injEq] at q1
  subst q1
  -- the first arrow is where the tasks end
  have key : ∀ {a b : State}, (∀ (v : Nat) (x : Vtx), a.verts[v]? = some x → i[v]? = some (Sum.inl ⟨x.id, x.name.toList⟩)) →
      i.length = b.verts.length + b.edges.length →
      (∀ (k : Nat) (e : Edg), b.edges[k]? = some e → ∃ x y, b.verts[e.src]? = some x ∧ b.verts[e.tgt]? = some y ∧
        i[b.verts.length + k]? = some (Sum.inr ⟨x.id, y.id, e.preload, if 0 < x.iphases then e.iins else [], e.ins,
          if 0 < y.iphases then e.iouts else [], e.outs⟩)) → a.verts.length ≤ i.length →
      a.verts.length ≤ b.verts.length := by
    intro a b k1 k2 k3 k4
    by_contra hlt
    push Not at hlt
    obtain ⟨x, y, -, -, hz⟩ := k3 0 (b.edges[0]'(by omega)) (by simp)
    have := k1 b.verts.length a.verts[b.verts.length] (by simp [hlt])
    rw [Nat.add_zero, this] at hz
    simp at hz
  have hl : s.verts.length = s'.verts.length :=
    le_antisymm (key r3 q2 q4 (by omega)) (key q3 r2 r4 (by omega))
  refine ⟨?_, by omega, ?_⟩
  · refine List.ext_getElem (by simpa using hl) fun v h1 h2 => ?_
    simp only [List.length_map] at h1 h2
    have e1 := r3 v s.verts[v] (by simp [h1])
    have e2 := q3 v s'.verts[v] (by simp [h2])
    rw [e1] at e2
    simp only [Option.some.injEq, Sum.inl.injEq, Node.mk.injEq] at e2
    simp only [List.getElem_map, Prod.mk.injEq]
    exact ⟨e2.1, String.toList_inj.mp e2.2⟩
  · intro k e e' he he'
    obtain ⟨a, b, ha, hb, h1⟩ := r4 k e he
    obtain ⟨a', b', ha', hb', h2⟩ := q4 k e' he'
    rw [← hl, h1] at h2
    simp only [Option.some.injEq, Sum.inr.injEq, Arrow.mk.injEq] at h2
    simp only [ha, hb, ha', hb', Option.map_some, Option.some.injEq]
    exact ⟨h2.2.2.1, h2.2.2.2.2.1, h2.2.2.2.2.2.2, h2.1, h2.2.1⟩

/-- C130, the drawing is written for every graph of the domain of C129; the tasks and channels are unchanged, but the graph is
left locked. -/
theorem _root_.Kiter.C130_written {s : State} (h : Infos.Plain s) (hd : s.repDone = false) :
    ∃ txt t, graphDOT s = some (txt, t) ∧ Infos.bare t = Infos.bare s ∧ t.readonly = true := by
  obtain ⟨g, hg, hok, -⟩ := Infos.plain_rep h
  obtain ⟨⟨res, hres⟩, -⟩ := C14_consistent_iff hok
  obtain ⟨b, u, hc, hr⟩ : ∃ b u, Infos.isConsistent s = some (b, u) ∧ u.readonly = true := by
    cases res with
    | none => exact ⟨false, { s with readonly := true }, by simp [Infos.isConsistent, computeRV, hd, hg, hres], rfl⟩
    | some N => exact ⟨true, { s with readonly := true, repDone := true, verts := putNi s.verts N },
        by simp [Infos.isConsistent, computeRV, hd, hg, hres], rfl⟩
  have hb := isConsistent_bare hc
  have hedges : u.edges = s.edges := congrArg Prod.snd hb
  have hv : ∀ (v : Nat) (x : Vtx), s.verts[v]? = some x → ∃ y, u.verts[v]? = some y := by
    intro v x hx
    obtain ⟨y, hy, -⟩ := verts_of_bare hb.symm v x hx
    exact ⟨y, hy⟩
  have hm : u.edges.mapM (channelText u) = some (u.edges.map fun e => (channelText u e).getD []) := by
    refine Text.mapM_some fun e he => ?_
    rw [hedges] at he
    obtain ⟨a, b, h1, h2, -⟩ := h.channel e he
    obtain ⟨a', h3⟩ := hv _ _ h1
    obtain ⟨b', h4⟩ := hv _ _ h2
    simp [channelText, h3, h4]
  refine ⟨header ++ ((u.verts.map taskText).flatten ++ ((u.edges.map fun e => (channelText u e).getD []).flatten ++
    "\n}\n".toList)), u, ?_, hb, hr⟩
  unfold graphDOT
  simp only [hc, hm, bind, Option.bind]

/-- C130, after the drawing no task can be added, no number of phases and no marking can be set: a transformation named later
on the command line stops. -/
theorem _root_.Kiter.C130_locked {s t : State} {txt : Str} (h : Infos.Plain s) (hd : s.repDone = false)
    (hw : graphDOT s = some (txt, t)) : call t .addVertex = none ∧ (∀ v n, call t (.setPhases v n) = none) ∧
    ∀ k p, call t (.setPreload k p) = none := by
  obtain ⟨txt', t', h1, -, h2⟩ := C130_written h hd
  rw [hw, Option.some.injEq, Prod.mk.injEq] at h1
  rw [← h1.2] at h2
  refine ⟨?_, ?_, ?_⟩
  · simp [call, addVertex, addUnsafeVertex, edit, h2]
  · intro v n
    simp [call, setPhases, edit, h2]
  · intro k p
    simp [call, setPreload, h2]

/-- A graph of one task, with the name given, and a channel from the task to itself. -/
def loop (name : String) : State :=
  ⟨false, false, false, [⟨1, name, 1, 0, [1], 0, []⟩], [⟨0, 0, 0, 1, "c", [1], [1], 1, 1, 3, [], []⟩], 2, 2, [], 1⟩

theorem loop_plain (name : String) : Infos.Plain (loop name) where
  some_task := by simp [loop]
  phases := by simp [loop]
  channel := by
    intro e he
    simp only [loop, List.mem_singleton] at he
    subst he
    exact ⟨_, _, rfl, rfl, by simp⟩
  attached := by
    intro v x hx
    match v, hx with
    | 0, hx => left; simp [loop] at hx; rw [← hx]
    | v + 1, hx => simp [loop] at hx
  durations := by
    intro x hx
    simp only [loop, List.mem_singleton] at hx
    subst hx
    rw [show totalDur ⟨1, name, 1, 0, [1], 0, []⟩ = totalDur ⟨1, "", 1, 0, [1], 0, []⟩ from rfl]
    decide +kernel

/-- C130, a name with a quotation mark: the text does not read as a drawing. With a name that ends with a backslash, the
label runs into the next line. -/
theorem _root_.Kiter.C130_name_counterexample : ∃ s s' : State, Infos.Plain s ∧ Infos.Plain s' ∧ (graphDOT s).isSome = true ∧
    ((graphDOT s).bind fun r => readDrawing r.1) = none ∧ (graphDOT s').isSome = true ∧
    ((graphDOT s').bind fun r => readDrawing r.1) = none :=
  ⟨loop "a\"b", loop "a\\", loop_plain _, loop_plain _, by decide +kernel, by decide +kernel, by decide +kernel, by decide +kernel⟩

/-- C130, the graph without tasks: nothing is drawn. -/
theorem _root_.Kiter.C130_empty_counterexample : graphDOT empty = none := by decide +kernel

/-- Two tasks, the first with two phases and an initial phase, and a channel. -/
def ex : State := ⟨false, false, false, [⟨1, "a", 2, 0, [1, 1], 1, [1]⟩, ⟨12, "b c", 1, 0, [5], 0, []⟩],
    [⟨0, 0, 1, 1, "c", [1, 2], [2], 3, 2, 4, [7], []⟩], 3, 2, [], 1⟩

/-- The hypotheses of C130 hold for it, and this is what a reader gets. -/
example : (graphDOT ex).isSome = true ∧ (∀ x ∈ ex.verts, ∀ c ∈ x.name.toList, c ≠ '"' ∧ c ≠ '\\') ∧
    ((graphDOT ex).bind fun r => readDrawing r.1) =
      some [Sum.inl ⟨1, "a".toList⟩, Sum.inl ⟨12, "b c".toList⟩, Sum.inr ⟨1, 12, 4, [7], [1, 2], [], [2]⟩] := by
  refine ⟨by decide +kernel, by decide +kernel, by decide +kernel⟩

/-- The hypotheses of `C130_written` and `C130_locked` hold for a loop. -/
example : Infos.Plain (loop "a") ∧ (loop "a").repDone = false ∧ (graphDOT (loop "a")).isSome = true :=
  ⟨loop_plain _, rfl, by decide +kernel⟩

end Kiter.GraphDraw
