/-
The passes of the reader of SDF3 documents, one after the other, on a document that the writer made.
-/
import Verif.Lemmas.SDF3Trip
import Mathlib.Data.List.Induction

set_option autoImplicit false

namespace Kiter.SDF3
open Kiter.Text
open Classical in
/-- A channel while the file is read: `O` and `I` say which channels have their production and consumption. -/
noncomputable def chanSt (I O : Chan → Prop) (i : Nat) (e : Chan) : Chan :=
  ⟨i + 1, e.name, e.src, e.tgt, if O e then e.ins else [], if O e then e.iins else [], if I e then e.outs else [],
    if I e then e.iouts else [], e.preload, e.size, inName e.id, outName e.id⟩

open Classical in
/-- A task while the file is read: `r` is its reentrancy, `D` says which tasks have their durations. -/
noncomputable def act (r : Nat → Int) (D : Nat → Prop) (i : Nat) (a : Actor) : Actor :=
  ⟨a.name, a.typ, if D i then a.phases else 0, if D i then a.iphases else 0, if D i then a.durs else [],
    if D i then a.idurs else [], r i⟩

/-- The graph while the file is read. -/
noncomputable def st (g : Graph) (as : List Actor) (cs : List Chan) (r : Nat → Int) (D : Nat → Prop) (I O : Chan → Prop) : Graph :=
  ⟨g.app, g.gname, g.gtype, as.mapIdx (act r D), cs.mapIdx (chanSt I O)⟩

variable {g : Graph} {lib : Lib}

theorem chanSt_congr {I O I' O' : Chan → Prop} {i : Nat} {e : Chan} (h1 : I e ↔ I' e) (h2 : O e ↔ O' e) :
    chanSt I O i e = chanSt I' O' i e := by
  unfold chanSt
  by_cases a : I e
  · have a' := h1.1 a
    by_cases b : O e
    · simp [a, a', b, h2.1 b]
    · have b' : ¬ O' e := fun h => b (h2.2 h)
      simp [a, a', b, b']
  · have a' : ¬ I' e := fun h => a (h1.2 h)
    by_cases b : O e
    · simp [a, a', b, h2.1 b]
    · have b' : ¬ O' e := fun h => b (h2.2 h)
      simp [a, a', b, b']

theorem byName_st (hv : Valid g) {cs : List Chan} {r : Nat → Int} {D : Nat → Prop} {I O : Chan → Prop} {v : Nat} {a : Actor}
    (ha : g.actors[v]? = some a) : byName (st g g.actors cs r D I O) a.name = some v := by
  have hk : (g.actors.mapIdx (act r D))[v]? = some (act r D v a) := by rw [List.getElem?_mapIdx, ha]; rfl
  have := findIdx_key (key := Actor.name) hk fun i y hy hn => by
    rw [List.getElem?_mapIdx] at hy
    cases hb : g.actors[i]? with
    | none => rw [hb] at hy; cases hy
    | some b =>
      rw [hb] at hy
      obtain rfl := Option.some.inj hy
      exact hv.name_inj hb ha hn
  exact this

/-! ### Tasks -/

theorem read_actor (hv : Valid g) (hr : Readable lib g) {k : Nat} {a : Actor} (ha : g.actors[k]? = some a)
    (c : List Node) (r : Nat → Int) (h0 : r k = 0) (I O : Chan → Prop) :
    readActor lib (st g (g.actors.take k) [] r (fun _ => False) I O) (.mk "actor" [("name", a.name), ("type", a.typ)] c) =
      some (st g (g.actors.take (k + 1)) [] r (fun _ => False) I O) := by
  have hm := List.mem_of_getElem? ha
  have hn := hv.named a hm
  have ht : content lib a.typ = some a.typ := by
    by_cases h : a.typ = []
    · rcases hr with h1 | h1
      · rw [content, if_pos h, h1, h]
      · exact absurd h (h1.2.2.2 a hm)
    · exact content_ne h
  have hlen : (g.actors.take k).length = k := by
    rw [List.length_take]
    have := (List.getElem?_eq_some_iff.1 ha).1
    omega
  unfold readActor
  simp only [Node.attrs, actorAttrs, or_false, or_true, if_true, if_false, String.reduceEq,
    Option.bind_eq_bind, Option.bind_some, content_ne hn, ht]
  have hbn : byName { st g (g.actors.take k) [] r (fun _ => False) I O with
      actors := (st g (g.actors.take k) [] r (fun _ => False) I O).actors ++ [⟨[], [], 0, 0, [], [], 0⟩] } a.name = none := by
    unfold byName
    rw [List.findIdx?_eq_none_iff]
    intro x hx
    rw [decide_eq_false_iff_not]
    rcases List.mem_append.1 hx with hx | hx
    · intro hc
      obtain ⟨i, hi⟩ := List.getElem?_of_mem hx
      simp only [st] at hi
      rw [List.getElem?_mapIdx, List.getElem?_take] at hi
      split_ifs at hi with hik
      · cases hb : g.actors[i]? with
        | none => rw [hb] at hi; cases hi
        | some b =>
          rw [hb] at hi
          obtain rfl := Option.some.inj hi
          have := hv.name_inj hb ha hc
          omega
      · cases hi
    · simp only [List.mem_singleton] at hx
      subst hx
      exact fun h => hn h.symm
  rw [setName, if_neg hn, hbn]
  simp only [Option.bind_some, modA, Option.some.injEq]
  simp only [st, List.mapIdx_nil, Graph.mk.injEq, true_and, and_true]
  have hl2 : (List.mapIdx (act r fun _ => False) (g.actors.take k)).length = k := by rw [List.length_mapIdx, hlen]
  rw [modify_last, modify_last, mem_take_succ ha, mapIdx_concat', hlen]
  simp [act, h0]

theorem pass_actors (hv : Valid g) (hr : Readable lib g) (I O : Chan → Prop) :
    each "actor" (readActor lib) (elems g) ⟨g.app, g.gname, g.gtype, [], []⟩ =
      some (st g g.actors [] (fun _ => 0) (fun _ => False) I O) := by
  unfold elems
  rw [List.append_assoc, each_append]
  have h0 : (⟨g.app, g.gname, g.gtype, [], []⟩ : Graph) = st g (g.actors.take 0) [] (fun _ => 0) (fun _ => False) I O := by
    simp [st]
  rw [h0, each_inv (S := fun k => st g (g.actors.take k) [] (fun _ => 0) (fun _ => False) I O)]
  · rw [List.length_mapIdx, List.take_length, Option.bind_some]
    refine each_skip _ ?_ _
    intro n hn
    rcases List.mem_append.1 hn with h | h <;> obtain ⟨x, _, rfl⟩ := List.mem_map.1 h <;> simp [cnode, loopNode, Node.name]
  · intro n hn
    obtain ⟨i, hi⟩ := List.getElem?_of_mem hn
    rw [List.getElem?_mapIdx] at hi
    cases hb : g.actors[i]? with
    | none => rw [hb] at hi; cases hi
    | some b => rw [hb] at hi; obtain rfl := Option.some.inj hi; rfl
  · intro k n hk
    rw [List.getElem?_mapIdx] at hk
    cases hb : g.actors[k]? with
    | none => rw [hb] at hk; cases hk
    | some b =>
      rw [hb] at hk
      obtain rfl := Option.some.inj hk
      exact read_actor hv hr hb _ _ rfl I O

/-! ### Channels -/

theorem nextId_st (cs : List Chan) (as : List Actor) (r : Nat → Int) (D : Nat → Prop) (I O : Chan → Prop) :
    nextId (st g as cs r D I O) = cs.length + 1 := by
  unfold nextId st
  induction cs using List.reverseRecOn with
  | nil => rfl
  | append_singleton l x ih =>
    simp only at ih ⊢
    rw [mapIdx_concat', List.foldl_append, ih]
    simp [chanSt]

theorem read_chan_loop (hv : Valid g) {n : Node} {v : Nat} {a : Actor} (hc : checkReentrancy lib (elems g) n = some true)
    (ha : g.actors[v]? = some a) (hs : attr lib n "srcActor" [] = some a.name)
    (hattr : ∀ k d, ∃ x, attr lib n k d = some x) {cs : List Chan} {r : Nat → Int} {D : Nat → Prop} {I O : Chan → Prop} :
    readChan lib (elems g) (st g g.actors cs r D I O) n =
      some (st g g.actors cs (fun i => if i = v then 1 else r i) D I O) := by
  unfold readChan
  obtain ⟨x1, h1⟩ := hattr "name" []
  obtain ⟨x2, h2⟩ := hattr "dstActor" []
  obtain ⟨x3, h3⟩ := hattr "srcPort" []
  obtain ⟨x4, h4⟩ := hattr "dstPort" []
  obtain ⟨x5, h5⟩ := hattr "initialTokens" "0".toList
  obtain ⟨x6, h6⟩ := hattr "size" []
  rw [h1, h2, h3, h4, h5, h6, hs, hc]
  simp only [Option.bind_eq_bind, Option.bind_some, if_true, byName_st hv ha]
  simp only [modA, st, Option.some.injEq, Graph.mk.injEq, true_and, and_true]
  refine modify_mapIdx fun i x _ => ?_
  by_cases h : i = v
  · simp [act, h]
  · simp [act, h]

theorem attr_some {n : Node} (h : ∀ a ∈ n.attrs, a.2 ≠ []) (k : String) (d : Str) : ∃ x, attr lib n k d = some x := by
  unfold attr
  generalize n.attrs = l at h
  revert d
  induction l with
  | nil => exact fun d => ⟨d, rfl⟩
  | cons a l ih =>
    intro d
    rw [List.foldlM_cons]
    have h2 := fun d => ih (fun b hb => h b (List.mem_cons_of_mem _ hb)) d
    split_ifs
    · rw [content_ne (h a List.mem_cons_self)]
      exact h2 _
    · exact h2 _

theorem read_chan_keep (hv : Valid g) {e : Chan} (he : e ∈ g.chans) (hu : ¬ UnitLoop e) {cs : List Chan} {r : Nat → Int}
    {D : Nat → Prop} {I O : Chan → Prop} (hcs : ∀ f ∈ cs, f.name ≠ e.name) (hI : ¬ I e) (hO : ¬ O e) :
    readChan lib (elems g) (st g g.actors cs r D I O) (cnode g e) = some (st g g.actors (cs ++ [e]) r D I O) := by
  obtain ⟨a, ha, hal, hali⟩ := hv.src e he
  obtain ⟨b, hb, hbl, hbli⟩ := hv.tgt e he
  obtain ⟨h1, h2, h3, h4, h5, h6, h7⟩ := chan_attrs hv he ha hb lib
  unfold readChan
  rw [h1, h2, h3, h4, h5, h6, h7, reent_chan hv he]
  have hf : freshChanName (st g g.actors cs r D I O) e.name = true := by
    unfold freshChanName
    simp only [Bool.and_eq_true, Bool.not_eq_true', decide_eq_false_iff_not, List.any_eq_false]
    refine ⟨hv.chanNamed e he, ?_⟩
    intro x hx
    obtain ⟨i, hi⟩ := List.getElem?_of_mem hx
    simp only [st] at hi
    rw [List.getElem?_mapIdx] at hi
    cases hb : cs[i]? with
    | none => rw [hb] at hi; cases hi
    | some f =>
      rw [hb] at hi
      obtain rfl := Option.some.inj hi
      rw [decide_eq_true_iff]
      exact hcs f (List.mem_of_getElem? hb)
  simp only [Option.bind_eq_bind, Option.bind_some, hu, decide_false, Bool.false_eq_true, if_false, byName_st hv ha,
    byName_st hv hb, hf, if_true, nextId_st]
  rw [if_pos (showInt_ne _), if_pos (showInt_ne _), readLong_show (hv.long e he).1, readLong_show (hv.long e he).2.1]
  simp only [st, Option.some.injEq, Graph.mk.injEq, true_and]
  rw [mapIdx_concat']
  simp [chanSt, hI, hO]

/-- A loop of one token on task `i` was met. -/
def ReentAt (g : Graph) (cs : List Chan) (as : List Actor) (i : Nat) : Prop :=
  (∃ e ∈ cs, UnitLoop e ∧ e.src = i) ∨ ∃ a ∈ as, g.actors[i]? = some a

/-- The reentrancy of the tasks once the channels were read. -/
noncomputable def reentOf (g : Graph) (cs : List Chan) (as : List Actor) (i : Nat) : Int :=
  open Classical in if ReentAt g cs as i then 1 else 0

theorem pass_chans (hv : Valid g) :
    each "channel" (readChan lib (elems g)) (elems g) (st g g.actors [] (fun _ => 0) (fun _ => False) (fun _ => False) (fun _ => False)) =
      some (st g g.actors (g.chans.filter fun e => ¬ UnitLoop e)
        (reentOf g g.chans (g.actors.filter fun a => a.reent ≠ 0)) (fun _ => False) (fun _ => False) (fun _ => False)) := by
  conv_lhs => enter [3]; unfold elems
  rw [each_append, each_append, each_skip]
  · rw [Option.bind_some]
    have h0 : st g g.actors [] (fun _ => 0) (fun _ => False) (fun _ => False) (fun _ => False) =
        st g g.actors ((g.chans.take 0).filter fun e => ¬ UnitLoop e) (reentOf g (g.chans.take 0) []) (fun _ => False)
          (fun _ => False) (fun _ => False) := by
      have : reentOf g (g.chans.take 0) [] = fun _ => 0 := by
        funext i
        simp [reentOf, ReentAt]
      rw [this]
      simp
    rw [h0, each_inv (S := fun k => st g g.actors ((g.chans.take k).filter fun e => ¬ UnitLoop e)
      (reentOf g (g.chans.take k) []) (fun _ => False) (fun _ => False) (fun _ => False))]
    · rw [List.length_map, List.take_length, Option.bind_some]
      have h1 : reentOf g g.chans [] = reentOf g g.chans ((g.actors.filter fun a => a.reent ≠ 0).take 0) := by simp
      rw [h1, each_inv (S := fun k => st g g.actors (g.chans.filter fun e => ¬ UnitLoop e)
        (reentOf g g.chans ((g.actors.filter fun a => a.reent ≠ 0).take k)) (fun _ => False) (fun _ => False) (fun _ => False))]
      · rw [List.length_map, List.take_length]
      · intro n hn
        obtain ⟨a, _, rfl⟩ := List.mem_map.1 hn
        rfl
      · intro k n hk
        rw [List.getElem?_map] at hk
        cases hb : (g.actors.filter fun a => a.reent ≠ 0)[k]? with
        | none => rw [hb] at hk; cases hk
        | some a =>
          rw [hb] at hk
          obtain rfl := Option.some.inj hk
          have hm := List.mem_of_getElem? hb
          obtain ⟨hm1, hm2⟩ := List.mem_filter.1 hm
          obtain ⟨v, hva⟩ := List.getElem?_of_mem hm1
          have hn := hv.named a hm1
          have hattr : ∀ x ∈ (loopNode a).attrs, x.2 ≠ [] := by
            intro x hx
            simp only [loopNode, Node.attrs, List.mem_cons, List.not_mem_nil, or_false] at hx
            rcases hx with rfl | rfl | rfl | rfl | rfl | rfl | rfl
            · simp
            · exact hn
            · simp
            · exact hn
            · simp
            · exact showInt_ne 1
            · exact showInt_ne 1
          have hs : attr lib (loopNode a) "srcActor" [] = some a.name := by
            simp [attr, loopNode, Node.attrs, content_ne hn]
          rw [read_chan_loop hv (reent_loop hv hva (by simpa using hm2)) hva hs (attr_some hattr)]
          congr 2
          funext i
          rw [mem_take_succ hb]
          unfold reentOf ReentAt
          have : (∃ b ∈ List.take k (g.actors.filter fun a => a.reent ≠ 0) ++ [a], g.actors[i]? = some b) ↔
              (∃ b ∈ List.take k (g.actors.filter fun a => a.reent ≠ 0), g.actors[i]? = some b) ∨ i = v := by
            constructor
            · rintro ⟨b, hb, hi⟩
              rcases List.mem_append.1 hb with hb | hb
              · exact .inl ⟨b, hb, hi⟩
              · obtain rfl := List.mem_singleton.1 hb
                exact .inr (hv.name_inj hi hva rfl)
            · rintro (⟨b, hb, hi⟩ | rfl)
              · exact ⟨b, List.mem_append_left _ hb, hi⟩
              · exact ⟨a, by simp, hva⟩
          simp only [this]
          by_cases hiv : i = v
          · simp [hiv]
          · simp [hiv]
    · intro n hn
      obtain ⟨a, _, rfl⟩ := List.mem_map.1 hn
      rfl
    · intro k n hk
      rw [List.getElem?_map] at hk
      cases hb : g.chans[k]? with
      | none => rw [hb] at hk; cases hk
      | some e =>
        rw [hb] at hk
        obtain rfl := Option.some.inj hk
        have he := List.mem_of_getElem? hb
        rw [mem_take_succ hb, List.filter_append]
        by_cases hu : UnitLoop e
        · obtain ⟨a, ha, hal, hali⟩ := hv.src e he
          obtain ⟨b, hb', hbl, hbli⟩ := hv.tgt e he
          obtain ⟨h1, h2, h3, h4, h5, h6, h7⟩ := chan_attrs hv he ha hb' lib
          have hattr : ∀ x ∈ (cnode g e).attrs, x.2 ≠ [] := by
            intro x hx
            rw [cnode, ha, hb'] at hx
            simp only [Node.attrs, List.mem_append, List.mem_cons, List.not_mem_nil, or_false] at hx
            rcases hx with (rfl | rfl | rfl | rfl | rfl | rfl) | hx
            · exact hv.chanNamed e he
            · exact hv.named a (List.mem_of_getElem? ha)
            · exact inName_ne _
            · exact hv.named b (List.mem_of_getElem? hb')
            · exact outName_ne _
            · exact showInt_ne _
            · split_ifs at hx
              · obtain rfl := List.mem_singleton.1 hx
                exact showInt_ne _
              · cases hx
          have hc : checkReentrancy lib (elems g) (cnode g e) = some true := by
            rw [reent_chan hv he]
            simp [hu]
          rw [read_chan_loop hv hc ha h2 (attr_some hattr)]
          have : List.filter (fun e => decide ¬ UnitLoop e) [e] = [] := by simp [hu]
          rw [this, List.append_nil]
          congr 2
          funext i
          unfold reentOf ReentAt
          have : (∃ f ∈ List.take k g.chans ++ [e], UnitLoop f ∧ f.src = i) ↔
              (∃ f ∈ List.take k g.chans, UnitLoop f ∧ f.src = i) ∨ i = e.src := by
            constructor
            · rintro ⟨b, hb, hi⟩
              rcases List.mem_append.1 hb with hb | hb
              · exact .inl ⟨b, hb, hi⟩
              · obtain rfl := List.mem_singleton.1 hb
                exact .inr hi.2.symm
            · rintro (⟨b, hb, hi⟩ | rfl)
              · exact ⟨b, List.mem_append_left _ hb, hi⟩
              · exact ⟨e, by simp, hu, rfl⟩
          simp only [this]
          by_cases hiv : i = e.src
          · simp [hiv]
          · simp [hiv]
        · have : List.filter (fun e => decide ¬ UnitLoop e) [e] = [e] := by simp [hu]
          rw [this, read_chan_keep hv he hu]
          · congr 2
            funext i
            unfold reentOf ReentAt
            have : (∃ f ∈ List.take k g.chans ++ [e], UnitLoop f ∧ f.src = i) ↔
                ∃ f ∈ List.take k g.chans, UnitLoop f ∧ f.src = i := by
              constructor
              · rintro ⟨b, hb, hi⟩
                rcases List.mem_append.1 hb with hb | hb
                · exact ⟨b, hb, hi⟩
                · obtain rfl := List.mem_singleton.1 hb
                  exact absurd hi.1 hu
              · rintro ⟨b, hb, hi⟩
                exact ⟨b, List.mem_append_left _ hb, hi⟩
            simp only [this]
            congr
          · intro f hf hc
            obtain ⟨hf1, _⟩ := List.mem_filter.1 hf
            obtain ⟨j, hj⟩ := List.getElem?_of_mem hf1
            rw [List.getElem?_take] at hj
            split_ifs at hj with hjk
            have := List.inj_on_of_nodup_map hv.chanNames (List.mem_of_getElem? hj) he hc
            subst this
            have hnd : g.chans.Nodup := hv.ids.of_map _
            obtain ⟨q1, q1'⟩ := List.getElem?_eq_some_iff.1 hj
            obtain ⟨q2, q2'⟩ := List.getElem?_eq_some_iff.1 hb
            have := (List.Nodup.getElem_inj_iff hnd).1 (q1'.trans q2'.symm)
            omega
          · exact id
          · exact id
  · intro n hn
    obtain ⟨i, hi⟩ := List.getElem?_of_mem hn
    rw [List.getElem?_mapIdx] at hi
    cases hb : g.actors[i]? with
    | none => rw [hb] at hi; cases hi
    | some b => rw [hb] at hi; obtain rfl := Option.some.inj hi; simp [actorNode, Node.name]

/-! ### Durations -/

theorem pass_times (hv : Valid g) (cs : List Chan) (r : Nat → Int) (I O : Chan → Prop) :
    each "actorProperties" (readTimings lib) (g.actors.map pnode ++ g.chans.map chanPropNode)
      (st g g.actors cs r (fun _ => False) I O) = some (st g g.actors cs r (fun i => i < g.actors.length) I O) := by
  rw [each_append]
  have h0 : (fun _ : Nat => False) = fun i => i < 0 := by
    funext i
    simp
  rw [h0, each_inv (S := fun k => st g g.actors cs r (fun i => i < k) I O)]
  · rw [List.length_map, Option.bind_some]
    refine each_skip _ ?_ _
    intro n hn
    obtain ⟨x, _, rfl⟩ := List.mem_map.1 hn
    simp [chanPropNode, Node.name]
  · intro n hn
    obtain ⟨x, _, rfl⟩ := List.mem_map.1 hn
    rfl
  · intro k n hk
    rw [List.getElem?_map] at hk
    cases hb : g.actors[k]? with
    | none => rw [hb] at hk; cases hk
    | some a =>
      rw [hb] at hk
      obtain rfl := Option.some.inj hk
      have hm := List.mem_of_getElem? hb
      have hn := hv.named a hm
      obtain ⟨d1, d2, d3, d4, d5⟩ := hv.durs a hm
      have hne : a.durs ≠ [] := by
        intro h
        rw [h] at d2
        simp at d2
        omega
      unfold readTimings
      have h1 : attrFirst lib (pnode a) "actor" [] = some a.name := by
        simp [attrFirst, pnode, Node.attrs, content_ne hn]
      have h2 : findTime lib (pnode a) = some (writeRates a.idurs a.durs) := by
        simp [findTime, pnode, Node.children, Node.name, attrFirst, Node.attrs, content_ne (writeRates_ne hne)]
      rw [h1, h2]
      simp only [Option.bind_eq_bind, Option.bind_some, if_neg hn, byName_st hv hb, C60_integer_durations a.idurs a.durs hne]
      simp only [modA, st, Option.some.injEq, Graph.mk.injEq, true_and, and_true]
      refine modify_mapIdx fun i x hx => ?_
      by_cases h : i = k
      · subst h
        obtain rfl := Option.some.inj (hx.symm.trans hb)
        simp [act, d2, d3]
      · have : i < k + 1 ↔ i < k := by omega
        simp [act, h, this]

/-! ### Rates -/

theorem modA_same {h : Graph} {v : Nat} {f : Actor → Actor} (hf : ∀ a, h.actors[v]? = some a → f a = a) : modA h v f = h := by
  unfold modA
  have : h.actors.modify v f = h.actors := by
    apply List.ext_getElem?
    intro i
    rw [List.getElem?_modify]
    cases hx : h.actors[i]? with
    | none => rfl
    | some x =>
      by_cases hi : v = i
      · subst hi
        simp [hf x hx]
      · simp [hi]
  rw [this]

theorem find_chan (hv : Valid g) {cs : List Chan} (hcs : ∀ f ∈ cs, f ∈ g.chans) (hnd : cs.Nodup) {I O : Chan → Prop} {k : Nat} {e : Chan}
    (hk : cs[k]? = some e) (P : Chan → Bool)
    (hP : ∀ i f, f ∈ g.chans → (P (chanSt I O i f) = true ↔ f.id = e.id)) :
    (cs.mapIdx (chanSt I O)).findIdx? P = some k := by
  rw [List.findIdx?_eq_some_iff_getElem]
  obtain ⟨h1, h2⟩ := List.getElem?_eq_some_iff.1 hk
  have he := hcs e (List.mem_of_getElem? hk)
  refine ⟨by rw [List.length_mapIdx]; exact h1, ?_, ?_⟩
  · rw [List.getElem_mapIdx, h2]
    exact (hP k e he).2 rfl
  · intro j hj hc
    rw [List.getElem_mapIdx] at hc
    have hjl : j < cs.length := by omega
    have hm := List.getElem_mem hjl
    have hid := (hP j _ (hcs _ hm)).1 hc
    have : cs[j] = cs[k] := by rw [h2]; exact hv.id_inj (hcs _ hm) he hid
    have := (List.Nodup.getElem_inj_iff hnd).1 this
    omega

theorem find_chan_none {cs : List Chan} (hcs : ∀ f ∈ cs, f ∈ g.chans) {I O : Chan → Prop} (P : Chan → Bool)
    (hP : ∀ i f, f ∈ g.chans → f ∈ cs → P (chanSt I O i f) = false) : (cs.mapIdx (chanSt I O)).findIdx? P = none := by
  rw [List.findIdx?_eq_none_iff]
  intro x hx
  obtain ⟨i, hi⟩ := List.getElem?_of_mem hx
  rw [List.getElem?_mapIdx] at hi
  cases hb : cs[i]? with
  | none => rw [hb] at hi; cases hi
  | some b =>
    rw [hb] at hi
    obtain rfl := Option.some.inj hi
    have hm := List.mem_of_getElem? hb
    exact hP i b (hcs b hm) hm

/-- Reading the consumption of a channel. -/
theorem read_in (hv : Valid g) {cs : List Chan} (hcs : ∀ f ∈ cs, f ∈ g.chans) (hnd : cs.Nodup) {r : Nat → Int} {I O : Chan → Prop}
    {e : Chan} (he : e ∈ g.chans) :
    readPort lib e.tgt (st g g.actors cs r (fun i => i < g.actors.length) I O)
        (Port.node ⟨outName e.id, "in".toList, e.iouts, e.outs⟩) =
      some (st g g.actors cs r (fun i => i < g.actors.length) (fun f => I f ∨ f = e) O) := by
  have hg := good_in hv he
  obtain ⟨a, ha, hal, hali⟩ := hv.tgt e he
  have hvl := (List.getElem?_eq_some_iff.1 ha).1
  unfold readPort
  rw [(hg.attrs lib).1, (hg.attrs lib).2.1, (hg.attrs lib).2.2]
  simp only [Option.bind_eq_bind, Option.bind_some, if_true]
  by_cases hin : e ∈ cs
  · obtain ⟨k, hk⟩ := List.getElem?_of_mem hin
    have hfind : (st g g.actors cs r (fun i => i < g.actors.length) I O).chans.findIdx?
        (fun f => decide (f.tgt = e.tgt) && decide (f.outPort = outName e.id)) = some k := by
      refine find_chan hv hcs hnd hk _ fun i f hf => ?_
      rw [Bool.and_eq_true, decide_eq_true_iff, decide_eq_true_iff]
      simp only [chanSt]
      constructor
      · exact fun h => outName_inj h.2
      · intro h
        rw [hv.id_inj hf he h]
        exact ⟨rfl, rfl⟩
    rw [hfind]
    simp only
    unfold readSpec
    have hact : (st g g.actors cs r (fun i => i < g.actors.length) I O).actors[e.tgt]? =
        some (act r (fun i => i < g.actors.length) e.tgt a) := by
      simp only [st]
      rw [List.getElem?_mapIdx, ha]
      rfl
    rw [hg.read, hact]
    simp only [Option.bind_eq_bind, Option.bind_some]
    rw [if_neg (hv.outs_ne he), if_pos]
    · rw [modA_same]
      · simp only [modC, st, Option.some.injEq, Graph.mk.injEq, true_and]
        refine modify_mapIdx fun i x hx => ?_
        by_cases h : i = k
        · subst h
          obtain rfl := Option.some.inj (hx.symm.trans hk)
          simp [chanSt]
        · have hxe : x ≠ e := by
            intro hc
            subst hc
            obtain ⟨q1, q1'⟩ := List.getElem?_eq_some_iff.1 hx
            obtain ⟨q2, q2'⟩ := List.getElem?_eq_some_iff.1 hk
            exact h ((List.Nodup.getElem_inj_iff hnd).1 (q1'.trans q2'.symm))
          rw [if_neg h]
          exact chanSt_congr (by simp [hxe]) Iff.rfl
      · intro b hb
        simp only [modC] at hb
        obtain rfl := Option.some.inj (hb.symm.trans hact)
        simp [act, hvl, hal, hali]
    · simp [sizesOK, act, hvl, hal, hali]
  · have hfind : (st g g.actors cs r (fun i => i < g.actors.length) I O).chans.findIdx?
        (fun f => decide (f.tgt = e.tgt) && decide (f.outPort = outName e.id)) = none := by
      refine find_chan_none hcs _ fun i f hf hfc => ?_
      rw [Bool.and_eq_false_iff, decide_eq_false_iff_not, decide_eq_false_iff_not]
      simp only [chanSt]
      right
      intro h
      rw [hv.id_inj hf he (outName_inj h)] at hfc
      exact hin hfc
    rw [hfind]
    simp only [st, Option.some.injEq, Graph.mk.injEq, true_and]
    refine mapIdx_congr' fun i x hx => ?_
    have hxe : x ≠ e := by
      rintro rfl
      exact hin (List.mem_of_getElem? hx)
    exact chanSt_congr (by simp [hxe]) Iff.rfl

/-- Reading the production of a channel. -/
theorem read_out (hv : Valid g) {cs : List Chan} (hcs : ∀ f ∈ cs, f ∈ g.chans) (hnd : cs.Nodup) {r : Nat → Int} {I O : Chan → Prop}
    {e : Chan} (he : e ∈ g.chans) :
    readPort lib e.src (st g g.actors cs r (fun i => i < g.actors.length) I O)
        (Port.node ⟨inName e.id, "out".toList, e.iins, e.ins⟩) =
      some (st g g.actors cs r (fun i => i < g.actors.length) I (fun f => O f ∨ f = e)) := by
  have hg := good_out hv he
  obtain ⟨a, ha, hal, hali⟩ := hv.src e he
  have hvl := (List.getElem?_eq_some_iff.1 ha).1
  unfold readPort
  rw [(hg.attrs lib).1, (hg.attrs lib).2.1, (hg.attrs lib).2.2]
  simp only [Option.bind_eq_bind, Option.bind_some, if_true]
  rw [if_neg (by decide)]
  by_cases hin : e ∈ cs
  · obtain ⟨k, hk⟩ := List.getElem?_of_mem hin
    have hfind : (st g g.actors cs r (fun i => i < g.actors.length) I O).chans.findIdx?
        (fun f => decide (f.src = e.src) && decide (f.inPort = inName e.id)) = some k := by
      refine find_chan hv hcs hnd hk _ fun i f hf => ?_
      rw [Bool.and_eq_true, decide_eq_true_iff, decide_eq_true_iff]
      simp only [chanSt]
      constructor
      · exact fun h => inName_inj h.2
      · intro h
        rw [hv.id_inj hf he h]
        exact ⟨rfl, rfl⟩
    rw [hfind]
    simp only
    unfold readSpec
    have hact : (st g g.actors cs r (fun i => i < g.actors.length) I O).actors[e.src]? =
        some (act r (fun i => i < g.actors.length) e.src a) := by
      simp only [st]
      rw [List.getElem?_mapIdx, ha]
      rfl
    rw [hg.read, hact]
    simp only [Option.bind_eq_bind, Option.bind_some]
    rw [if_neg (hv.ins_ne he), if_pos]
    · rw [modA_same]
      · simp only [modC, st, Option.some.injEq, Graph.mk.injEq, true_and]
        refine modify_mapIdx fun i x hx => ?_
        by_cases h : i = k
        · subst h
          obtain rfl := Option.some.inj (hx.symm.trans hk)
          simp [chanSt]
        · have hxe : x ≠ e := by
            intro hc
            subst hc
            obtain ⟨q1, q1'⟩ := List.getElem?_eq_some_iff.1 hx
            obtain ⟨q2, q2'⟩ := List.getElem?_eq_some_iff.1 hk
            exact h ((List.Nodup.getElem_inj_iff hnd).1 (q1'.trans q2'.symm))
          rw [if_neg h]
          exact chanSt_congr Iff.rfl (by simp [hxe])
      · intro b hb
        simp only [modC] at hb
        obtain rfl := Option.some.inj (hb.symm.trans hact)
        simp [act, hvl, hal, hali]
    · simp [sizesOK, act, hvl, hal, hali]
  · have hfind : (st g g.actors cs r (fun i => i < g.actors.length) I O).chans.findIdx?
        (fun f => decide (f.src = e.src) && decide (f.inPort = inName e.id)) = none := by
      refine find_chan_none hcs _ fun i f hf hfc => ?_
      rw [Bool.and_eq_false_iff, decide_eq_false_iff_not, decide_eq_false_iff_not]
      simp only [chanSt]
      right
      intro h
      rw [hv.id_inj hf he (inName_inj h)] at hfc
      exact hin hfc
    rw [hfind]
    simp only [st, Option.some.injEq, Graph.mk.injEq, true_and]
    refine mapIdx_congr' fun i x hx => ?_
    have hxe : x ≠ e := by
      rintro rfl
      exact hin (List.mem_of_getElem? hx)
    exact chanSt_congr Iff.rfl (by simp [hxe])

/-- The ports of the loops that the writer adds belong to no channel. -/
theorem read_loopPort (hv : Valid g) {cs : List Chan} (hcs : ∀ f ∈ cs, f ∈ g.chans) {r : Nat → Int} {D : Nat → Prop} {I O : Chan → Prop}
    {v : Nat} {a : Actor} (ha : a ∈ g.actors) (p : Port)
    (hp : p = ⟨"in_R".toList ++ a.name, "out".toList, List.replicate a.iphases 1, List.replicate a.phases 1⟩ ∨
      p = ⟨"out_R".toList ++ a.name, "in".toList, List.replicate a.iphases 1, List.replicate a.phases 1⟩) :
    readPort lib v (st g g.actors cs r D I O) p.node = some (st g g.actors cs r D I O) := by
  rcases hp with rfl | rfl
  · have hg : Port.Good ⟨"in_R".toList ++ a.name, "out".toList, List.replicate a.iphases 1, List.replicate a.phases 1⟩ :=
      good_loop hv ha (by simp) (by simp)
    unfold readPort
    rw [(hg.attrs lib).1, (hg.attrs lib).2.1, (hg.attrs lib).2.2]
    simp only [Option.bind_eq_bind, Option.bind_some, if_true]
    rw [if_neg (by decide)]
    have : (st g g.actors cs r D I O).chans.findIdx?
        (fun f => decide (f.src = v) && decide (f.inPort = "in_R".toList ++ a.name)) = none := by
      refine find_chan_none hcs _ fun i f hf hfc => ?_
      rw [Bool.and_eq_false_iff, decide_eq_false_iff_not, decide_eq_false_iff_not]
      simp only [chanSt]
      exact .inr (inName_loop _ _)
    rw [this]
  · have hg : Port.Good ⟨"out_R".toList ++ a.name, "in".toList, List.replicate a.iphases 1, List.replicate a.phases 1⟩ :=
      good_loop hv ha (by simp) (by simp)
    unfold readPort
    rw [(hg.attrs lib).1, (hg.attrs lib).2.1, (hg.attrs lib).2.2]
    simp only [Option.bind_eq_bind, Option.bind_some, if_true]
    have : (st g g.actors cs r D I O).chans.findIdx?
        (fun f => decide (f.tgt = v) && decide (f.outPort = "out_R".toList ++ a.name)) = none := by
      refine find_chan_none hcs _ fun i f hf hfc => ?_
      rw [Bool.and_eq_false_iff, decide_eq_false_iff_not, decide_eq_false_iff_not]
      simp only [chanSt]
      exact .inr (outName_loop _ _)
    rw [this]

theorem st_congr {cs : List Chan} (hcs : ∀ f ∈ cs, f ∈ g.chans) {r : Nat → Int} {D : Nat → Prop} {I O I' O' : Chan → Prop}
    (hI : ∀ f ∈ g.chans, (I f ↔ I' f)) (hO : ∀ f ∈ g.chans, (O f ↔ O' f)) :
    st g g.actors cs r D I O = st g g.actors cs r D I' O' := by
  simp only [st, Graph.mk.injEq, true_and]
  refine mapIdx_congr' fun i x hx => ?_
  have hm := hcs x (List.mem_of_getElem? hx)
  exact chanSt_congr (hI x hm) (hO x hm)

/-- The ports of one actor. -/
theorem read_ports (hv : Valid g) {cs : List Chan} (hcs : ∀ f ∈ cs, f ∈ g.chans) (hnd : cs.Nodup) {r : Nat → Int} {k : Nat}
    {a : Actor} (ha : g.actors[k]? = some a) :
    readPorts lib (st g g.actors cs r (fun i => i < g.actors.length) (fun e => e.tgt < k) (fun e => e.src < k)) (actorNode g k a) =
      some (st g g.actors cs r (fun i => i < g.actors.length) (fun e => e.tgt < k + 1) (fun e => e.src < k + 1)) := by
  have hm := List.mem_of_getElem? ha
  have hn := hv.named a hm
  unfold readPorts
  have h1 : attr lib (actorNode g k a) "name" [] = some a.name := by
    simp [attr, actorNode, Node.attrs, content_ne hn]
  rw [h1]
  simp only [Option.bind_eq_bind, Option.bind_some, if_neg hn, byName_st hv ha]
  show List.foldlM (m := Option) _ _ (portNodes g k a) = _
  rw [portNodes_eq, ports, List.map_append, List.map_append, List.foldlM_append, List.foldlM_append]
  have hport : ∀ (p : Port) (h : Graph), (if p.node.name = "port" then readPort lib k h p.node else some h) = readPort lib k h p.node :=
    fun p h => if_pos rfl
  -- consumptions
  have p1 := foldlM_inv (f := fun g p => if p.name = "port" then readPort lib k g p else some g)
    (List.map Port.node ((g.chans.filter fun e => e.tgt = k).map fun e => ⟨outName e.id, "in".toList, e.iouts, e.outs⟩))
    (fun j => st g g.actors cs r (fun i => i < g.actors.length)
      (fun e => e.tgt < k ∨ e ∈ (g.chans.filter fun e => e.tgt = k).take j) (fun e => e.src < k))
    (by
      intro j n hj
      rw [List.getElem?_map, List.getElem?_map] at hj
      cases hb : (g.chans.filter fun e => e.tgt = k)[j]? with
      | none => rw [hb] at hj; cases hj
      | some e =>
        rw [hb] at hj
        obtain rfl := Option.some.inj hj
        have hm := List.mem_of_getElem? hb
        obtain ⟨he, hk⟩ := List.mem_filter.1 hm
        have hk : e.tgt = k := by simpa using hk
        rw [hport, ← hk, read_in hv hcs hnd he, hk]
        refine congrArg some (st_congr hcs (fun f _ => ?_) fun f _ => Iff.rfl)
        rw [mem_take_succ hb, List.mem_append, List.mem_singleton, or_assoc])
  have p2 := foldlM_inv (f := fun g p => if p.name = "port" then readPort lib k g p else some g)
    (List.map Port.node ((g.chans.filter fun e => e.src = k).map fun e => ⟨inName e.id, "out".toList, e.iins, e.ins⟩))
    (fun j => st g g.actors cs r (fun i => i < g.actors.length)
      (fun e => e.tgt < k + 1) (fun e => e.src < k ∨ e ∈ (g.chans.filter fun e => e.src = k).take j))
    (by
      intro j n hj
      rw [List.getElem?_map, List.getElem?_map] at hj
      cases hb : (g.chans.filter fun e => e.src = k)[j]? with
      | none => rw [hb] at hj; cases hj
      | some e =>
        rw [hb] at hj
        obtain rfl := Option.some.inj hj
        have hm := List.mem_of_getElem? hb
        obtain ⟨he, hk⟩ := List.mem_filter.1 hm
        have hk : e.src = k := by simpa using hk
        rw [hport, ← hk, read_out hv hcs hnd he, hk]
        refine congrArg some (st_congr hcs (fun f _ => Iff.rfl) fun f _ => ?_)
        rw [mem_take_succ hb, List.mem_append, List.mem_singleton, or_assoc])
  have e1 : st g g.actors cs r (fun i => i < g.actors.length) (fun e => e.tgt < k) (fun e => e.src < k) =
      st g g.actors cs r (fun i => i < g.actors.length)
        (fun e => e.tgt < k ∨ e ∈ (g.chans.filter fun e => e.tgt = k).take 0) (fun e => e.src < k) :=
    st_congr hcs (fun f _ => by simp) fun f _ => Iff.rfl
  have e2 : st g g.actors cs r (fun i => i < g.actors.length)
        (fun e => e.tgt < k ∨ e ∈ (g.chans.filter fun e => e.tgt = k).take
          (List.map Port.node ((g.chans.filter fun e => e.tgt = k).map fun e => ⟨outName e.id, "in".toList, e.iouts, e.outs⟩)).length)
        (fun e => e.src < k) =
      st g g.actors cs r (fun i => i < g.actors.length)
        (fun e => e.tgt < k + 1) (fun e => e.src < k ∨ e ∈ (g.chans.filter fun e => e.src = k).take 0) := by
    refine st_congr hcs (fun f hf => ?_) fun f _ => by simp
    rw [List.length_map, List.length_map, List.take_length, List.mem_filter]
    simp only [hf, true_and, decide_eq_true_eq]
    omega
  have e3 : st g g.actors cs r (fun i => i < g.actors.length)
        (fun e => e.tgt < k + 1) (fun e => e.src < k ∨ e ∈ (g.chans.filter fun e => e.src = k).take
          (List.map Port.node ((g.chans.filter fun e => e.src = k).map fun e => ⟨inName e.id, "out".toList, e.iins, e.ins⟩)).length) =
      st g g.actors cs r (fun i => i < g.actors.length) (fun e => e.tgt < k + 1) (fun e => e.src < k + 1) := by
    refine st_congr hcs (fun f hf => Iff.rfl) fun f hf => ?_
    rw [List.length_map, List.length_map, List.take_length, List.mem_filter]
    simp only [hf, true_and, decide_eq_true_eq]
    omega
  rw [e1, p1]
  simp only [Option.bind_eq_bind, Option.bind_some]
  rw [e2, p2]
  simp only [Option.bind_some]
  rw [e3]
  split_ifs with hre
  · rw [List.map_cons, List.map_cons, List.map_nil, List.foldlM_cons]
    rw [hport, read_loopPort hv hcs hm _ (.inl rfl)]
    simp only [Option.bind_eq_bind, Option.bind_some]
    rw [List.foldlM_cons, hport, read_loopPort hv hcs hm _ (.inr rfl)]
    rfl
  · rfl

theorem pass_ports (hv : Valid g) {cs : List Chan} (hcs : ∀ f ∈ cs, f ∈ g.chans) (hnd : cs.Nodup) (r : Nat → Int) :
    each "actor" (readPorts lib) (elems g) (st g g.actors cs r (fun i => i < g.actors.length) (fun _ => False) (fun _ => False)) =
      some (st g g.actors cs r (fun i => i < g.actors.length) (fun _ => True) (fun _ => True)) := by
  unfold elems
  rw [List.append_assoc, each_append]
  have h0 : st g g.actors cs r (fun i => i < g.actors.length) (fun _ => False) (fun _ => False) =
      st g g.actors cs r (fun i => i < g.actors.length) (fun e => e.tgt < 0) (fun e => e.src < 0) :=
    st_congr hcs (fun f _ => by simp) fun f _ => by simp
  rw [h0, each_inv (S := fun k => st g g.actors cs r (fun i => i < g.actors.length) (fun e => e.tgt < k) (fun e => e.src < k))]
  · rw [List.length_mapIdx, Option.bind_some, each_skip]
    · refine congrArg some (st_congr hcs (fun f hf => ?_) fun f hf => ?_)
      · obtain ⟨a, ha, _⟩ := hv.tgt f hf
        simpa using (List.getElem?_eq_some_iff.1 ha).1
      · obtain ⟨a, ha, _⟩ := hv.src f hf
        simpa using (List.getElem?_eq_some_iff.1 ha).1
    · intro n hn
      rcases List.mem_append.1 hn with h | h <;> obtain ⟨x, _, rfl⟩ := List.mem_map.1 h <;> simp [cnode, loopNode, Node.name]
  · intro n hn
    obtain ⟨i, hi⟩ := List.getElem?_of_mem hn
    rw [List.getElem?_mapIdx] at hi
    cases hb : g.actors[i]? with
    | none => rw [hb] at hi; cases hi
    | some b => rw [hb] at hi; obtain rfl := Option.some.inj hi; rfl
  · intro k n hk
    rw [List.getElem?_mapIdx] at hk
    cases hb : g.actors[k]? with
    | none => rw [hb] at hk; cases hk
    | some b =>
      rw [hb] at hk
      obtain rfl := Option.some.inj hk
      exact read_ports hv hcs hnd hb

end Kiter.SDF3
