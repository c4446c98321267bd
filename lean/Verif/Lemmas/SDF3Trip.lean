/-
The passes of the reader of SDF3 documents on a document that the writer made.
-/
import Verif.Lemmas.SDF3
import Mathlib.Data.List.Nodup

set_option autoImplicit false

namespace Kiter.SDF3
open Kiter.Text

variable {g : Graph} {lib : Lib}

/-! ### The document -/

/-- The ports of an actor. -/
def ports (g : Graph) (i : Nat) (a : Actor) : List Port :=
  ((g.chans.filter fun e => e.tgt = i).map fun e => ⟨outName e.id, "in".toList, e.iouts, e.outs⟩) ++
  ((g.chans.filter fun e => e.src = i).map fun e => ⟨inName e.id, "out".toList, e.iins, e.ins⟩) ++
  (if a.reent ≠ 0 then
    [⟨"in_R".toList ++ a.name, "out".toList, List.replicate a.iphases 1, List.replicate a.phases 1⟩,
     ⟨"out_R".toList ++ a.name, "in".toList, List.replicate a.iphases 1, List.replicate a.phases 1⟩]
  else [])

theorem portNodes_eq (g : Graph) (i : Nat) (a : Actor) : portNodes g i a = (ports g i a).map Port.node := by
  unfold portNodes ports
  split_ifs <;> simp [Port.node, Function.comp_def]

/-- A channel of the document. -/
def cnode (g : Graph) (e : Chan) : Node :=
  .mk "channel"
    ([("name", e.name), ("srcActor", ((g.actors[e.src]?).map Actor.name).getD []), ("srcPort", inName e.id),
      ("dstActor", ((g.actors[e.tgt]?).map Actor.name).getD []), ("dstPort", outName e.id), ("size", showInt e.size)] ++
      (if e.preload ≠ 0 then [("initialTokens", showInt e.preload)] else [])) []

/-- The properties of a task in the document. -/
def pnode (a : Actor) : Node :=
  .mk "actorProperties" [("actor", a.name)]
    [.mk "processor" [("type", "cluster_0".toList), ("default", "true".toList)]
      [.mk "executionTime" [("time", writeRates a.idurs a.durs)] []]]

/-- The elements of the graph. -/
def elems (g : Graph) : List Node :=
  g.actors.mapIdx (actorNode g) ++ g.chans.map (cnode g) ++ (g.actors.filter fun a => a.reent ≠ 0).map loopNode

/-- The document. -/
def doc (g : Graph) : Node :=
  .mk "sdf3" [("xmlns:xsi", "http://www.w3.org/2001/XMLSchema-instance".toList), ("version", "1.0".toList),
      ("type", "csdf".toList)]
    [.mk "applicationGraph" [("name", g.app)]
      [.mk "csdf" [("name", g.gname), ("type", g.gtype)] (elems g),
       .mk "csdfProperties" [] (g.actors.map pnode ++ g.chans.map chanPropNode)]]

theorem write_eq (hv : Valid g) : write g = some (doc g) := by
  unfold write
  have h1 : g.chans.mapM (chanNode g) = some (g.chans.map (cnode g)) := by
    refine mapM_some fun e he => ?_
    obtain ⟨a, ha, _⟩ := hv.src e he
    obtain ⟨b, hb, _⟩ := hv.tgt e he
    simp only [chanNode, ha, hb, cnode, Option.map_some, Option.getD_some]
  have h2 : g.actors.mapM propNode = some (g.actors.map pnode) := by
    refine mapM_some fun a ha => ?_
    obtain ⟨h1, h2, h3, h4, h5⟩ := hv.durs a ha
    rw [propNode, if_neg]
    · rfl
    · push Not
      refine ⟨?_, h4, h5⟩
      intro h
      rw [h] at h2
      simp at h2
      omega
  rw [h1, h2]
  rfl

/-! ### Facts about valid graphs -/

theorem Valid.name_inj (hv : Valid g) {i j : Nat} {a b : Actor} (hi : g.actors[i]? = some a) (hj : g.actors[j]? = some b)
    (h : a.name = b.name) : i = j := by
  have h1 : (g.actors.map Actor.name)[i]? = some a.name := by rw [List.getElem?_map, hi]; rfl
  have h2 : (g.actors.map Actor.name)[j]? = some a.name := by rw [List.getElem?_map, hj, h]; rfl
  obtain ⟨h1, h1'⟩ := List.getElem?_eq_some_iff.1 h1
  obtain ⟨h2, h2'⟩ := List.getElem?_eq_some_iff.1 h2
  exact (List.Nodup.getElem_inj_iff hv.names).1 (h1'.trans h2'.symm)

theorem Valid.id_inj (hv : Valid g) {e f : Chan} (he : e ∈ g.chans) (hf : f ∈ g.chans) (h : e.id = f.id) : e = f :=
  List.inj_on_of_nodup_map hv.ids he hf h

theorem Valid.outs_ne (hv : Valid g) {e : Chan} (he : e ∈ g.chans) : e.outs ≠ [] := by
  obtain ⟨a, ha, h1, _⟩ := hv.tgt e he
  have := (hv.durs a (List.mem_of_getElem? ha)).1
  intro h
  rw [h] at h1
  simp at h1
  omega

theorem Valid.ins_ne (hv : Valid g) {e : Chan} (he : e ∈ g.chans) : e.ins ≠ [] := by
  obtain ⟨a, ha, h1, _⟩ := hv.src e he
  have := (hv.durs a (List.mem_of_getElem? ha)).1
  intro h
  rw [h] at h1
  simp at h1
  omega

theorem isLong_one : IsLong 1 := by unfold IsLong; decide

theorem good_in (hv : Valid g) {e : Chan} (he : e ∈ g.chans) : Port.Good ⟨outName e.id, "in".toList, e.iouts, e.outs⟩ where
  name := outName_ne _
  typ := by simp
  per := hv.outs_ne he
  long := fun r hr => (hv.long e he).2.2 r (by
    rcases List.mem_append.1 hr with h | h <;> simp [h])

theorem good_out (hv : Valid g) {e : Chan} (he : e ∈ g.chans) : Port.Good ⟨inName e.id, "out".toList, e.iins, e.ins⟩ where
  name := inName_ne _
  typ := by simp
  per := hv.ins_ne he
  long := fun r hr => (hv.long e he).2.2 r (by
    rcases List.mem_append.1 hr with h | h <;> simp [h])

theorem good_loop (hv : Valid g) {a : Actor} (ha : a ∈ g.actors) {n t : Str} (hn : n ≠ []) (ht : t ≠ []) :
    Port.Good ⟨n, t, List.replicate a.iphases 1, List.replicate a.phases 1⟩ where
  name := hn
  typ := ht
  per := by
    intro h
    have := (hv.durs a ha).1
    rw [List.replicate_eq_nil_iff] at h
    omega
  long := fun r hr => by
    rcases List.mem_append.1 hr with h | h <;> · rw [(List.mem_replicate.1 h).2]; exact isLong_one

theorem ports_good (hv : Valid g) {i : Nat} {a : Actor} (ha : a ∈ g.actors) : ∀ p ∈ ports g i a, p.Good := by
  intro p hp
  unfold ports at hp
  rcases List.mem_append.1 hp with hp | hp
  · rcases List.mem_append.1 hp with hp | hp
    · obtain ⟨e, he, rfl⟩ := List.mem_map.1 hp
      exact good_in hv (List.mem_filter.1 he).1
    · obtain ⟨e, he, rfl⟩ := List.mem_map.1 hp
      exact good_out hv (List.mem_filter.1 he).1
  · split_ifs at hp with h
    · simp only [List.mem_cons, List.not_mem_nil, or_false] at hp
      rcases hp with rfl | rfl <;> exact good_loop hv ha (by simp) (by simp)
    · cases hp

/-- The ports of type "out". -/
theorem ports_out {i : Nat} {a : Actor} {p : Port} (hp : p ∈ ports g i a) (ht : p.typ = "out".toList) :
    (∃ e ∈ g.chans, e.src = i ∧ p = ⟨inName e.id, "out".toList, e.iins, e.ins⟩) ∨
    (a.reent ≠ 0 ∧ p = ⟨"in_R".toList ++ a.name, "out".toList, List.replicate a.iphases 1, List.replicate a.phases 1⟩) := by
  unfold ports at hp
  rcases List.mem_append.1 hp with hp | hp
  · rcases List.mem_append.1 hp with hp | hp
    · obtain ⟨e, he, rfl⟩ := List.mem_map.1 hp
      exact absurd ht (show "in".toList ≠ "out".toList by decide)
    · obtain ⟨e, he, rfl⟩ := List.mem_map.1 hp
      obtain ⟨h1, h2⟩ := List.mem_filter.1 he
      exact .inl ⟨e, h1, by simpa using h2, rfl⟩
  · split_ifs at hp with h
    · simp only [List.mem_cons, List.not_mem_nil, or_false] at hp
      rcases hp with rfl | rfl
      · exact .inr ⟨h, rfl⟩
      · exact absurd ht (show "in".toList ≠ "out".toList by decide)
    · cases hp

/-- The ports of type "in". -/
theorem ports_in {i : Nat} {a : Actor} {p : Port} (hp : p ∈ ports g i a) (ht : p.typ = "in".toList) :
    (∃ e ∈ g.chans, e.tgt = i ∧ p = ⟨outName e.id, "in".toList, e.iouts, e.outs⟩) ∨
    (a.reent ≠ 0 ∧ p = ⟨"out_R".toList ++ a.name, "in".toList, List.replicate a.iphases 1, List.replicate a.phases 1⟩) := by
  unfold ports at hp
  rcases List.mem_append.1 hp with hp | hp
  · rcases List.mem_append.1 hp with hp | hp
    · obtain ⟨e, he, rfl⟩ := List.mem_map.1 hp
      obtain ⟨h1, h2⟩ := List.mem_filter.1 he
      exact .inl ⟨e, h1, by simpa using h2, rfl⟩
    · obtain ⟨e, he, rfl⟩ := List.mem_map.1 hp
      exact absurd ht (show "out".toList ≠ "in".toList by decide)
  · split_ifs at hp with h
    · simp only [List.mem_cons, List.not_mem_nil, or_false] at hp
      rcases hp with rfl | rfl
      · exact absurd ht (show "out".toList ≠ "in".toList by decide)
      · exact .inr ⟨h, rfl⟩
    · cases hp

/-- The document around the actor at position `v`. -/
theorem elems_split (hv : Valid g) {v : Nat} {a : Actor} (ha : g.actors[v]? = some a) :
    ∃ l₁ l₂, elems g = l₁ ++ actorNode g v a :: l₂ ∧ (∀ n ∈ l₁, Quiet a.name n) ∧ ∀ n ∈ l₂, Quiet a.name n := by
  have hq : ∀ j n, (elems g)[j]? = some n → j ≠ v → Quiet a.name n := by
    intro j n hj hne
    have hcase : n ∈ g.chans.map (cnode g) ++ (g.actors.filter fun a => a.reent ≠ 0).map loopNode ∨
        (g.actors.mapIdx (actorNode g))[j]? = some n := by
      unfold elems at hj
      rw [List.append_assoc] at hj
      rcases Nat.lt_or_ge j (g.actors.mapIdx (actorNode g)).length with h | h
      · rw [List.getElem?_append_left h] at hj
        exact .inr hj
      · rw [List.getElem?_append_right h] at hj
        exact .inl (List.mem_of_getElem? hj)
    rcases hcase with h | h
    · left
      rcases List.mem_append.1 h with h | h <;> obtain ⟨x, _, rfl⟩ := List.mem_map.1 h <;> simp [cnode, loopNode, Node.name]
    · right
      rw [List.getElem?_mapIdx] at h
      cases hb : g.actors[j]? with
      | none => rw [hb] at h; cases h
      | some b =>
        rw [hb] at h
        obtain rfl := Option.some.inj h
        exact ⟨b.name, b.typ, rfl, hv.named b (List.mem_of_getElem? hb), fun hc => hne (hv.name_inj hb ha hc)⟩
  have hv' : (elems g)[v]? = some (actorNode g v a) := by
    unfold elems
    rw [List.append_assoc, List.getElem?_append_left, List.getElem?_mapIdx, ha]
    · rfl
    · rw [List.length_mapIdx]
      exact (List.getElem?_eq_some_iff.1 ha).1
  obtain ⟨h1, h2⟩ := List.getElem?_eq_some_iff.1 hv'
  refine ⟨(elems g).take v, (elems g).drop (v + 1), ?_, ?_, ?_⟩
  · rw [← h2, List.getElem_cons_drop, List.take_append_drop]
  · intro n hn
    obtain ⟨j, hj⟩ := List.getElem?_of_mem hn
    rw [List.getElem?_take] at hj
    split_ifs at hj with h
    exact hq j n hj (by omega)
  · intro n hn
    obtain ⟨j, hj⟩ := List.getElem?_of_mem hn
    rw [List.getElem?_drop] at hj
    exact hq _ n hj (by omega)

theorem chan_attrs (hv : Valid g) {e : Chan} (he : e ∈ g.chans) {a b : Actor} (ha : g.actors[e.src]? = some a)
    (hb : g.actors[e.tgt]? = some b) (lib : Lib) :
    attr lib (cnode g e) "name" [] = some e.name ∧ attr lib (cnode g e) "srcActor" [] = some a.name ∧
    attr lib (cnode g e) "dstActor" [] = some b.name ∧ attr lib (cnode g e) "srcPort" [] = some (inName e.id) ∧
    attr lib (cnode g e) "dstPort" [] = some (outName e.id) ∧ attr lib (cnode g e) "size" [] = some (showInt e.size) ∧
    attr lib (cnode g e) "initialTokens" "0".toList = some (showInt e.preload) := by
  have h1 := content_ne (lib := lib) (hv.chanNamed e he)
  have h2 := content_ne (lib := lib) (hv.named a (List.mem_of_getElem? ha))
  have h3 := content_ne (lib := lib) (hv.named b (List.mem_of_getElem? hb))
  have h4 := content_ne (lib := lib) (inName_ne e.id)
  have h5 := content_ne (lib := lib) (outName_ne e.id)
  have h6 := content_ne (lib := lib) (showInt_ne e.size)
  have h7 := content_ne (lib := lib) (showInt_ne e.preload)
  unfold cnode
  rw [ha, hb]
  by_cases hp : e.preload = 0
  · have h0 : "0".toList = showInt 0 := by decide +kernel
    rw [h0]
    simp [attr, Node.attrs, h1, h2, h3, h4, h5, h6, hp]
  · simp [attr, Node.attrs, h1, h2, h3, h4, h5, h6, h7, hp]

theorem one_text : "1".toList = showInt 1 := by decide +kernel

/-- `checkReentrancy` on a channel recognises the unit loops. -/
theorem reent_chan (hv : Valid g) {e : Chan} (he : e ∈ g.chans) :
    checkReentrancy lib (elems g) (cnode g e) = some (decide (UnitLoop e)) := by
  obtain ⟨a, ha, hal, hali⟩ := hv.src e he
  obtain ⟨b, hb, hbl, hbli⟩ := hv.tgt e he
  obtain ⟨_, h2, h3, h4, h5, _, h7⟩ := chan_attrs hv he ha hb lib
  unfold checkReentrancy
  rw [h2, h3, h4, h5, h7]
  simp only [Option.bind_eq_bind, Option.bind_some]
  by_cases hst : e.src = e.tgt
  · rw [hst] at ha
    obtain rfl := Option.some.inj (ha.symm.trans hb)
    rw [if_neg (by simp)]
    by_cases hp : e.preload = 1
    · rw [if_neg (by rw [hp, one_text]; simp)]
      obtain ⟨l₁, l₂, hs, q₁, q₂⟩ := elems_split hv hb
      rw [hs, actorNode, portNodes_eq]
      have hn := hv.named a (List.mem_of_getElem? hb)
      rw [scanActors_one hn q₁ q₂ (ports_good hv (List.mem_of_getElem? hb))
        (u := e.iins.all (· = 1) && e.ins.all (· = 1)) (w := e.iouts.all (· = 1) && e.outs.all (· = 1))]
      · simp only [Option.some.injEq]
        rw [Bool.eq_iff_iff]
        rw [decide_eq_true_iff]
        simp only [Bool.and_eq_true, List.all_eq_true, decide_eq_true_eq, UnitLoop, hst, hp, true_and, List.mem_append]
        constructor
        · rintro ⟨⟨h1, h2⟩, h3, h4⟩ r hr
          rcases hr with ((hr | hr) | hr) | hr
          · exact h2 r hr
          · exact h1 r hr
          · exact h4 r hr
          · exact h3 r hr
        · intro h
          exact ⟨⟨fun r hr => h r (by simp [hr]), fun r hr => h r (by simp [hr])⟩, fun r hr => h r (by simp [hr]),
            fun r hr => h r (by simp [hr])⟩
      · intro p hp ht hname
        rcases ports_out hp ht with ⟨f, hf, _, rfl⟩ | ⟨_, rfl⟩
        · obtain rfl := hv.id_inj hf he (inName_inj hname)
          rfl
        · exact absurd hname.symm (inName_loop _ _)
      · intro p hp ht hname
        rcases ports_in hp ht with ⟨f, hf, _, rfl⟩ | ⟨_, rfl⟩
        · obtain rfl := hv.id_inj hf he (outName_inj hname)
          rfl
        · exact absurd hname.symm (outName_loop _ _)
      · refine ⟨⟨inName e.id, "out".toList, e.iins, e.ins⟩, ?_, rfl, rfl⟩
        unfold ports
        refine List.mem_append_left _ (List.mem_append_right _ (List.mem_map.2 ⟨e, List.mem_filter.2 ⟨he, ?_⟩, rfl⟩))
        simpa using hst
      · refine ⟨⟨outName e.id, "in".toList, e.iouts, e.outs⟩, ?_, rfl, rfl⟩
        unfold ports
        exact List.mem_append_left _ (List.mem_append_left _ (List.mem_map.2 ⟨e, List.mem_filter.2 ⟨he, by simp⟩, rfl⟩))
    · rw [if_pos]
      · simp [UnitLoop, hp]
      · rw [one_text]
        exact fun h => hp (showInt_inj h)
  · rw [if_pos fun h => hst (hv.name_inj ha hb h)]
    simp [UnitLoop, hst]

/-- `checkReentrancy` recognises the loops that the writer adds. -/
theorem reent_loop (hv : Valid g) {v : Nat} {a : Actor} (ha : g.actors[v]? = some a) (hr : a.reent ≠ 0) :
    checkReentrancy lib (elems g) (loopNode a) = some true := by
  have hm := List.mem_of_getElem? ha
  have hn := hv.named a hm
  have c1 := content_ne (lib := lib) hn
  have c2 := content_ne (lib := lib) (show "in_R".toList ++ a.name ≠ [] by simp)
  have c3 := content_ne (lib := lib) (show "out_R".toList ++ a.name ≠ [] by simp)
  have c4 := content_ne (lib := lib) (showInt_ne 1)
  have h2 : attr lib (loopNode a) "srcActor" [] = some a.name := by simp [attr, loopNode, Node.attrs, c1]
  have h3 : attr lib (loopNode a) "dstActor" [] = some a.name := by simp [attr, loopNode, Node.attrs, c1]
  have h4 : attr lib (loopNode a) "srcPort" [] = some ("in_R".toList ++ a.name) := by
    simp only [attr, loopNode, Node.attrs, c2, List.foldlM]
    simp
  have h5 : attr lib (loopNode a) "dstPort" [] = some ("out_R".toList ++ a.name) := by
    simp only [attr, loopNode, Node.attrs, c3, List.foldlM]
    simp
  have h7 : attr lib (loopNode a) "initialTokens" "0".toList = some (showInt 1) := by
    simp only [attr, loopNode, Node.attrs, c4, List.foldlM]
    simp
  unfold checkReentrancy
  rw [h2, h3, h4, h5, h7]
  simp only [Option.bind_eq_bind, Option.bind_some]
  rw [if_neg (by simp), if_neg (by rw [one_text]; simp)]
  obtain ⟨l₁, l₂, hs, q₁, q₂⟩ := elems_split hv ha
  rw [hs, actorNode, portNodes_eq]
  have hu : ∀ k l : Nat, ((List.replicate k (1 : Int)).all (· = 1) && (List.replicate l (1 : Int)).all (· = 1)) = true := by
    intro k l
    simp [List.all_replicate]
  rw [scanActors_one hn q₁ q₂ (ports_good hv hm) (u := true) (w := true)]
  · rfl
  · intro p hp ht hname
    rcases ports_out hp ht with ⟨f, hf, _, rfl⟩ | ⟨_, rfl⟩
    · exact absurd hname (inName_loop _ _)
    · exact hu _ _
  · intro p hp ht hname
    rcases ports_in hp ht with ⟨f, hf, _, rfl⟩ | ⟨_, rfl⟩
    · exact absurd hname (outName_loop _ _)
    · exact hu _ _
  · exact ⟨⟨"in_R".toList ++ a.name, "out".toList, List.replicate a.iphases 1, List.replicate a.phases 1⟩,
      by unfold ports; rw [if_pos hr]; simp, rfl, rfl⟩
  · exact ⟨⟨"out_R".toList ++ a.name, "in".toList, List.replicate a.iphases 1, List.replicate a.phases 1⟩,
      by unfold ports; rw [if_pos hr]; simp, rfl, rfl⟩

end Kiter.SDF3
