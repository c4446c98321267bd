/-
What each call of `Dataflow` leaves alone: phases, durations, rates and cache.
-/
import Verif.Lemmas.Dataflow

set_option autoImplicit false

namespace Kiter.DF

/-- Tasks keep phases and durations; further tasks have none. -/
def VF (vs ws : List Vtx) : Prop :=
  vs.length ≤ ws.length ∧ ∀ i w, ws[i]? = some w →
    (∃ v, vs[i]? = some v ∧ w.phases = v.phases ∧ w.durs = v.durs) ∨ (vs.length ≤ i ∧ w.phases = 0 ∧ w.durs = [])

/-- Channels keep ends and rates, and their id unless it satisfies `N`; further channels have no rates and an id in `N`. -/
def EF (N : Int → Prop) (es fs : List Edg) : Prop :=
  ∀ f ∈ fs, (∃ e ∈ es, f.src = e.src ∧ f.tgt = e.tgt ∧ f.ins = e.ins ∧ f.outs = e.outs ∧ (f.id = e.id ∨ N f.id)) ∨
    (f.ins = [] ∧ f.outs = [] ∧ N f.id)

structure Frame (N : Int → Prop) (s t : State) : Prop where
  cache : t.cache = s.cache
  v : VF s.verts t.verts
  e : EF N s.edges t.edges

def No (_ : Int) : Prop := False

theorem VF.refl (vs : List Vtx) : VF vs vs := ⟨le_refl _, fun _ w hw => Or.inl ⟨w, hw, rfl, rfl⟩⟩
theorem EF.refl (N : Int → Prop) (es : List Edg) : EF N es es := fun f hf => Or.inl ⟨f, hf, rfl, rfl, rfl, rfl, Or.inl rfl⟩

theorem VF.trans {a b c : List Vtx} (h1 : VF a b) (h2 : VF b c) : VF a c := by
  refine ⟨le_trans h1.1 h2.1, fun i w hw => ?_⟩
  rcases h2.2 i w hw with ⟨v, hv, p, d⟩ | ⟨hl, p, d⟩
  · rcases h1.2 i v hv with ⟨u, hu, p', d'⟩ | ⟨hl, p', d'⟩
    · exact Or.inl ⟨u, hu, p.trans p', d.trans d'⟩
    · exact Or.inr ⟨hl, p.trans p', d.trans d'⟩
  · exact Or.inr ⟨le_trans h1.1 hl, p, d⟩

theorem EF.trans {N : Int → Prop} {a b c : List Edg} (h1 : EF N a b) (h2 : EF N b c) : EF N a c := by
  intro f hf
  rcases h2 f hf with ⟨e, he, p1, p2, p3, p4, p5⟩ | h
  · rcases h1 e he with ⟨d, hd, q1, q2, q3, q4, q5⟩ | ⟨q1, q2, q3⟩
    · refine Or.inl ⟨d, hd, p1.trans q1, p2.trans q2, p3.trans q3, p4.trans q4, ?_⟩
      rcases p5 with p5 | p5
      · rw [p5]; exact q5
      · exact Or.inr p5
    · refine Or.inr ⟨p3.trans q1, p4.trans q2, ?_⟩
      rcases p5 with p5 | p5
      · rw [p5]; exact q3
      · exact p5
  · exact Or.inr h

theorem EF.mono {N M : Int → Prop} {a b : List Edg} (h : ∀ i, N i → M i) (h1 : EF N a b) : EF M a b := by
  intro f hf
  rcases h1 f hf with ⟨e, he, p1, p2, p3, p4, p5⟩ | ⟨p1, p2, p3⟩
  · exact Or.inl ⟨e, he, p1, p2, p3, p4, p5.imp id (h _)⟩
  · exact Or.inr ⟨p1, p2, h _ p3⟩

theorem Frame.trans {N : Int → Prop} {a b c : State} (h1 : Frame N a b) (h2 : Frame N b c) : Frame N a c :=
  ⟨h2.cache.trans h1.cache, h1.v.trans h2.v, h1.e.trans h2.e⟩

theorem Frame.mono {N M : Int → Prop} {a b : State} (h : ∀ i, N i → M i) (h1 : Frame N a b) : Frame M a b :=
  ⟨h1.cache, h1.v, h1.e.mono h⟩

theorem Frame.no {M : Int → Prop} {a b : State} (h1 : Frame No a b) : Frame M a b := h1.mono fun _ h => h.elim

theorem frame_reset (s : State) : Frame No s (reset s) := ⟨rfl, VF.refl _, EF.refl _ _⟩

theorem VF.modify {vs : List Vtx} {v : Nat} {f : Vtx → Vtx} (hf : ∀ x, (f x).phases = x.phases ∧ (f x).durs = x.durs) :
    VF vs (vs.modify v f) := by
  refine ⟨by simp, fun i w hw => ?_⟩
  obtain ⟨a', h1, h2⟩ := getElem_modify hw
  refine Or.inl ⟨a', h1, ?_⟩
  rw [h2]; split
  · exact hf a'
  · exact ⟨rfl, rfl⟩

theorem EF.modify {N : Int → Prop} {es : List Edg} {k : Nat} {f : Edg → Edg}
    (hf : ∀ x, (f x).src = x.src ∧ (f x).tgt = x.tgt ∧ (f x).ins = x.ins ∧ (f x).outs = x.outs ∧ ((f x).id = x.id ∨ N (f x).id)) :
    EF N es (es.map fun e => if e.key = k then f e else e) := by
  intro f' hf'
  obtain ⟨e, he, rfl⟩ := mem_modE hf'
  refine Or.inl ⟨e, he, ?_⟩
  split
  · exact hf e
  · exact ⟨rfl, rfl, rfl, rfl, Or.inl rfl⟩

theorem frame_modV {s t : State} {v : Nat} {f : Vtx → Vtx} (hf : ∀ x, (f x).phases = x.phases ∧ (f x).durs = x.durs)
    (h : modV s v f = some t) : Frame No s t := by
  obtain ⟨-, rfl⟩ := modV_some h
  exact ⟨rfl, VF.modify hf, EF.refl _ _⟩

theorem frame_modE {N : Int → Prop} {s t : State} {k : Nat} {f : Edg → Edg}
    (hf : ∀ x, (f x).src = x.src ∧ (f x).tgt = x.tgt ∧ (f x).ins = x.ins ∧ (f x).outs = x.outs ∧ ((f x).id = x.id ∨ N (f x).id))
    (h : modE s k f = some t) : Frame N s t := by
  obtain ⟨-, rfl⟩ := modE_some h
  exact ⟨rfl, VF.refl _, EF.modify hf⟩

theorem frame_setVertexId {s t : State} {v : Nat} {id : Int} (hm : setVertexId s v id = some t) : Frame No s t := by
  unfold setVertexId at hm
  obtain ⟨s1, h1, hm2⟩ := Option.bind_eq_some_iff.mp hm
  obtain ⟨-, rfl⟩ := edit_some h1
  refine (frame_reset s).trans ?_
  cases hf : vertexById (reset s) id with
  | some o =>
    simp only [hf] at hm2
    split at hm2
    · obtain rfl := Option.some.inj hm2; exact ⟨rfl, VF.refl _, EF.refl _ _⟩
    · simp at hm2
  | none =>
    simp only [hf, edit_reset] at hm2
    obtain ⟨s2, h2, hm3⟩ := Option.bind_eq_some_iff.mp hm2
    obtain rfl := Option.some.inj h2
    obtain ⟨s3, h3, hm4⟩ := Option.bind_eq_some_iff.mp hm3
    obtain rfl := Option.some.inj hm4
    have := frame_modV (by intro x; exact ⟨rfl, rfl⟩) h3
    exact ⟨this.cache, this.v, this.e⟩

theorem frame_setEdgeId {s t : State} {k : Nat} {id : Int} (hm : setEdgeId s k id = some t) : Frame (fun i => i = id) s t := by
  unfold setEdgeId at hm
  obtain ⟨s1, h1, hm2⟩ := Option.bind_eq_some_iff.mp hm
  obtain ⟨-, rfl⟩ := edit_some h1
  refine (frame_reset s).no.trans ?_
  split at hm2
  · cases hf : edgeById (reset s) id with
    | some o =>
      simp only [hf] at hm2
      split at hm2
      · obtain rfl := Option.some.inj hm2; exact ⟨rfl, VF.refl _, EF.refl _ _⟩
      · simp at hm2
    | none =>
      simp only [hf] at hm2
      obtain ⟨s3, h3, hm4⟩ := Option.bind_eq_some_iff.mp hm2
      obtain rfl := Option.some.inj hm4
      have := frame_modE (N := fun i => i = id) (by intro x; exact ⟨rfl, rfl, rfl, rfl, Or.inr rfl⟩) h3
      exact ⟨this.cache, this.v, this.e⟩
  · simp at hm2

theorem frame_setVertexName {s t : State} {v : Nat} {n : String} (hm : setVertexName s v n = some t) : Frame No s t := by
  unfold setVertexName at hm
  obtain ⟨s1, h1, hm2⟩ := Option.bind_eq_some_iff.mp hm
  obtain ⟨hr, rfl⟩ := edit_some h1
  refine (frame_reset s).trans ?_
  split at hm2
  · simp at hm2
  · cases hf : vertexByName (reset s) n with
    | some o =>
      simp only [hf] at hm2
      split at hm2
      · exact frame_modV (by intro x; exact ⟨rfl, rfl⟩) hm2
      · simp at hm2
    | none => simp only [hf] at hm2; exact frame_modV (by intro x; exact ⟨rfl, rfl⟩) hm2

theorem frame_setEdgeName {s t : State} {v : Nat} {n : String} (hm : setEdgeName s v n = some t) : Frame No s t := by
  unfold setEdgeName at hm
  obtain ⟨s1, h1, hm2⟩ := Option.bind_eq_some_iff.mp hm
  obtain ⟨hr, rfl⟩ := edit_some h1
  refine (frame_reset s).trans ?_
  split at hm2
  · simp at hm2
  · cases hf : edgeByName (reset s) n with
    | some o =>
      simp only [hf] at hm2
      split at hm2
      · exact frame_modE (by intro x; exact ⟨rfl, rfl, rfl, rfl, Or.inl rfl⟩) hm2
      · simp at hm2
    | none => simp only [hf] at hm2; exact frame_modE (by intro x; exact ⟨rfl, rfl, rfl, rfl, Or.inl rfl⟩) hm2

theorem VF.append (vs : List Vtx) (x : Vtx) (hp : x.phases = 0) (hd : x.durs = []) : VF vs (vs ++ [x]) := by
  refine ⟨by simp, fun i w hw => ?_⟩
  by_cases hi : i < vs.length
  · rw [List.getElem?_append_left hi] at hw; exact Or.inl ⟨w, hw, rfl, rfl⟩
  · have := List.mem_of_getElem? hw
    rw [List.getElem?_append_right (by omega)] at hw
    have := List.mem_of_getElem? hw
    simp only [List.mem_singleton] at this
    subst this
    exact Or.inr ⟨by omega, hp, hd⟩

theorem frame_addUnsafeVertex {s t : State} {id : Int} (hm : addUnsafeVertex s id = some t) : Frame No s t := by
  unfold addUnsafeVertex at hm
  obtain ⟨s1, h1, hm2⟩ := Option.bind_eq_some_iff.mp hm
  obtain ⟨-, rfl⟩ := edit_some h1
  have h := frame_setVertexId hm2
  exact ⟨h.cache, (VF.append _ _ rfl rfl).trans h.v, h.e⟩

theorem frame_addVertex {s t : State} (hm : addVertex s = some t) : Frame No s t := by
  unfold addVertex at hm
  have h := frame_addUnsafeVertex hm
  exact ⟨h.cache, h.v, h.e⟩

theorem frame_addVertexId {s t : State} {id : Int} (hm : addVertexId s id = some t) : Frame No s t := by
  unfold addVertexId at hm
  split at hm
  · simp at hm
  · exact frame_addUnsafeVertex hm

theorem frame_named {s t : State} {n : String} {o : Option State} (ho : ∀ u, o = some u → Frame No s u) (hm : named o n = some t) :
    Frame No s t := by
  unfold named at hm
  obtain ⟨u, h1, hm2⟩ := Option.bind_eq_some_iff.mp hm
  exact (ho u h1).trans (frame_setVertexName hm2)

theorem frame_namedE {N : Int → Prop} {s t : State} {n : String} {o : Option State} (ho : ∀ u, o = some u → Frame N s u)
    (hm : namedE o n = some t) : Frame N s t := by
  unfold namedE at hm
  obtain ⟨u, h1, hm2⟩ := Option.bind_eq_some_iff.mp hm
  exact (ho u h1).trans (frame_setEdgeName hm2).no

/-- The channel that is being created has key `nextKey`. -/
theorem frame_addEdgeUnsafe {s t : State} {a b : Nat} {id : Int} (hk : ∀ e ∈ s.edges, e.key < s.nextKey)
    (hm : addEdgeUnsafe s a b id = some t) : Frame (fun i => i = id) s t := by
  unfold addEdgeUnsafe at hm
  obtain ⟨s1, h1, hm2⟩ := Option.bind_eq_some_iff.mp hm
  obtain ⟨-, rfl⟩ := edit_some h1
  split at hm2
  · unfold setEdgeId at hm2
    obtain ⟨s1, h1, hm3⟩ := Option.bind_eq_some_iff.mp hm2
    obtain ⟨-, rfl⟩ := edit_some h1
    split at hm3
    · rename_i hid
      cases hf : edgeById (reset { reset s with
          edges := (reset s).edges ++ [(⟨(reset s).nextKey, a, b, 0, "", [], [], 0, 0, 0, [], []⟩ : Edg)]
          nextKey := (reset s).nextKey + 1 }) id with
      | some o =>
        simp only [hf] at hm3
        split at hm3
        · rename_i ho
          obtain ⟨e, he, hek⟩ := Option.map_eq_some_iff.mp hf
          have e1 := List.mem_of_find?_eq_some he
          have e2 : e.id = id := by simpa using List.find?_some he
          have e1' : e ∈ s.edges ++ [(⟨s.nextKey, a, b, 0, "", [], [], 0, 0, 0, [], []⟩ : Edg)] := e1
          rcases List.mem_append.mp e1' with e3 | e3
          · have := hk e e3
            have h4 : o = s.nextKey := ho
            omega
          · simp only [List.mem_singleton] at e3
            rw [e3] at e2; simp only at e2; omega
        · simp at hm3
      | none =>
        simp only [hf] at hm3
        obtain ⟨s3, h3, hm4⟩ := Option.bind_eq_some_iff.mp hm3
        obtain rfl := Option.some.inj hm4
        obtain ⟨-, rfl⟩ := modE_some h3
        refine ⟨rfl, VF.refl _, ?_⟩
        intro f hf'
        obtain ⟨e, he, rfl⟩ := mem_modE hf'
        have he' : e ∈ s.edges ++ [(⟨s.nextKey, a, b, 0, "", [], [], 0, 0, 0, [], []⟩ : Edg)] := he
        rcases List.mem_append.mp he' with e3 | e3
        · have h5 : ¬ e.key = (reset s).nextKey := by have := hk e e3; change ¬ e.key = s.nextKey; omega
          rw [if_neg h5]
          exact Or.inl ⟨e, e3, rfl, rfl, rfl, rfl, Or.inl rfl⟩
        · simp only [List.mem_singleton] at e3
          have h5 : e.key = (reset s).nextKey := by rw [e3]; rfl
          rw [if_pos h5, e3]
          exact Or.inr ⟨rfl, rfl, rfl⟩
    · simp at hm3
  · simp at hm2

theorem frame_addEdge {s t : State} {a b : Nat} (hi : Inv s) (hm : addEdge s a b = some t) :
    Frame (fun i => s.autoE ≤ i) s t := by
  unfold addEdge at hm
  have hle := foldl_id_le s.edges (fun v => v.id) s.autoE
  have h := frame_addEdgeUnsafe (by exact hi.keyLt) hm
  have h2 := h.mono (M := fun i => s.autoE ≤ i) (fun i hi => by rw [hi]; exact hle)
  exact ⟨h2.cache, h2.v, h2.e⟩

theorem frame_removeEdge {s t : State} {k : Nat} (hm : removeEdge s k = some t) : Frame No s t := by
  unfold removeEdge at hm
  obtain ⟨s1, h1, hm2⟩ := Option.bind_eq_some_iff.mp hm
  obtain ⟨hr, rfl⟩ := edit_some h1
  split at hm2
  · obtain rfl := Option.some.inj hm2
    refine ⟨rfl, VF.refl _, ?_⟩
    intro f hf
    exact Or.inl ⟨f, List.mem_of_mem_filter hf, rfl, rfl, rfl, rfl, Or.inl rfl⟩
  · simp at hm2

end Kiter.DF
