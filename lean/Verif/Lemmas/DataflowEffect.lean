/-
What the calls of `Dataflow` do to the lists of tasks and channels.
-/
import Verif.Props.Dataflow
import Verif.Model.Transform

set_option autoImplicit false

namespace Kiter.DF

/-- What every call below leaves alone. -/
structure Eff (s t : State) (vs : List Vtx) (es : List Edg) (n : Nat) : Prop where
  inv : Inv t
  verts : t.verts = vs
  edges : t.edges = es
  next : t.nextKey = n
  writable : t.readonly = false

theorem readonly_of_edit {s t : State} (h : edit s = some t) : s.readonly = false := (edit_some h).1

theorem eff_addEdge {s t : State} (hi : Inv s) {a b : Nat} (hm : addEdge s a b = some t) :
    a < s.verts.length ∧ b < s.verts.length ∧ ∃ id : Int, 
      Eff s t s.verts (s.edges ++ [⟨s.nextKey, a, b, id, "", [], [], 0, 0, 0, [], []⟩]) (s.nextKey + 1) := by
  have hit := inv_addEdge hi hm
  have hw : s.readonly = false := (off_addEdge hm).1
  have hgt := foldl_id_gt s.edges (fun v => v.id) s.autoE
  have hle := foldl_id_le s.edges (fun v => v.id) s.autoE
  unfold addEdge at hm
  simp only at hm
  generalize s.edges.foldl (fun m v => if v.id ≥ m then v.id + 1 else m) s.autoE = n at hgt hle hm
  have hn0 : 0 < n := lt_of_lt_of_le hi.auto1.2 hle
  have hab : a < s.verts.length ∧ b < s.verts.length := by
    by_contra hab
    unfold addEdgeUnsafe at hm
    simp only [edit_eq (s := { s with autoE := n }) hw, Option.bind_eq_bind, Option.bind_some] at hm
    have hab' : ¬ (a < (reset { s with autoE := n }).verts.length ∧ b < (reset { s with autoE := n }).verts.length) := hab
    rw [if_neg hab'] at hm
    cases hm
  rw [addEdgeUnsafe_eq (s := { s with autoE := n }) hw hab.1 hab.2 (fun v hv => (hgt v hv).ne) hi.keyLt hn0] at hm
  have := Option.some.inj hm
  subst this
  exact ⟨hab.1, hab.2, n, hit, rfl, rfl, rfl, rfl⟩

theorem map_last {es : List Edg} {e : Edg} {k : Nat} {f : Edg → Edg} (hk : e.key = k) (hn : ∀ x ∈ es, x.key ≠ k) :
    (es ++ [e]).map (fun x => if x.key = k then f x else x) = es ++ [f e] := by
  rw [List.map_append]
  congr 1
  · conv_rhs => rw [← List.map_id es]
    apply List.map_congr_left
    intro x hx
    rw [if_neg (hn x hx)]; rfl
  · simp [hk]

theorem edge_last {s : State} {es : List Edg} {e : Edg} {k : Nat} (hs : s.edges = es ++ [e]) (hk : e.key = k)
    (hn : ∀ x ∈ es, x.key ≠ k) : edge s k = some e := by
  unfold edge
  rw [hs, List.find?_append, List.find?_eq_none.2 (fun x hx => by simpa using hn x hx)]
  simp [hk]

theorem other_keys {s : State} (hi : Inv s) {es : List Edg} {e : Edg} {k : Nat} (hs : s.edges = es ++ [e])
    (hk : e.key = k) : ∀ x ∈ es, x.key ≠ k := by
  intro x hx he
  have := hi.keys
  rw [hs, List.map_append, List.nodup_append] at this
  exact this.2.2 x.key (List.mem_map_of_mem hx) e.key (by simp) (by rw [he, hk])

theorem eff_setEdgeName {s t : State} (hi : Inv s) {es : List Edg} {e : Edg} {k : Nat} {nm : String}
    (hs : s.edges = es ++ [e]) (hk : e.key = k) (hm : setEdgeName s k nm = some t) :
    Eff s t s.verts (es ++ [{ e with name := nm }]) s.nextKey := by
  have hit := inv_setEdgeName hi hm
  have ho := off_setEdgeName hm
  have key : ∃ u : State, u = reset s ∧ modE u k (fun x => { x with name := nm }) = some t := by
    unfold setEdgeName at hm
    obtain ⟨s1, h1, hm2⟩ := Option.bind_eq_some_iff.mp hm
    obtain ⟨-, rfl⟩ := edit_some h1
    refine ⟨_, rfl, ?_⟩
    split at hm2
    · cases hm2
    · split at hm2
      · split at hm2
        · exact hm2
        · cases hm2
      · exact hm2
  obtain ⟨u, rfl, hu⟩ := key
  obtain ⟨-, rfl⟩ := modE_some hu
  refine ⟨hit, rfl, ?_, rfl, rfl⟩
  show (reset s).edges.map _ = _
  rw [show (reset s).edges = es ++ [e] from hs, map_last hk (other_keys hi hs hk)]

theorem eff_setPhases {s t : State} (hi : Inv s) {v : Nat} {n : Int} (hm : setPhases s v n = some t) :
    v < s.verts.length ∧ Eff s t (s.verts.modify v fun x => { x with phases := n }) s.edges s.nextKey := by
  have hit := inv_setPhases hi hm
  unfold setPhases at hm
  obtain ⟨s1, h1, hm2⟩ := Option.bind_eq_some_iff.mp hm
  obtain ⟨-, rfl⟩ := edit_some h1
  obtain ⟨hv, rfl⟩ := modV_some hm2
  exact ⟨hv, hit, rfl, rfl, rfl, rfl⟩

theorem eff_setEdgeIn {s t : State} (hi : Inv s) {es : List Edg} {e : Edg} {k : Nat} {l : List Int}
    (hs : s.edges = es ++ [e]) (hk : e.key = k) (hm : setEdgeIn s k l = some t) :
    (∃ x, s.verts[e.src]? = some x ∧ (0 < x.phases → x.phases = l.length)) ∧
    Eff s t (s.verts.modify e.src fun x => { x with phases := l.length })
      (es ++ [{ e with ins := l, totIn := intSum l }]) s.nextKey := by
  obtain ⟨hr, s1, e1, v, h1, h2, h3, h4, h5⟩ := setEdgeIn_some hm
  have hi1 : Inv s1 := inv_modE (inv_reset hi) (by intro x; exact ⟨rfl, rfl, rfl, rfl, rfl, fun hx => ⟨rfl, hx.2⟩⟩) h1
  obtain ⟨-, rfl⟩ := modE_some h1
  have hes : (reset s).edges.map (fun x => if x.key = k then { x with ins := l, totIn := intSum l } else x)
      = es ++ [{ e with ins := l, totIn := intSum l }] := by
    rw [show (reset s).edges = es ++ [e] from hs, map_last hk (other_keys hi hs hk)]
  have he1 : e1 = { e with ins := l, totIn := intSum l } := by
    rw [edge_last (e := { e with ins := l, totIn := intSum l }) hes hk (other_keys hi hs hk)] at h2
    exact (Option.some.inj h2).symm
  subst he1
  obtain ⟨-, h6⟩ := eff_setPhases hi1 h5
  refine ⟨⟨v, h3, fun hp => by_contra fun hn => h4 ⟨hp, hn⟩⟩, h6.inv, h6.verts, ?_, h6.next, h6.writable⟩
  rw [h6.edges]
  exact hes

theorem eff_setEdgeOut {s t : State} (hi : Inv s) {es : List Edg} {e : Edg} {k : Nat} {l : List Int}
    (hs : s.edges = es ++ [e]) (hk : e.key = k) (hm : setEdgeOut s k l = some t) :
    (∃ x, s.verts[e.tgt]? = some x ∧ (0 < x.phases → x.phases = l.length)) ∧
    Eff s t (s.verts.modify e.tgt fun x => { x with phases := l.length })
      (es ++ [{ e with outs := l, totOut := intSum l }]) s.nextKey := by
  obtain ⟨hr, s1, e1, v, h1, h2, h3, h4, h5⟩ := setEdgeOut_some hm
  have hi1 : Inv s1 := inv_modE (inv_reset hi) (by intro x; exact ⟨rfl, rfl, rfl, rfl, rfl, fun hx => ⟨hx.1, rfl⟩⟩) h1
  obtain ⟨-, rfl⟩ := modE_some h1
  have hes : (reset s).edges.map (fun x => if x.key = k then { x with outs := l, totOut := intSum l } else x)
      = es ++ [{ e with outs := l, totOut := intSum l }] := by
    rw [show (reset s).edges = es ++ [e] from hs, map_last hk (other_keys hi hs hk)]
  have he1 : e1 = { e with outs := l, totOut := intSum l } := by
    rw [edge_last (e := { e with outs := l, totOut := intSum l }) hes hk (other_keys hi hs hk)] at h2
    exact (Option.some.inj h2).symm
  subst he1
  obtain ⟨-, h6⟩ := eff_setPhases hi1 h5
  refine ⟨⟨v, h3, fun hp => by_contra fun hn => h4 ⟨hp, hn⟩⟩, h6.inv, h6.verts, ?_, h6.next, h6.writable⟩
  rw [h6.edges]
  exact hes

theorem eff_setPreload {s t : State} (hi : Inv s) {es : List Edg} {e : Edg} {k : Nat} {p : Int}
    (hs : s.edges = es ++ [e]) (hk : e.key = k) (hm : setPreload s k p = some t) :
    Eff s t s.verts (es ++ [{ e with preload := p }]) s.nextKey := by
  unfold setPreload at hm
  split at hm
  · cases hm
  · rename_i hr
    have hit : Inv t := inv_modE hi (by intro x; exact ⟨rfl, rfl, rfl, rfl, rfl, fun hx => hx⟩) hm
    obtain ⟨-, rfl⟩ := modE_some hm
    refine ⟨hit, rfl, ?_, rfl, by simpa using hr⟩
    show s.edges.map _ = _
    rw [hs, map_last hk (other_keys hi hs hk)]

theorem eff_removeEdge {s t : State} (hi : Inv s) {k : Nat} (hm : removeEdge s k = some t) :
    Eff s t s.verts (s.edges.filter fun e => e.key ≠ k) s.nextKey := by
  have hit := inv_removeEdge hi hm
  unfold removeEdge at hm
  obtain ⟨s1, h1, hm2⟩ := Option.bind_eq_some_iff.mp hm
  obtain ⟨-, rfl⟩ := edit_some h1
  split at hm2
  · have := Option.some.inj hm2
    subst this
    exact ⟨hit, rfl, rfl, rfl, rfl⟩
  · cases hm2

theorem modify_last {vs : List Vtx} {x : Vtx} {f : Vtx → Vtx} : (vs ++ [x]).modify vs.length f = vs ++ [f x] := by
  apply List.ext_getElem?
  intro i
  rw [List.getElem?_modify]
  rcases lt_trichotomy i vs.length with hi | hi | hi
  · rw [List.getElem?_append_left hi, List.getElem?_append_left hi]
    simp [show vs.length ≠ i by omega]
  · subst hi; simp
  · rw [List.getElem?_eq_none (by simp; omega), List.getElem?_eq_none (by simp; omega)]; rfl

theorem eff_addVertex {s t : State} (hi : Inv s) (hm : addVertex s = some t) :
    ∃ id : Int, Eff s t (s.verts ++ [⟨id, "", 0, 0, [], 0, []⟩]) s.edges s.nextKey ∧ ∀ v ∈ s.verts, v.id < id := by
  have hit := inv_addVertex hi hm
  have hw : s.readonly = false := (off_addVertex hm).1
  have hgt := foldl_id_gt s.verts (fun v => v.id) s.autoV
  have hle := foldl_id_le s.verts (fun v => v.id) s.autoV
  unfold addVertex at hm
  simp only at hm
  generalize s.verts.foldl (fun m v => if v.id ≥ m then v.id + 1 else m) s.autoV = n at hgt hle hm
  have hn0 : 0 < n := lt_of_lt_of_le hi.auto1.1 hle
  rw [addUnsafeVertex_eq (s := { s with autoV := n + 1 }) hw (fun v hv => (hgt v hv).ne) hn0.ne'] at hm
  have := Option.some.inj hm
  subst this
  exact ⟨n, ⟨hit, rfl, rfl, rfl, rfl⟩, hgt⟩

theorem eff_setVertexName {s t : State} (hi : Inv s) {v : Nat} {nm : String} (hm : setVertexName s v nm = some t) :
    Eff s t (s.verts.modify v fun x => { x with name := nm }) s.edges s.nextKey := by
  have hit := inv_setVertexName hi hm
  have key : modV (reset s) v (fun x => { x with name := nm }) = some t := by
    unfold setVertexName at hm
    obtain ⟨s1, h1, hm2⟩ := Option.bind_eq_some_iff.mp hm
    obtain ⟨-, rfl⟩ := edit_some h1
    split at hm2
    · cases hm2
    · split at hm2
      · split at hm2
        · exact hm2
        · cases hm2
      · exact hm2
  obtain ⟨-, rfl⟩ := modV_some key
  exact ⟨hit, rfl, rfl, rfl, rfl⟩

theorem eff_setDurs {s t : State} (hi : Inv s) {v : Nat} {l : List ℚ} (hm : setDurs s v l = some t) :
    Eff s t (s.verts.modify v fun x => { x with durs := l }) s.edges s.nextKey := by
  have hit : Inv t := inv_call (o := .setDurs v l) hi hm
  unfold setDurs at hm
  obtain ⟨s1, h1, hm2⟩ := Option.bind_eq_some_iff.mp hm
  obtain ⟨-, rfl⟩ := edit_some h1
  obtain ⟨x, -, hm3⟩ := Option.bind_eq_some_iff.mp hm2
  split at hm3
  · obtain ⟨-, rfl⟩ := modV_some hm3
    exact ⟨hit, rfl, rfl, rfl, rfl⟩
  · cases hm3

/-! ### New tasks and new channels with one phase -/

theorem eff_pathTask {s t : State} (hi : Inv s) {nm : String} {d : ℚ} (hm : pathTask s nm d = some t) :
    ∃ id : Int, Eff s t (s.verts ++ [⟨id, nm, 1, 0, [d], 0, []⟩]) s.edges s.nextKey ∧ ∀ v ∈ s.verts, v.id < id := by
  unfold pathTask at hm
  obtain ⟨s1, h1, hm⟩ := Option.bind_eq_some_iff.mp hm
  obtain ⟨s2, h2, hm⟩ := Option.bind_eq_some_iff.mp hm
  obtain ⟨s3, h3, h4⟩ := Option.bind_eq_some_iff.mp hm
  obtain ⟨id, e1, hid⟩ := eff_addVertex hi h1
  have e2 := eff_setVertexName e1.inv h2
  obtain ⟨-, e3⟩ := eff_setPhases e2.inv h3
  have e4 := eff_setDurs e3.inv h4
  refine ⟨id, ⟨e4.inv, ?_, ?_, ?_, e4.writable⟩, hid⟩
  · rw [e4.verts, e3.verts, e2.verts, e1.verts, modify_last, modify_last, modify_last]
  · rw [e4.edges, e3.edges, e2.edges, e1.edges]
  · rw [e4.next, e3.next, e2.next, e1.next]

theorem named_addVertex {s : State} (hi : Inv s) {nm : String} {d : ℚ} :
    (do let s' ← named (addVertex s) nm
        let s' ← setPhases s' s.verts.length 1
        setDurs s' s.verts.length [d]) = pathTask s nm d := by
  unfold named pathTask
  cases h : addVertex s with
  | none => rfl
  | some u =>
    obtain ⟨id, e1, -⟩ := eff_addVertex hi h
    have : u.verts.length - 1 = s.verts.length := by rw [e1.verts]; simp
    simp only [Option.bind_eq_bind, Option.bind_some, this]

/-- The tasks stay as they are, but a task without declared phases may now have one. -/
def Keep (vs ws : List Vtx) : Prop :=
  ws.length = vs.length ∧ ∀ (i : Nat) (x : Vtx), vs[i]? = some x →
    ∃ y, ws[i]? = some y ∧ (y = x ∨ x.phases ≤ 0 ∧ y = { x with phases := 1 })

theorem Keep.refl (vs : List Vtx) : Keep vs vs := ⟨rfl, fun _ x h => ⟨x, h, Or.inl rfl⟩⟩

theorem Keep.trans {a b c : List Vtx} (h1 : Keep a b) (h2 : Keep b c) : Keep a c := by
  refine ⟨h2.1.trans h1.1, fun i x hx => ?_⟩
  obtain ⟨y, hy, h3⟩ := h1.2 i x hx
  obtain ⟨z, hz, h4⟩ := h2.2 i y hy
  refine ⟨z, hz, ?_⟩
  rcases h3 with rfl | ⟨hp, rfl⟩
  · exact h4
  · rcases h4 with rfl | ⟨-, rfl⟩ <;> exact Or.inr ⟨hp, rfl⟩

theorem Keep.modify {vs : List Vtx} {v : Nat} (h : ∃ x, vs[v]? = some x ∧ (0 < x.phases → x.phases = 1)) :
    Keep vs (vs.modify v fun x => { x with phases := 1 }) := by
  refine ⟨List.length_modify _ _ _, fun i x hx => ?_⟩
  rw [List.getElem?_modify, hx]
  by_cases hv : v = i
  · subst hv
    obtain ⟨y, hy, hp⟩ := h
    rw [hx] at hy
    have := Option.some.inj hy
    subst this
    refine ⟨{ x with phases := 1 }, by simp, ?_⟩
    rcases lt_or_ge 0 x.phases with h0 | h0
    · left
      have := hp h0
      cases x
      simp only at this
      subst this
      rfl
    · exact Or.inr ⟨h0, rfl⟩
  · exact ⟨x, by simp [hv], Or.inl rfl⟩

/-- The fields of a channel between tasks with one phase. -/
def one (k a b : Nat) (id : Int) (nm : String) (p c m : Int) : Edg :=
  ⟨k, a, b, id, nm, [p], [c], intSum [p], intSum [c], m, [], []⟩

/-- One phase, or none declared. -/
def Single (vs : List Vtx) (v : Nat) : Prop := ∃ x, vs[v]? = some x ∧ (0 < x.phases → x.phases = 1)

theorem Single.of_keep {vs ws : List Vtx} {v : Nat} (h : Keep vs ws) (hs : Single ws v) (hv : v < vs.length) :
    Single vs v := by
  obtain ⟨y, hy, hp⟩ := hs
  have hx := List.getElem?_eq_getElem hv
  obtain ⟨z, hz, h3⟩ := h.2 v _ hx
  rw [hz] at hy
  have := Option.some.inj hy
  subst this
  refine ⟨_, hx, ?_⟩
  rcases h3 with h3 | ⟨h0, -⟩
  · rw [← h3]; exact hp
  · intro h1; omega

theorem eff_unitEdge {s t : State} (hi : Inv s) {a b : Nat} (hm : unitEdge s a b = some t) :
    a < s.verts.length ∧ b < s.verts.length ∧ Single s.verts a ∧ Single s.verts b ∧ Keep s.verts t.verts ∧ ∃ id : Int,
      Eff s t t.verts (s.edges ++ [one s.nextKey a b id "" 1 1 0]) (s.nextKey + 1) := by
  unfold unitEdge at hm
  obtain ⟨s1, h1, hm⟩ := Option.bind_eq_some_iff.mp hm
  obtain ⟨s2, h2, h3⟩ := Option.bind_eq_some_iff.mp hm
  obtain ⟨ha, hb, id, e1⟩ := eff_addEdge hi h1
  obtain ⟨p2, e2⟩ := eff_setEdgeIn e1.inv e1.edges rfl h2
  obtain ⟨p3, e3⟩ := eff_setEdgeOut e2.inv e2.edges rfl h3
  have k1 : Keep s.verts s2.verts := by
    rw [e2.verts]
    rw [e1.verts] at p2 ⊢
    exact Keep.modify p2
  have k2 : Keep s2.verts t.verts := by
    rw [e3.verts]
    exact Keep.modify p3
  refine ⟨ha, hb, ?_, Single.of_keep k1 p3 hb, k1.trans k2, id, e3.inv, rfl, ?_, ?_, e3.writable⟩
  · rw [e1.verts] at p2; exact p2
  · rw [e3.edges]; rfl
  · rw [e3.next, e2.next, e1.next]

theorem eff_pathEdge {s t : State} (hi : Inv s) {a b : Nat} {r : Int} (hm : pathEdge s a b r = some t) :
    a < s.verts.length ∧ b < s.verts.length ∧ Single s.verts a ∧ Single s.verts b ∧ Keep s.verts t.verts ∧
      ∃ (id : Int) (nm : String), Eff s t t.verts (s.edges ++ [one s.nextKey a b id nm r 1 0]) (s.nextKey + 1) := by
  unfold pathEdge at hm
  obtain ⟨s1, h1, hm⟩ := Option.bind_eq_some_iff.mp hm
  obtain ⟨e, he, hm⟩ := Option.bind_eq_some_iff.mp hm
  obtain ⟨s2, h2, hm⟩ := Option.bind_eq_some_iff.mp hm
  obtain ⟨s3, h3, hm⟩ := Option.bind_eq_some_iff.mp hm
  obtain ⟨s4, h4, h5⟩ := Option.bind_eq_some_iff.mp hm
  obtain ⟨ha, hb, id, e1⟩ := eff_addEdge hi h1
  have e2 := eff_setEdgeName e1.inv e1.edges rfl h2
  obtain ⟨p3, e3⟩ := eff_setEdgeIn e2.inv e2.edges rfl h3
  obtain ⟨p4, e4⟩ := eff_setEdgeOut e3.inv e3.edges rfl h4
  have e5 := eff_setPreload e4.inv e4.edges rfl h5
  rw [e2.verts, e1.verts] at p3
  have k1 : Keep s.verts s3.verts := by
    rw [e3.verts, e2.verts, e1.verts]
    exact Keep.modify p3
  have k2 : Keep s3.verts t.verts := by
    rw [e5.verts, e4.verts]
    exact Keep.modify p4
  refine ⟨ha, hb, p3, Single.of_keep k1 p4 hb, k1.trans k2, id, "artificial_" ++ toString e.id, e5.inv, rfl, ?_, ?_,
    e5.writable⟩
  · rw [e5.edges]; rfl
  · rw [e5.next, e4.next, e3.next, e2.next, e1.next]

end Kiter.DF
