/-
C107: the statements printed by `PrintKiter` build the same graph again.
-/
import Verif.Model.PrintKiter
import Verif.Lemmas.DataflowEffect
import Mathlib.Tactic.Linarith

set_option autoImplicit false

namespace Kiter.PK

open DF

/-! ### Specification -/

/-- What the readers of the code would call a complete graph: every task has a name, one duration per phase and per
initial phase; every channel has a name, one rate per (initial) phase of the task at that end. -/
structure Complete (s : State) : Prop where
  vname : ∀ v ∈ s.verts, v.name ≠ ""
  durs : ∀ v ∈ s.verts, v.phases = v.durs.length
  idurs : ∀ v ∈ s.verts, v.iphases = v.idurs.length
  ename : ∀ e ∈ s.edges, e.name ≠ ""
  ins : ∀ e ∈ s.edges, ∀ v, s.verts[e.src]? = some v → v.phases = e.ins.length ∧ v.iphases = e.iins.length
  outs : ∀ e ∈ s.edges, ∀ v, s.verts[e.tgt]? = some v → v.phases = e.outs.length ∧ v.iphases = e.iouts.length

/-- The tasks of `t` are those of `s`, in the same order with the same ids, names, phases and durations; only the
repetition counts are forgotten. -/
def SameTasks (s t : State) : Prop := t.verts = s.verts.map fun x => { x with ni := 0 }

/-- The channels of `t` are those of `s`, in the same order with the same ends, names, rates and initial tokens; their ids
are the positions, counted from 1. -/
def SameChannels (s t : State) : Prop :=
  t.edges = s.edges.zipIdx.map fun p => { p.1 with key := p.2, id := (p.2 : Int) + 1 }

/-! ### Proof -/

theorem listed_all {α : Type} (l : List α) (count : Int) (hc : count = l.length) (get : Int → Option α)
    (hg : ∀ k : Nat, k < l.length → get ((k : Int) + 1) = l[k]?) : listed count get = some l := by
  unfold listed
  subst hc
  rw [Int.toNat_natCast]
  have key : ∀ (n : Nat), n ≤ l.length →
      (List.range n).mapM (fun (k : Nat) => get ((k : Int) + 1)) = some (l.take n) := by
    intro n
    induction n with
    | zero => intro _; simp
    | succ n ih =>
      intro hn
      rw [List.range_succ, List.mapM_append, ih (by omega)]
      have h1 : get ((n : Int) + 1) = some l[n] := by rw [hg n (by omega)]; exact List.getElem?_eq_getElem (by omega)
      simp only [List.mapM_cons, List.mapM_nil, h1, Option.bind_eq_bind, Option.bind_some, Option.pure_def]
      rw [List.take_add_one, List.getElem?_eq_getElem (by omega)]; rfl
  have := key l.length (le_refl _)
  rwa [List.take_length] at this

theorem listed_init {α : Type} (l : List α) (count : Int) (hc : count = l.length) : listed count (initAt l) = some l := by
  apply listed_all l count hc
  intro k _
  unfold initAt
  congr 1; omega

theorem listed_durs (x : Vtx) (h : x.phases = x.durs.length) : listed x.phases (durAt x) = some x.durs := by
  apply listed_all x.durs _ h
  intro k hk
  unfold durAt
  rw [if_neg (by omega), if_neg (by rintro h; rw [h] at hk; simp at hk)]
  have : ((k : Int) + 1 - 1).toNat = k := by omega
  rw [this, Nat.mod_eq_of_lt hk]

theorem listed_rates (ini l : List Int) (count : Int) (h : count = l.length) :
    listed count (phaseAt ini l) = some l := by
  apply listed_all l _ h
  intro k hk
  unfold phaseAt
  rw [if_neg (by omega), if_neg (by omega)]
  congr 1; omega

/-- The block of a task. -/
def vBlock (x : Vtx) : List Stmt :=
  [.addVertex x.id, .setVertexName x.name, .setInitPhasesQuantity x.iphases, .setPhasesQuantity x.phases]
    ++ (if x.iphases ≠ 0 then [Stmt.setVertexInitDuration x.idurs] else []) ++ [.setVertexDuration x.durs]

/-- The block of a channel between `v` and `w`. -/
def eBlock (v w : Vtx) (e : Edg) : List Stmt :=
  [.addEdge v.id w.id] ++ (if v.iphases ≠ 0 then [Stmt.setEdgeInInitPhases e.iins] else []) ++
    (if w.iphases ≠ 0 then [Stmt.setEdgeOutInitPhases e.iouts] else []) ++
    [.setEdgeInPhases e.ins, .setEdgeOutPhases e.outs, .setPreload e.preload, .setEdgeName e.name]

theorem printed_eq {α : Type} {count : Int} {l : List α} (h : count = l.length) (mk : List α → Stmt) :
    printed count l mk = some (if count ≠ 0 then [mk l] else []) := by
  unfold printed
  rw [listed_init l _ h]
  split <;> rfl

theorem printed_mem {α : Type} {count : Int} {l : List α} {mk : List α → Stmt} {r : List Stmt}
    (h : printed count l mk = some r) : r = [] ∨ ∃ l', r = [mk l'] := by
  unfold printed at h
  split at h
  · obtain ⟨l', -, rfl⟩ := Option.map_eq_some_iff.mp h
    exact Or.inr ⟨l', rfl⟩
  · cases h; exact Or.inl rfl

theorem vertexStmts_eq {x : Vtx} (h1 : x.phases = x.durs.length) (h2 : x.iphases = x.idurs.length) :
    vertexStmts x = some (vBlock x) := by
  unfold vertexStmts vBlock
  rw [listed_durs x h1, printed_eq h2]; rfl

theorem edgeStmts_eq {s : State} {e : Edg} {v w : Vtx} (hv : s.verts[e.src]? = some v) (hw : s.verts[e.tgt]? = some w)
    (h1 : v.phases = e.ins.length ∧ v.iphases = e.iins.length) (h2 : w.phases = e.outs.length ∧ w.iphases = e.iouts.length) :
    edgeStmts s e = some (eBlock v w e) := by
  unfold edgeStmts eBlock
  rw [hv, hw]
  simp only [Option.bind_eq_bind, Option.bind_some]
  rw [listed_rates _ _ _ h1.1, listed_rates _ _ _ h2.1, printed_eq h1.2, printed_eq h2.2]; rfl

theorem mapM_all {α β : Type} (f : α → Option β) (g : α → β) (l : List α) (h : ∀ a ∈ l, f a = some (g a)) :
    l.mapM f = some (l.map g) := by
  induction l with
  | nil => rfl
  | cons a l ih =>
    rw [List.mapM_cons, h a (by simp), ih fun b hb => h b (by simp [hb])]; rfl

theorem execs_append (s : State) (a b : List Stmt) : execs s (a ++ b) = (execs s a).bind fun t => execs t b := by
  induction a generalizing s with
  | nil => rfl
  | cons x a ih =>
    rw [List.cons_append, execs, execs]
    cases exec s x with
    | none => rfl
    | some t => exact ih t

/-- The parts of the state that matter here. -/
structure At (s : State) (vs : List Vtx) (es : List Edg) (n : Nat) (a : Int) : Prop where
  verts : s.verts = vs
  edges : s.edges = es
  next : s.nextKey = n
  auto : s.autoE = a
  writable : s.readonly = false

theorem edit_ok {s : State} (h : s.readonly = false) : edit s = some (reset s) := by unfold edit; rw [h]; rfl

theorem at_addVertex {s : State} {vs es n a} (h : At s vs es n a) {id : Int} (hid : ∀ v ∈ vs, v.id < id) :
    ∃ t, exec s (.addVertex id) = some t ∧ At t (vs ++ [⟨id, "", 0, 0, [], 0, []⟩]) es n a := by
  show ∃ t, DF.addVertexId s id = some t ∧ _
  have h0 : s.verts.any (fun v => decide (v.id ≥ id)) = false := by
    rw [List.any_eq_false, h.verts]
    intro v hv
    have := hid v hv
    simp; omega
  unfold addVertexId
  rw [h0, if_neg (by simp)]
  unfold addUnsafeVertex
  rw [edit_ok h.writable]
  simp only [Option.bind_eq_bind, Option.bind_some]
  unfold setVertexId
  rw [edit_ok (by rfl)]
  simp only [Option.bind_eq_bind, Option.bind_some]
  have hs : (reset s).verts = vs := h.verts
  have hlook : vertexById (reset { reset s with verts := (reset s).verts ++ [⟨0, "", 0, 0, [], 0, []⟩] }) id
      = if id = 0 then some vs.length else none := by
    unfold vertexById
    show List.findIdx? _ ((reset s).verts ++ [_]) = _
    rw [hs, List.findIdx?_append]
    have : vs.findIdx? (fun v => v.id == id) = none := by
      rw [List.findIdx?_eq_none_iff]
      intro v hv
      have := hid v hv
      simp; omega
    rw [this]
    by_cases hz : id = 0
    · subst hz; simp [List.findIdx?_cons]
    · have : ¬ (0 : Int) = id := fun hh => hz hh.symm
      simp [List.findIdx?_cons, hz, this]
  rw [hlook]
  by_cases hz : id = 0
  · subst hz
    rw [if_pos rfl]
    dsimp only
    rw [hs, if_pos rfl]
    exact ⟨_, rfl, rfl, h.edges, h.next, h.auto, rfl⟩
  · rw [if_neg hz]
    dsimp only
    rw [edit_ok (by rfl)]
    simp only [Option.bind_some]
    unfold modV
    rw [if_pos (by show _ < ((reset s).verts ++ [_]).length; simp)]
    refine ⟨_, rfl, ?_, h.edges, h.next, h.auto, rfl⟩
    show ((reset s).verts ++ [_]).modify (reset s).verts.length _ = _
    rw [modify_last, hs]

theorem modV_last {s : State} {vs : List Vtx} {x : Vtx} {es n a} (h : At s (vs ++ [x]) es n a) (f : Vtx → Vtx) :
    ∃ t, modV (reset s) vs.length f = some t ∧ At t (vs ++ [f x]) es n a := by
  unfold modV
  have hs : (reset s).verts = vs ++ [x] := h.verts
  rw [if_pos (by rw [hs]; simp)]
  refine ⟨_, rfl, ?_, h.edges, h.next, h.auto, rfl⟩
  show (reset s).verts.modify _ _ = _
  rw [hs, modify_last]

theorem last_pos {s : State} {vs : List Vtx} {x : Vtx} {es n a} (h : At s (vs ++ [x]) es n a) :
    s.verts.length - 1 = vs.length := by rw [h.verts]; simp

theorem at_setVertexName {s : State} {vs : List Vtx} {x : Vtx} {es n a} (h : At s (vs ++ [x]) es n a) {nm : String}
    (hn : nm ≠ "") (hx : ∀ v ∈ vs, v.name ≠ nm) :
    ∃ t, exec s (.setVertexName nm) = some t ∧ At t (vs ++ [{ x with name := nm }]) es n a := by
  show ∃ t, DF.setVertexName s (s.verts.length - 1) nm = some t ∧ _
  rw [last_pos h]
  unfold setVertexName
  rw [edit_ok h.writable]
  simp only [Option.bind_eq_bind, Option.bind_some]
  rw [if_neg hn]
  have hlook : vertexByName (reset s) nm = none ∨ vertexByName (reset s) nm = some vs.length := by
    unfold vertexByName
    show List.findIdx? _ s.verts = _ ∨ List.findIdx? _ s.verts = _
    rw [h.verts, List.findIdx?_append]
    have : vs.findIdx? (fun v => v.name == nm) = none := by
      rw [List.findIdx?_eq_none_iff]
      intro v hv
      have := hx v hv
      simpa using this
    rw [this]
    by_cases hz : x.name = nm <;> simp [List.findIdx?_cons, hz]
  rcases hlook with hl | hl
  · rw [hl]
    exact modV_last h _
  · rw [hl]
    dsimp only
    rw [if_pos rfl]
    exact modV_last h _

theorem at_setIPhases {s : State} {vs : List Vtx} {x : Vtx} {es n a} (h : At s (vs ++ [x]) es n a) {q : Int} :
    ∃ t, exec s (.setInitPhasesQuantity q) = some t ∧ At t (vs ++ [{ x with iphases := q }]) es n a := by
  show ∃ t, DF.setIPhases s (s.verts.length - 1) q = some t ∧ _
  rw [last_pos h]
  unfold setIPhases
  rw [edit_ok h.writable]
  exact modV_last h _

theorem at_setPhases {s : State} {vs : List Vtx} {x : Vtx} {es n a} (h : At s (vs ++ [x]) es n a) {q : Int} :
    ∃ t, exec s (.setPhasesQuantity q) = some t ∧ At t (vs ++ [{ x with phases := q }]) es n a := by
  show ∃ t, DF.setPhases s (s.verts.length - 1) q = some t ∧ _
  rw [last_pos h]
  unfold setPhases
  rw [edit_ok h.writable]
  exact modV_last h _

theorem at_setIDurs {s : State} {vs : List Vtx} {x : Vtx} {es n a} (h : At s (vs ++ [x]) es n a) {l : List ℚ}
    (hl : (l.length : Int) = x.iphases) :
    ∃ t, exec s (.setVertexInitDuration l) = some t ∧ At t (vs ++ [{ x with idurs := l }]) es n a := by
  show ∃ t, DF.setIDurs s (s.verts.length - 1) l = some t ∧ _
  rw [last_pos h]
  unfold setIDurs
  rw [edit_ok h.writable]
  have hg : (reset s).verts[vs.length]? = some x := by
    show s.verts[vs.length]? = _
    rw [h.verts]; simp
  simp only [Option.bind_eq_bind, Option.bind_some, hg]
  rw [if_pos hl]
  exact modV_last h _

theorem at_setDurs {s : State} {vs : List Vtx} {x : Vtx} {es n a} (h : At s (vs ++ [x]) es n a) {l : List ℚ}
    (hl : (l.length : Int) = x.phases) :
    ∃ t, exec s (.setVertexDuration l) = some t ∧ At t (vs ++ [{ x with durs := l }]) es n a := by
  show ∃ t, DF.setDurs s (s.verts.length - 1) l = some t ∧ _
  rw [last_pos h]
  unfold setDurs
  rw [edit_ok h.writable]
  have hg : (reset s).verts[vs.length]? = some x := by
    show s.verts[vs.length]? = _
    rw [h.verts]; simp
  simp only [Option.bind_eq_bind, Option.bind_some, hg]
  rw [if_pos hl]
  exact modV_last h _

theorem at_vBlock {s : State} {vs es n a} (h : At s vs es n a) {x : Vtx} (hid : ∀ v ∈ vs, v.id < x.id)
    (hn : x.name ≠ "") (hx : ∀ v ∈ vs, v.name ≠ x.name) (h1 : x.phases = x.durs.length) (h2 : x.iphases = x.idurs.length) :
    ∃ t, execs s (vBlock x) = some t ∧ At t (vs ++ [{ x with ni := 0 }]) es n a := by
  obtain ⟨t1, e1, a1⟩ := at_addVertex h hid
  obtain ⟨t2, e2, a2⟩ := at_setVertexName a1 hn hx
  obtain ⟨t3, e3, a3⟩ := at_setIPhases (q := x.iphases) a2
  obtain ⟨t4, e4, a4⟩ := at_setPhases (q := x.phases) a3
  by_cases hi : x.iphases ≠ 0
  · obtain ⟨t5, e5, a5⟩ := at_setIDurs (l := x.idurs) a4 h2.symm
    obtain ⟨t6, e6, a6⟩ := at_setDurs (l := x.durs) a5 h1.symm
    refine ⟨t6, ?_, a6⟩
    unfold vBlock
    rw [if_pos hi]
    simp only [List.cons_append, List.nil_append, execs, e1, e2, e3, e4, e5, e6, Option.bind_some]
  · obtain ⟨t6, e6, a6⟩ := at_setDurs (l := x.durs) a4 h1.symm
    refine ⟨t6, ?_, ?_⟩
    · unfold vBlock
      rw [if_neg hi]
      simp only [List.cons_append, List.nil_append, List.append_nil, execs, e1, e2, e3, e4, e6, Option.bind_some]
    · have h0 : x.iphases = 0 := by push Not at hi; exact hi
      have hnil : x.idurs = [] := by
        have : (x.idurs.length : Int) = 0 := by rw [← h2, h0]
        exact List.length_eq_zero_iff.mp (by omega)
      have hx' : ({ x with ni := 0 } : Vtx) = ⟨x.id, x.name, x.phases, 0, x.durs, x.iphases, []⟩ := by
        rw [← hnil]
      rw [hx']; exact a6

theorem at_vBlocks (xs : List Vtx) : ∀ {s : State} {vs es n a}, At s vs es n a →
    (∀ v ∈ vs, ∀ x ∈ xs, v.id < x.id ∧ v.name ≠ x.name) → xs.Pairwise (fun x y => x.id < y.id ∧ x.name ≠ y.name) →
    (∀ x ∈ xs, x.name ≠ "" ∧ x.phases = x.durs.length ∧ x.iphases = x.idurs.length) →
    ∃ t, execs s (xs.map vBlock).flatten = some t ∧ At t (vs ++ xs.map fun x => { x with ni := 0 }) es n a := by
  induction xs with
  | nil => intro s vs es n a h _ _ _; exact ⟨s, rfl, by simpa using h⟩
  | cons x xs ih =>
    intro s vs es n a h hv hp hc
    obtain ⟨hc1, hc2, hc3⟩ := hc x (by simp)
    obtain ⟨t1, e1, a1⟩ := at_vBlock h (x := x) (fun v hvv => (hv v hvv x (by simp)).1) hc1
      (fun v hvv => (hv v hvv x (by simp)).2) hc2 hc3
    rw [List.pairwise_cons] at hp
    obtain ⟨t, e, ha⟩ := ih a1 (by
      intro v hvv y hy
      rcases List.mem_append.mp hvv with hvv | hvv
      · exact hv v hvv y (by simp [hy])
      · simp only [List.mem_singleton] at hvv
        subst hvv
        exact hp.1 y hy) hp.2 (fun y hy => hc y (by simp [hy]))
    refine ⟨t, ?_, ?_⟩
    · rw [List.map_cons, List.flatten_cons, execs_append, e1]; exact e
    · simpa using ha

/-! #### Channels -/

theorem find_last {s : State} {es : List Edg} {e : Edg} {k : Nat} (hs : s.edges = es ++ [e]) (hk : e.key = k)
    (hn : ∀ x ∈ es, x.key ≠ k) : edge s k = some e := edge_last hs hk hn

theorem modE_last {s : State} {es : List Edg} {e : Edg} {vs n a} (h : At s vs (es ++ [e]) n a) {k : Nat} (hk : e.key = k)
    (hn : ∀ x ∈ es, x.key ≠ k) (f : Edg → Edg) :
    ∃ t, modE s k f = some t ∧ At t vs (es ++ [f e]) n a := by
  unfold modE
  rw [if_pos (by rw [h.edges]; simp [hk])]
  refine ⟨_, rfl, h.verts, ?_, h.next, h.auto, h.writable⟩
  show s.edges.map _ = _
  rw [h.edges, map_last hk hn]

theorem at_reset {s : State} {vs es n a} (h : At s vs es n a) : At (reset s) vs es n a :=
  ⟨h.verts, h.edges, h.next, h.auto, rfl⟩

theorem modify_same {vs : List Vtx} {v : Nat} {x : Vtx} {f : Vtx → Vtx} (hx : vs[v]? = some x) (hf : f x = x) :
    vs.modify v f = vs := by
  apply List.ext_getElem?
  intro i
  rw [List.getElem?_modify]
  by_cases hi : v = i
  · subst hi; rw [hx]; simp [hf]
  · simp [hi]

theorem at_same {s : State} {vs es n a} (h : At s vs es n a) {v : Nat} {x : Vtx} {f : Vtx → Vtx} (hx : vs[v]? = some x)
    (hf : f x = x) : ∃ t, modV (reset s) v f = some t ∧ At t vs es n a := by
  unfold modV
  have hlt : v < vs.length := (List.getElem?_eq_some_iff.mp hx).1
  rw [if_pos (by show v < s.verts.length; rw [h.verts]; exact hlt)]
  refine ⟨_, rfl, ?_, h.edges, h.next, h.auto, rfl⟩
  show s.verts.modify v f = vs
  rw [h.verts, modify_same hx hf]

theorem at_addEdge {s : State} {vs es n a} (h : At s vs es n a) (hu : ∀ (i j : Nat) (x y : Vtx), vs[i]? = some x →
      vs[j]? = some y → x.id = y.id → i = j) {i j : Nat} {v w : Vtx} (hv : vs[i]? = some v) (hw : vs[j]? = some w)
    (hlt : ∀ e ∈ es, e.id < a) (ha : 0 < a) (hkey : ∀ e ∈ es, e.key ≠ n) :
    ∃ t, exec s (.addEdge v.id w.id) = some t ∧
      At t vs (es ++ [⟨n, i, j, a, "", [], [], 0, 0, 0, [], []⟩]) (n + 1) (a + 1) := by
  have hfind : ∀ (i : Nat) (v : Vtx), vs[i]? = some v → vertexById s v.id = some i := by
    intro i v hv
    unfold vertexById
    rw [h.verts]
    cases hf : vs.findIdx? (fun x => x.id == v.id) with
    | none =>
      rw [List.findIdx?_eq_none_iff] at hf
      have := hf v (List.mem_of_getElem? hv)
      simp at this
    | some m =>
      obtain ⟨⟨y, hy, hp⟩, -⟩ := findIdx_some hf
      simp only [beq_iff_eq] at hp
      rw [hu m i y v hy hv hp]
  show ∃ t, (vertexById s v.id).bind (fun x => (vertexById s w.id).bind fun y => DF.addEdge s x y) = some t ∧ _
  rw [hfind i v hv, hfind j w hw]
  simp only [Option.bind_some]
  have hnum : s.edges.foldl (fun m e => if e.id ≥ m then e.id + 1 else m) s.autoE = a := by
    rw [h.edges, h.auto]
    have : ∀ l : List Edg, (∀ e ∈ l, e.id < a) → l.foldl (fun m e => if e.id ≥ m then e.id + 1 else m) a = a := by
      intro l
      induction l with
      | nil => intro _; rfl
      | cons e l ih =>
        intro hl
        rw [List.foldl_cons, if_neg (by have := hl e (by simp); omega)]
        exact ih fun x hx => hl x (by simp [hx])
    exact this es hlt
  unfold DF.addEdge
  simp only [hnum]
  unfold addEdgeUnsafe
  rw [edit_ok (by exact h.writable)]
  simp only [Option.bind_eq_bind, Option.bind_some]
  have hi : i < vs.length := (List.getElem?_eq_some_iff.mp hv).1
  have hj : j < vs.length := (List.getElem?_eq_some_iff.mp hw).1
  rw [if_pos (by show i < s.verts.length ∧ j < s.verts.length; rw [h.verts]; exact ⟨hi, hj⟩)]
  unfold setEdgeId
  rw [edit_ok (by rfl)]
  simp only [Option.bind_eq_bind, Option.bind_some]
  rw [if_pos ha]
  have hnone : edgeById (reset { reset { s with autoE := a } with
      edges := (reset { s with autoE := a }).edges ++
        [⟨(reset { s with autoE := a }).nextKey, i, j, 0, "", [], [], 0, 0, 0, [], []⟩],
      nextKey := (reset { s with autoE := a }).nextKey + 1 }) a = none := by
    unfold edgeById
    rw [Option.map_eq_none_iff, List.find?_eq_none]
    intro e he
    have he : e ∈ s.edges ++ [⟨s.nextKey, i, j, 0, "", [], [], 0, 0, 0, [], []⟩] := he
    rw [h.edges] at he
    rcases List.mem_append.mp he with he | he
    · have := hlt e he
      simp; omega
    · simp only [List.mem_singleton] at he
      subst he
      simp; omega
  rw [hnone]
  dsimp only
  have hat : At (reset { reset { s with autoE := a } with
      edges := (reset { s with autoE := a }).edges ++
        [⟨(reset { s with autoE := a }).nextKey, i, j, 0, "", [], [], 0, 0, 0, [], []⟩],
      nextKey := (reset { s with autoE := a }).nextKey + 1 }) vs
      (es ++ [⟨n, i, j, 0, "", [], [], 0, 0, 0, [], []⟩]) (n + 1) a := by
    refine ⟨h.verts, ?_, ?_, rfl, rfl⟩
    · show s.edges ++ [⟨s.nextKey, i, j, 0, "", [], [], 0, 0, 0, [], []⟩] = _
      rw [h.edges, h.next]
    · show s.nextKey + 1 = n + 1
      rw [h.next]
  have hn' : (reset { s with autoE := a }).nextKey = n := h.next
  obtain ⟨t, e1, a1⟩ := modE_last hat (k := n) rfl hkey (fun x => { x with id := a })
  rw [hn'] at *
  rw [e1]
  refine ⟨_, rfl, a1.verts, a1.edges, a1.next, ?_, a1.writable⟩
  show max t.autoE (a + 1) = a + 1
  rw [a1.auto]; omega

theorem key_last {s : State} {vs es n a} (h : At s vs es (n + 1) a) : s.nextKey - 1 = n := by rw [h.next]; simp

theorem at_setEdgeIIn {s : State} {vs} {es : List Edg} {e : Edg} {n : Nat} {a} (h : At s vs (es ++ [e]) (n + 1) a)
    (hk : e.key = n) (hn : ∀ x ∈ es, x.key ≠ n) {l : List Int} {v : Vtx} (hv : vs[e.src]? = some v)
    (hl : v.iphases = l.length) :
    ∃ t, exec s (.setEdgeInInitPhases l) = some t ∧ At t vs (es ++ [{ e with iins := l }]) (n + 1) a := by
  show ∃ t, DF.setEdgeIIn s (s.nextKey - 1) l = some t ∧ _
  rw [key_last h]
  unfold setEdgeIIn
  rw [edit_ok h.writable]
  obtain ⟨t, e1, a1⟩ := modE_last (at_reset h) hk hn (fun x => { x with iins := l })
  have hv1 : t.verts[e.src]? = some v := by rw [a1.verts]; exact hv
  simp only [Option.bind_eq_bind, Option.bind_some, e1, edge_last a1.edges hk hn, hv1]
  rw [if_neg (by rintro ⟨-, h2⟩; exact h2 hl)]
  unfold setIPhases
  rw [edit_ok a1.writable]
  exact at_same a1 hv (f := fun x => { x with iphases := l.length }) (by rw [← hl])

theorem at_setEdgeIOut {s : State} {vs} {es : List Edg} {e : Edg} {n : Nat} {a} (h : At s vs (es ++ [e]) (n + 1) a)
    (hk : e.key = n) (hn : ∀ x ∈ es, x.key ≠ n) {l : List Int} {v : Vtx} (hv : vs[e.tgt]? = some v)
    (hl : v.iphases = l.length) :
    ∃ t, exec s (.setEdgeOutInitPhases l) = some t ∧ At t vs (es ++ [{ e with iouts := l }]) (n + 1) a := by
  show ∃ t, DF.setEdgeIOut s (s.nextKey - 1) l = some t ∧ _
  rw [key_last h]
  unfold setEdgeIOut
  rw [edit_ok h.writable]
  obtain ⟨t, e1, a1⟩ := modE_last (at_reset h) hk hn (fun x => { x with iouts := l })
  have hv1 : t.verts[e.tgt]? = some v := by rw [a1.verts]; exact hv
  simp only [Option.bind_eq_bind, Option.bind_some, e1, edge_last a1.edges hk hn, hv1]
  rw [if_neg (by rintro ⟨-, h2⟩; exact h2 hl)]
  unfold setIPhases
  rw [edit_ok a1.writable]
  exact at_same a1 hv (f := fun x => { x with iphases := l.length }) (by rw [← hl])

theorem at_setEdgeIn {s : State} {vs} {es : List Edg} {e : Edg} {n : Nat} {a} (h : At s vs (es ++ [e]) (n + 1) a)
    (hk : e.key = n) (hn : ∀ x ∈ es, x.key ≠ n) {l : List Int} {v : Vtx} (hv : vs[e.src]? = some v)
    (hl : v.phases = l.length) :
    ∃ t, exec s (.setEdgeInPhases l) = some t ∧ At t vs (es ++ [{ e with ins := l, totIn := intSum l }]) (n + 1) a := by
  show ∃ t, DF.setEdgeIn s (s.nextKey - 1) l = some t ∧ _
  rw [key_last h]
  unfold setEdgeIn
  rw [edit_ok h.writable]
  obtain ⟨t, e1, a1⟩ := modE_last (at_reset h) hk hn (fun x => { x with ins := l, totIn := intSum l })
  have hv1 : t.verts[e.src]? = some v := by rw [a1.verts]; exact hv
  simp only [Option.bind_eq_bind, Option.bind_some, e1, edge_last a1.edges hk hn, hv1]
  rw [if_neg (by rintro ⟨-, h2⟩; exact h2 hl)]
  unfold setPhases
  rw [edit_ok a1.writable]
  exact at_same a1 hv (f := fun x => { x with phases := l.length }) (by rw [← hl])

theorem at_setEdgeOut {s : State} {vs} {es : List Edg} {e : Edg} {n : Nat} {a} (h : At s vs (es ++ [e]) (n + 1) a)
    (hk : e.key = n) (hn : ∀ x ∈ es, x.key ≠ n) {l : List Int} {v : Vtx} (hv : vs[e.tgt]? = some v)
    (hl : v.phases = l.length) :
    ∃ t, exec s (.setEdgeOutPhases l) = some t ∧ At t vs (es ++ [{ e with outs := l, totOut := intSum l }]) (n + 1) a := by
  show ∃ t, DF.setEdgeOut s (s.nextKey - 1) l = some t ∧ _
  rw [key_last h]
  unfold setEdgeOut
  rw [edit_ok h.writable]
  obtain ⟨t, e1, a1⟩ := modE_last (at_reset h) hk hn (fun x => { x with outs := l, totOut := intSum l })
  have hv1 : t.verts[e.tgt]? = some v := by rw [a1.verts]; exact hv
  simp only [Option.bind_eq_bind, Option.bind_some, e1, edge_last a1.edges hk hn, hv1]
  rw [if_neg (by rintro ⟨-, h2⟩; exact h2 hl)]
  unfold setPhases
  rw [edit_ok a1.writable]
  exact at_same a1 hv (f := fun x => { x with phases := l.length }) (by rw [← hl])

theorem at_setPreload {s : State} {vs} {es : List Edg} {e : Edg} {n : Nat} {a} (h : At s vs (es ++ [e]) (n + 1) a)
    (hk : e.key = n) (hn : ∀ x ∈ es, x.key ≠ n) {p : Int} :
    ∃ t, exec s (.setPreload p) = some t ∧ At t vs (es ++ [{ e with preload := p }]) (n + 1) a := by
  show ∃ t, DF.setPreload s (s.nextKey - 1) p = some t ∧ _
  rw [key_last h]
  unfold setPreload
  rw [h.writable, if_neg (by simp)]
  exact modE_last h hk hn _

theorem at_setEdgeName {s : State} {vs} {es : List Edg} {e : Edg} {n : Nat} {a} (h : At s vs (es ++ [e]) (n + 1) a)
    (hk : e.key = n) (hn : ∀ x ∈ es, x.key ≠ n) {nm : String} (hne : nm ≠ "") (hx : ∀ x ∈ es, x.name ≠ nm) :
    ∃ t, exec s (.setEdgeName nm) = some t ∧ At t vs (es ++ [{ e with name := nm }]) (n + 1) a := by
  show ∃ t, DF.setEdgeName s (s.nextKey - 1) nm = some t ∧ _
  rw [key_last h]
  unfold setEdgeName
  rw [edit_ok h.writable]
  simp only [Option.bind_eq_bind, Option.bind_some]
  rw [if_neg hne]
  have hlook : edgeByName (reset s) nm = none ∨ edgeByName (reset s) nm = some n := by
    unfold edgeByName
    show (s.edges.find? _).map _ = _ ∨ (s.edges.find? _).map _ = _
    rw [h.edges, List.find?_append, List.find?_eq_none.2 (fun x hx' => by simpa using hx x hx')]
    by_cases hz : e.name = nm
    · right; simp [hz, hk]
    · left; simp [hz]
  rcases hlook with hl | hl
  · rw [hl]
    exact modE_last (at_reset h) hk hn _
  · rw [hl]
    dsimp only
    rw [if_pos rfl]
    exact modE_last (at_reset h) hk hn _

theorem at_eBlock {s : State} {vs es n a} (h : At s vs es n a) (hu : ∀ (i j : Nat) (x y : Vtx), vs[i]? = some x →
      vs[j]? = some y → x.id = y.id → i = j) {e : Edg} {v w : Vtx} (hv : vs[e.src]? = some v) (hw : vs[e.tgt]? = some w)
    (hlt : ∀ e ∈ es, e.id < a) (ha : 0 < a) (hkey : ∀ e ∈ es, e.key ≠ n)
    (h1 : v.phases = e.ins.length ∧ v.iphases = e.iins.length) (h2 : w.phases = e.outs.length ∧ w.iphases = e.iouts.length)
    (hne : e.name ≠ "") (hx : ∀ x ∈ es, x.name ≠ e.name) (ht : e.totIn = intSum e.ins ∧ e.totOut = intSum e.outs) :
    ∃ t, execs s (eBlock v w e) = some t ∧ At t vs (es ++ [{ e with key := n, id := a }]) (n + 1) (a + 1) := by
  have nil_of : ∀ l : List Int, ¬ ((l.length : Int) ≠ 0) → l = [] := by
    intro l hl
    push Not at hl
    exact List.length_eq_zero_iff.mp (by omega)
  obtain ⟨t1, e1, a1⟩ := at_addEdge h hu hv hw hlt ha hkey
  -- the initial rates
  obtain ⟨t2, e2, a2⟩ : ∃ t2, execs t1 (if v.iphases ≠ 0 then [Stmt.setEdgeInInitPhases e.iins] else []) = some t2 ∧
      At t2 vs (es ++ [⟨n, e.src, e.tgt, a, "", [], [], 0, 0, 0, e.iins, []⟩]) (n + 1) (a + 1) := by
    by_cases hi : v.iphases ≠ 0
    · obtain ⟨t2, e2, a2⟩ := at_setEdgeIIn a1 rfl hkey hv h1.2
      rw [if_pos hi]
      exact ⟨t2, by simp [execs, e2], a2⟩
    · rw [if_neg hi]
      refine ⟨t1, rfl, ?_⟩
      rw [h1.2] at hi
      rw [nil_of _ hi]; exact a1
  obtain ⟨t3, e3, a3⟩ : ∃ t3, execs t2 (if w.iphases ≠ 0 then [Stmt.setEdgeOutInitPhases e.iouts] else []) = some t3 ∧
      At t3 vs (es ++ [⟨n, e.src, e.tgt, a, "", [], [], 0, 0, 0, e.iins, e.iouts⟩]) (n + 1) (a + 1) := by
    by_cases hi : w.iphases ≠ 0
    · obtain ⟨t3, e3, a3⟩ := at_setEdgeIOut a2 rfl hkey hw h2.2
      rw [if_pos hi]
      exact ⟨t3, by simp [execs, e3], a3⟩
    · rw [if_neg hi]
      refine ⟨t2, rfl, ?_⟩
      rw [h2.2] at hi
      rw [nil_of _ hi]; exact a2
  obtain ⟨t4, e4, a4⟩ := at_setEdgeIn a3 rfl hkey hv h1.1
  obtain ⟨t5, e5, a5⟩ := at_setEdgeOut a4 rfl hkey hw h2.1
  obtain ⟨t6, e6, a6⟩ := at_setPreload (p := e.preload) a5 rfl hkey
  obtain ⟨t7, e7, a7⟩ := at_setEdgeName a6 rfl hkey hne hx
  refine ⟨t7, ?_, ?_⟩
  · unfold eBlock
    rw [execs_append, execs_append, execs_append]
    have : execs s [Stmt.addEdge v.id w.id] = some t1 := by simp [execs, e1]
    rw [this, Option.bind_some, e2, Option.bind_some, e3, Option.bind_some]
    simp only [execs, e4, e5, e6, e7, Option.bind_some]
  · have : ({ e with key := n, id := a } : Edg) = ⟨n, e.src, e.tgt, a, e.name, e.ins, e.outs, intSum e.ins, intSum e.outs,
        e.preload, e.iins, e.iouts⟩ := by rw [← ht.1, ← ht.2]
    rw [this]; exact a7

/-- The list of statements for a list of channels. -/
def eBlocks (vs : List Vtx) (l : List Edg) : List Stmt :=
  (l.map fun e => match vs[e.src]?, vs[e.tgt]? with
    | some v, some w => eBlock v w e
    | _, _ => []).flatten

theorem at_eBlocks (vs : List Vtx) (hu : ∀ (i j : Nat) (x y : Vtx), vs[i]? = some x → vs[j]? = some y → x.id = y.id → i = j)
    (l : List Edg) : ∀ {s : State} {es : List Edg} {n : Nat}, At s vs es n ((n : Int) + 1) →
    (∀ e ∈ es, e.id < (n : Int) + 1) → (∀ e ∈ es, e.key < n) →
    (∀ e ∈ es, ∀ f ∈ l, e.name ≠ f.name) → l.Pairwise (fun e f => e.name ≠ f.name) →
    (∀ e ∈ l, ∃ v w, vs[e.src]? = some v ∧ vs[e.tgt]? = some w ∧ (v.phases = e.ins.length ∧ v.iphases = e.iins.length) ∧
      (w.phases = e.outs.length ∧ w.iphases = e.iouts.length) ∧ e.name ≠ "" ∧
      e.totIn = intSum e.ins ∧ e.totOut = intSum e.outs) →
    ∃ t, execs s (eBlocks vs l) = some t ∧
      t.verts = vs ∧ t.edges = es ++ (l.zipIdx n).map fun p => { p.1 with key := p.2, id := (p.2 : Int) + 1 } := by
  induction l with
  | nil => intro s es n h _ _ _ _ _; exact ⟨s, rfl, h.verts, by simpa using h.edges⟩
  | cons e l ih =>
    intro s es n h hlt hkey hnm hp hc
    obtain ⟨v, w, hv, hw, h1, h2, hne, ht⟩ := hc e (by simp)
    rw [List.pairwise_cons] at hp
    obtain ⟨t1, e1, a1⟩ := at_eBlock h hu hv hw hlt (by omega) (fun x hx => (hkey x hx).ne) h1 h2 hne
      (fun x hx => hnm x hx e (by simp)) ht
    have a1' : At t1 vs (es ++ [{ e with key := n, id := (n : Int) + 1 }]) (n + 1) (((n + 1 : Nat) : Int) + 1) := by
      push_cast; exact a1
    obtain ⟨t, e2, hvs, hes⟩ := ih a1' (by
      intro x hx
      push_cast
      rcases List.mem_append.mp hx with hx | hx
      · have := hlt x hx; omega
      · simp only [List.mem_singleton] at hx; subst hx; show (n : Int) + 1 < _; omega) (by
      intro x hx
      rcases List.mem_append.mp hx with hx | hx
      · have := hkey x hx; omega
      · simp only [List.mem_singleton] at hx; subst hx; show n < _; omega) (by
      intro x hx f hf
      rcases List.mem_append.mp hx with hx | hx
      · exact hnm x hx f (by simp [hf])
      · simp only [List.mem_singleton] at hx; subst hx; exact hp.1 f hf) hp.2 (fun x hx => hc x (by simp [hx]))
    refine ⟨t, ?_, hvs, ?_⟩
    · show execs s (List.flatten _) = _
      rw [List.map_cons, List.flatten_cons, execs_append, hv, hw]
      dsimp only
      rw [e1]; exact e2
    · rw [hes, List.zipIdx_cons]; simp

theorem pairwise_of_index {α : Type} {l : List α} {R : α → α → Prop}
    (h : ∀ (i j : Nat) (a b : α), i < j → l[i]? = some a → l[j]? = some b → R a b) : l.Pairwise R := by
  rw [List.pairwise_iff_getElem]
  intro i j hi hj hij
  exact h i j _ _ hij (List.getElem?_eq_getElem hi) (List.getElem?_eq_getElem hj)

/-- C107. Take any graph that the library can build, complete, with the tasks in the order of their ids. `PrintKiter`
prints a function for it; when the statements of that function run, none of their checks fails, and the graph they build
has the tasks and the channels of the original.

Missing for the full property: the printed function does not return the graph (`C107_no_return_counterexample`), and for
tasks that are not in the order of their ids it stops (`C107_order_counterexample`). -/
theorem _root_.Kiter.C107_rebuild_partial {ops : List Op} {s : State} (h : calls empty ops = some s) (hc : Complete s)
    (hid : s.verts.Pairwise fun x y => x.id < y.id) :
    ∃ p t, generate s = some p ∧ execs empty p = some t ∧ SameTasks s t ∧ SameChannels s t := by
  have hi : Inv s := inv_calls inv_empty h
  have hgen : generate s = some ((s.verts.map vBlock).flatten ++ eBlocks s.verts s.edges) := by
    unfold generate
    rw [mapM_all vertexStmts vBlock s.verts fun x hx => vertexStmts_eq (hc.durs x hx) (hc.idurs x hx)]
    rw [mapM_all (edgeStmts s) (fun e => match s.verts[e.src]?, s.verts[e.tgt]? with
      | some v, some w => eBlock v w e
      | _, _ => []) s.edges (by
        intro e he
        obtain ⟨hs, ht⟩ := hi.ends e he
        have hv := List.getElem?_eq_getElem hs
        have hw := List.getElem?_eq_getElem ht
        rw [edgeStmts_eq hv hw (hc.ins e he _ hv) (hc.outs e he _ hw), hv, hw])]
    rfl
  have a0 : At empty [] [] 0 1 := ⟨rfl, rfl, rfl, rfl, rfl⟩
  obtain ⟨t1, e1, a1⟩ := at_vBlocks s.verts a0 (by simp) (by
    apply pairwise_of_index
    intro i j x y hij hx hy
    refine ⟨?_, fun hn => ?_⟩
    · rw [List.pairwise_iff_getElem] at hid
      obtain ⟨hi', rfl⟩ := List.getElem?_eq_some_iff.mp hx
      obtain ⟨hj', rfl⟩ := List.getElem?_eq_some_iff.mp hy
      exact hid i j hi' hj' hij
    · have := hi.vname i j x y hx hy hn (hc.vname x (List.mem_of_getElem? hx))
      omega) fun x hx => ⟨hc.vname x hx, hc.durs x hx, hc.idurs x hx⟩
  rw [List.nil_append] at a1
  have hget : ∀ (i : Nat) (v : Vtx), s.verts[i]? = some v →
      (s.verts.map fun x => ({ x with ni := 0 } : Vtx))[i]? = some { v with ni := 0 } := by
    intro i v hv; rw [List.getElem?_map, hv]; rfl
  obtain ⟨t, e2, hvs, hes⟩ := at_eBlocks (s.verts.map fun x => ({ x with ni := 0 } : Vtx)) (by
      intro i j x y hx hy hxy
      rw [List.getElem?_map] at hx hy
      obtain ⟨x', hx', rfl⟩ := Option.map_eq_some_iff.mp hx
      obtain ⟨y', hy', rfl⟩ := Option.map_eq_some_iff.mp hy
      exact hi.vid i j x' y' hx' hy' hxy) s.edges (s := t1) (es := []) (n := 0) (by simpa using a1) (by simp) (by simp) (by simp) (by
      apply pairwise_of_index
      intro i j e f hij he hf hn
      have hk := hi.ename e (List.mem_of_getElem? he) f (List.mem_of_getElem? hf) hn (hc.ename e (List.mem_of_getElem? he))
      have hnd := hi.keys
      rw [List.nodup_iff_pairwise_ne, List.pairwise_map, List.pairwise_iff_getElem] at hnd
      obtain ⟨hi', rfl⟩ := List.getElem?_eq_some_iff.mp he
      obtain ⟨hj', rfl⟩ := List.getElem?_eq_some_iff.mp hf
      exact hnd i j hi' hj' hij hk) (by
      intro e he
      obtain ⟨hs, ht⟩ := hi.ends e he
      have hv := List.getElem?_eq_getElem hs
      have hw := List.getElem?_eq_getElem ht
      have h1 := hc.ins e he _ hv
      have h2 := hc.outs e he _ hw
      exact ⟨_, _, hget _ _ hv, hget _ _ hw, h1, h2, hc.ename e he, hi.totals e he⟩)
  have hsame : eBlocks (s.verts.map fun x => ({ x with ni := 0 } : Vtx)) s.edges = eBlocks s.verts s.edges := by
    unfold eBlocks
    congr 1
    apply List.map_congr_left
    intro e he
    obtain ⟨hs, ht⟩ := hi.ends e he
    have hv := List.getElem?_eq_getElem hs
    have hw := List.getElem?_eq_getElem ht
    rw [hget _ _ hv, hget _ _ hw, hv, hw]; rfl
  refine ⟨_, t, hgen, ?_, ?_, ?_⟩
  · rw [execs_append, e1, Option.bind_some, ← hsame]; exact e2
  · exact hvs
  · rw [List.nil_append] at hes; exact hes

/-- The printed function never returns the graph it has built: no text has a `return` statement, so the value of every call
of the function is undefined. -/
theorem _root_.Kiter.C107_no_return_counterexample (s : State) (p : List Stmt) (h : generate s = some p) : Stmt.ret ∉ p := by
  have mem : ∀ {α β : Type} (f : α → Option β) (l : List α) (r : List β), l.mapM f = some r → ∀ b ∈ r, ∃ a ∈ l, f a = some b := by
    intro α β f l
    induction l with
    | nil => intro r hr b hb; cases hr; simp at hb
    | cons a l ih =>
      intro r hr b hb
      rw [List.mapM_cons] at hr
      obtain ⟨y, hy, hr⟩ := Option.bind_eq_some_iff.mp hr
      obtain ⟨ys, hys, hr⟩ := Option.bind_eq_some_iff.mp hr
      cases hr
      rcases List.mem_cons.mp hb with rfl | hb
      · exact ⟨a, by simp, hy⟩
      · obtain ⟨c, hc, hf⟩ := ih ys hys b hb
        exact ⟨c, by simp [hc], hf⟩
  unfold generate at h
  obtain ⟨vs, hvs, h⟩ := Option.bind_eq_some_iff.mp h
  obtain ⟨es, hes, h⟩ := Option.bind_eq_some_iff.mp h
  cases h
  rw [List.mem_append, List.mem_flatten, List.mem_flatten]
  rintro (⟨b, hb, hr⟩ | ⟨b, hb, hr⟩)
  · obtain ⟨x, -, hx⟩ := mem _ _ _ hvs b hb
    unfold vertexStmts at hx
    obtain ⟨i, hi, hx⟩ := Option.bind_eq_some_iff.mp hx
    obtain ⟨d, -, hx⟩ := Option.bind_eq_some_iff.mp hx
    cases hx
    rcases printed_mem hi with rfl | ⟨l, rfl⟩ <;> simp at hr
  · obtain ⟨e, -, hx⟩ := mem _ _ _ hes b hb
    unfold edgeStmts at hx
    obtain ⟨v, -, hx⟩ := Option.bind_eq_some_iff.mp hx
    obtain ⟨w, -, hx⟩ := Option.bind_eq_some_iff.mp hx
    obtain ⟨l1, -, hx⟩ := Option.bind_eq_some_iff.mp hx
    obtain ⟨l2, -, hx⟩ := Option.bind_eq_some_iff.mp hx
    obtain ⟨i1, hi1, hx⟩ := Option.bind_eq_some_iff.mp hx
    obtain ⟨i2, hi2, hx⟩ := Option.bind_eq_some_iff.mp hx
    cases hx
    rcases printed_mem hi1 with rfl | ⟨l, rfl⟩ <;> rcases printed_mem hi2 with rfl | ⟨l', rfl⟩ <;> simp at hr

/-! ### The hypotheses are met, and needed -/

/-- A producer with an initial phase and two phases, a consumer with one phase, two channels. -/
def exampleOps : List Op :=
  [.addVertexIdName 3 "a", .addVertexIdName 8 "b", .setPhases 0 2, .setIPhases 0 1, .setPhases 1 1, .setDurs 0 [2, 5/2],
    .setIDurs 0 [1], .setDurs 1 [4], .addEdgeIdName 0 1 7 "x", .addEdgeIdName 1 0 2 "y", .setEdgeIn 0 [1, 2],
    .setEdgeIIn 0 [3], .setEdgeOut 0 [3], .setEdgeIn 1 [3], .setEdgeOut 1 [2, 1], .setEdgeIOut 1 [0], .setPreload 1 6]

instance (s : State) : Decidable (Complete s) :=
  decidable_of_iff ((∀ v ∈ s.verts, v.name ≠ "" ∧ v.phases = v.durs.length ∧ v.iphases = v.idurs.length) ∧
    (∀ e ∈ s.edges, e.name ≠ "") ∧
    (∀ e ∈ s.edges, ∀ v ∈ s.verts[e.src]?, v.phases = e.ins.length ∧ v.iphases = e.iins.length) ∧
    (∀ e ∈ s.edges, ∀ v ∈ s.verts[e.tgt]?, v.phases = e.outs.length ∧ v.iphases = e.iouts.length))
    ⟨fun ⟨a, b, c, d⟩ => ⟨fun v hv => (a v hv).1, fun v hv => (a v hv).2.1, fun v hv => (a v hv).2.2, b, c, d⟩,
      fun h => ⟨fun v hv => ⟨h.vname v hv, h.durs v hv, h.idurs v hv⟩, h.ename, h.ins, h.outs⟩⟩

example : ∃ s, calls empty exampleOps = some s ∧ Complete s ∧ (s.verts.Pairwise fun x y => x.id < y.id) ∧
    s.verts.length = 2 ∧ s.edges.length = 2 := by
  refine ⟨(calls empty exampleOps).get (by decide +kernel), by simp, ?_, ?_, ?_, ?_⟩ <;> decide +kernel

/-- Two tasks, the second with a smaller id. -/
def unorderedOps : List Op :=
  [.addVertexIdName 3 "a", .addVertexIdName 8 "b", .setVertexId 1 1, .setPhases 0 1, .setPhases 1 1, .setDurs 0 [1],
    .setDurs 1 [1]]

/-- A complete graph whose tasks are not in the order of their ids: the printed statements stop with a failure. -/
theorem _root_.Kiter.C107_order_counterexample : ∃ s p, calls empty unorderedOps = some s ∧ Complete s ∧ generate s = some p ∧
    execs empty p = none := by
  refine ⟨(calls empty unorderedOps).get (by decide +kernel),
    ((calls empty unorderedOps).bind generate).get (by decide +kernel), by simp, ?_, ?_, ?_⟩
  · decide +kernel
  · decide +kernel
  · decide +kernel

end Kiter.PK
