/-
The steps of the random generator.
-/
import Verif.Spec.RandomGenerator
import Verif.Lemmas.DataflowEffect
import Mathlib.Tactic.Linarith

set_option autoImplicit false

namespace Kiter.Gen

open DF

theorem step {α β : Type} {x : M α} {f : α → M β} {i : Nat} {a : α} {j : Nat} (h : x i = some (a, j)) : (x >>= f) i = f a j := by
  show (x i).bind _ = _
  rw [h]
  rfl

theorem step_none {α β : Type} {x : M α} {f : α → M β} {i : Nat} (h : x i = none) : (x >>= f) i = none := by
  show (x i).bind _ = _
  rw [h]
  rfl

theorem stepO {α β : Type} {o : Option α} {f : α → M β} {i : Nat} {a : α} (h : o = some a) :
    ((liftM o : M α) >>= f) i = f a i := by
  subst h; rfl

theorem lastO {α : Type} {o : Option α} {i : Nat} {a : α} (h : o = some a) : (liftM o : M α) i = some (a, i) := by
  subst h; rfl

/-! ### Draws -/

theorem draw_ok (r : Nat → Nat) {a b : Int} (h : a ≤ b) (i : Nat) : ∃ x, draw r a b i = some (x, i + 1) ∧ a ≤ x ∧ x ≤ b := by
  refine ⟨_, by unfold draw; rw [if_pos h], ?_, ?_⟩
  · have := Int.emod_nonneg (r i : Int) (show b - a + 1 ≠ 0 by omega)
    omega
  · have := Int.emod_lt_of_pos (r i : Int) (show 0 < b - a + 1 by omega)
    omega

theorem draws_ok (r : Nat → Nat) {a b : Int} (h : a ≤ b) (n i : Nat) :
    ∃ l, draws r a b n i = some (l, i + n) ∧ l.length = n ∧ ∀ x ∈ l, a ≤ x ∧ x ≤ b := by
  induction n generalizing i with
  | zero => exact ⟨[], rfl, rfl, by simp⟩
  | succ n ih =>
    obtain ⟨x, h1, h2, h3⟩ := draw_ok r h i
    obtain ⟨l, h4, h5, h6⟩ := ih (i + 1)
    refine ⟨x :: l, ?_, by simp [h5], ?_⟩
    · show (draw r a b i).bind _ = _
      rw [h1]
      show (draws r a b n (i + 1)).bind _ = _
      rw [h4]
      show some (x :: l, i + 1 + n) = _
      rw [show i + 1 + n = i + (n + 1) by omega]
    · intro y hy
      rcases List.mem_cons.1 hy with rfl | hy
      · exact ⟨h2, h3⟩
      · exact h6 y hy

theorem diffs_spec (l : List Int) (c : Int) (hs : (c :: l).Pairwise (· ≤ ·)) :
    (diffs c l).length = l.length ∧ (∀ x ∈ diffs c l, 0 ≤ x) ∧ (diffs c l).sum = (c :: l).getLast (by simp) - c := by
  induction l generalizing c with
  | nil => simp [diffs]
  | cons x l ih =>
    rw [List.pairwise_cons] at hs
    have hx : c ≤ x := hs.1 x (by simp)
    have e : c + (x - c) = x := by ring
    obtain ⟨h1, h2, h3⟩ := ih x hs.2
    unfold diffs
    rw [e]
    refine ⟨by simp [h1], ?_, ?_⟩
    · intro y hy
      rcases List.mem_cons.1 hy with rfl | hy
      · omega
      · exact h2 y hy
    · rw [List.sum_cons, h3, List.getLast_cons_cons]
      ring

theorem diffs_take (l : List Int) (c : Int) (n : Nat) : diffs c (l.take n) = (diffs c l).take n := by
  induction l generalizing c n with
  | nil => simp [diffs]
  | cons x l ih =>
    cases n with
    | zero => rfl
    | succ n => simp [diffs, ih]

/-- The rates made of the sections: as many as phases, none negative, with the intended total. -/
theorem sections_ok (r : Nat → Nat) {w n : Int} (hw : 0 ≤ w) (i : Nat) :
    ∃ sec j, sections r w n i = some (sec, j) ∧ (rates sec n).length = n.toNat ∧ (∀ x ∈ rates sec n, 0 ≤ x) ∧
      (0 < n → (rates sec n).sum = w) := by
  obtain ⟨l, h1, h2, h3⟩ := draws_ok r hw (n - 1).toNat i
  refine ⟨(l ++ [w]).insertionSort (· ≤ ·), i + (n - 1).toNat, ?_, ?_⟩
  · show (draws r 0 w (n - 1).toNat i).bind _ = _
    rw [h1]
    rfl
  have hsort := List.pairwise_insertionSort (· ≤ ·) (l ++ [w])
  have hperm := List.perm_insertionSort (· ≤ ·) (l ++ [w])
  generalize (l ++ [w]).insertionSort (· ≤ ·) = sec at hsort hperm
  have hmem : ∀ x ∈ sec, 0 ≤ x ∧ x ≤ w := by
    intro x hx
    rcases List.mem_append.1 (hperm.mem_iff.1 hx) with hx | hx
    · exact h3 x hx
    · simp only [List.mem_singleton] at hx; omega
  have hlen : sec.length = (n - 1).toNat + 1 := by rw [hperm.length_eq]; simp [h2]
  obtain ⟨d1, d2, d3⟩ := diffs_spec sec 0 (by
    rw [List.pairwise_cons]
    exact ⟨fun x hx => (hmem x hx).1, hsort⟩)
  unfold rates
  rw [diffs_take]
  refine ⟨?_, fun x hx => d2 x (List.mem_of_mem_take hx), ?_⟩
  · rw [List.length_take, d1, hlen]; omega
  · intro h0
    rw [List.take_of_length_le (by rw [d1, hlen]; omega), d3]
    have hne : sec ≠ [] := by intro h; rw [h] at hlen; simp at hlen
    rw [List.getLast_cons hne]
    have h4 : sec.getLast hne ≤ w := (hmem _ (List.getLast_mem hne)).2
    have h5 : w ≤ sec.getLast hne := by
      have hwm : w ∈ sec := hperm.mem_iff.2 (by simp)
      rw [← List.dropLast_append_getLast hne] at hwm hsort
      rcases List.mem_append.1 hwm with h | h
      · simpa using (List.pairwise_append.1 hsort).2.2 w h (sec.getLast hne) (by simp)
      · simp only [List.mem_singleton] at h; omega
    omega

/-! ### Calls on a writable graph -/

/-- A writable graph with nothing computed. -/
def mk (vs : List Vtx) (es : List Edg) (aV aE : Int) (k : Nat) : State := ⟨false, false, false, vs, es, aV, aE, [], k⟩

theorem modify_same {vs : List Vtx} {v : Nat} {x : Vtx} {f : Vtx → Vtx} (h : vs[v]? = some x) (hf : f x = x) :
    vs.modify v f = vs := by
  apply List.ext_getElem?
  intro i
  rw [List.getElem?_modify]
  by_cases hv : v = i
  · subst hv; rw [h]; simp [hf]
  · simp [hv]

theorem lt_of_get {vs : List Vtx} {v : Nat} {x : Vtx} (h : vs[v]? = some x) : v < vs.length := by
  by_contra hn
  rw [List.getElem?_eq_none (by omega)] at h
  cases h

theorem modV_mk {vs : List Vtx} {es : List Edg} {aV aE : Int} {k v : Nat} {f : Vtx → Vtx} (hv : v < vs.length) :
    modV (mk vs es aV aE k) v f = some (mk (vs.modify v f) es aV aE k) := by
  unfold modV
  rw [if_pos (show v < (mk vs es aV aE k).verts.length from hv)]
  rfl

theorem modE_mk {vs : List Vtx} {es : List Edg} {e : Edg} {aV aE : Int} {k key : Nat} {f : Edg → Edg} (hk : e.key = key)
    (hn : ∀ x ∈ es, x.key ≠ key) : modE (mk vs (es ++ [e]) aV aE k) key f = some (mk vs (es ++ [f e]) aV aE k) := by
  unfold modE
  rw [if_pos (show (mk vs (es ++ [e]) aV aE k).edges.any (fun e => e.key == key) = true by simp [mk, hk])]
  have := map_last (es := es) (e := e) (f := f) hk hn
  simp only [mk] at this ⊢
  rw [this]

theorem setIPhases_mk {vs : List Vtx} {x : Vtx} {es : List Edg} {aV aE : Int} {k : Nat} {n : Int} :
    setIPhases (mk (vs ++ [x]) es aV aE k) vs.length n = some (mk (vs ++ [{ x with iphases := n }]) es aV aE k) := by
  show modV (mk (vs ++ [x]) es aV aE k) vs.length _ = _
  rw [modV_mk (by simp), modify_last]

theorem setPhases_mk {vs : List Vtx} {x : Vtx} {es : List Edg} {aV aE : Int} {k : Nat} {n : Int} :
    setPhases (mk (vs ++ [x]) es aV aE k) vs.length n = some (mk (vs ++ [{ x with phases := n }]) es aV aE k) := by
  show modV (mk (vs ++ [x]) es aV aE k) vs.length _ = _
  rw [modV_mk (by simp), modify_last]

theorem setDurs_mk {vs : List Vtx} {x : Vtx} {es : List Edg} {aV aE : Int} {k : Nat} {l : List ℚ}
    (h : (l.length : Int) = x.phases) :
    setDurs (mk (vs ++ [x]) es aV aE k) vs.length l = some (mk (vs ++ [{ x with durs := l }]) es aV aE k) := by
  show ((vs ++ [x])[vs.length]?).bind _ = _
  rw [show (vs ++ [x])[vs.length]? = some x by simp]
  simp only [Option.bind_some]
  rw [if_pos h]
  show modV (mk (vs ++ [x]) es aV aE k) vs.length _ = _
  rw [modV_mk (by simp), modify_last]

theorem setIDurs_mk {vs : List Vtx} {x : Vtx} {es : List Edg} {aV aE : Int} {k : Nat} {l : List ℚ}
    (h : (l.length : Int) = x.iphases) :
    setIDurs (mk (vs ++ [x]) es aV aE k) vs.length l = some (mk (vs ++ [{ x with idurs := l }]) es aV aE k) := by
  show ((vs ++ [x])[vs.length]?).bind _ = _
  rw [show (vs ++ [x])[vs.length]? = some x by simp]
  simp only [Option.bind_some]
  rw [if_pos h]
  show modV (mk (vs ++ [x]) es aV aE k) vs.length _ = _
  rw [modV_mk (by simp), modify_last]

theorem setVertexName_mk {vs : List Vtx} {x : Vtx} {es : List Edg} {aV aE : Int} {k : Nat} {nm : String} (h0 : nm ≠ "")
    (hx : x.name ≠ nm) (hn : ∀ v ∈ vs, v.name ≠ nm) :
    setVertexName (mk (vs ++ [x]) es aV aE k) vs.length nm = some (mk (vs ++ [{ x with name := nm }]) es aV aE k) := by
  have h1 : vertexByName (mk (vs ++ [x]) es aV aE k) nm = none := by
    unfold vertexByName
    rw [List.findIdx?_eq_none_iff]
    intro v hv
    rcases List.mem_append.1 hv with hv | hv
    · simpa using hn v hv
    · simp only [List.mem_singleton] at hv
      subst hv; simpa using hx
  unfold setVertexName
  rw [show edit (mk (vs ++ [x]) es aV aE k) = some (mk (vs ++ [x]) es aV aE k) from rfl]
  simp only [Option.bind_eq_bind, Option.bind_some]
  rw [if_neg h0, h1]
  simp only
  rw [modV_mk (by simp), modify_last]

theorem addVertexId_mk {vs : List Vtx} {es : List Edg} {aV aE : Int} {k : Nat} {id : Int} (h0 : 0 < id)
    (hn : ∀ v ∈ vs, v.id < id) :
    addVertexId (mk vs es aV aE k) id = some (mk (vs ++ [⟨id, "", 0, 0, [], 0, []⟩]) es (max aV (id + 1)) aE k) := by
  unfold addVertexId
  rw [if_neg, addUnsafeVertex_eq rfl (fun v hv => (hn v hv).ne) h0.ne']
  · rfl
  · simp only [List.any_eq_true, decide_eq_true_eq, not_exists, not_and]
    intro v hv hle
    have := hn v hv
    omega

theorem addEdge_mk {vs : List Vtx} {es : List Edg} {aV aE : Int} {k a b : Nat} {id : Int} {nm : String} (h0 : 0 < id)
    (ha : a < vs.length) (hb : b < vs.length) (hid : ∀ e ∈ es, e.id ≠ id) (hk : ∀ e ∈ es, e.key < k)
    (hnm : nm ≠ "") (hne : ∀ e ∈ es, e.name ≠ nm) :
    namedE (addEdgeUnsafe (mk vs es aV aE k) a b id) nm =
      some (mk vs (es ++ [⟨k, a, b, id, nm, [], [], 0, 0, 0, [], []⟩]) aV (max aE (id + 1)) (k + 1)) := by
  rw [addEdgeUnsafe_eq rfl ha hb hid hk h0]
  show setEdgeName (mk vs (es ++ [⟨k, a, b, id, "", [], [], 0, 0, 0, [], []⟩]) aV (max aE (id + 1)) (k + 1)) k nm = _
  unfold setEdgeName
  rw [show edit (mk vs (es ++ [⟨k, a, b, id, "", [], [], 0, 0, 0, [], []⟩]) aV (max aE (id + 1)) (k + 1)) =
    some (mk vs (es ++ [⟨k, a, b, id, "", [], [], 0, 0, 0, [], []⟩]) aV (max aE (id + 1)) (k + 1)) from rfl]
  simp only [Option.bind_eq_bind, Option.bind_some]
  have h1 : edgeByName (mk vs (es ++ [⟨k, a, b, id, "", [], [], 0, 0, 0, [], []⟩]) aV (max aE (id + 1)) (k + 1)) nm = none := by
    unfold edgeByName
    rw [Option.map_eq_none_iff, List.find?_eq_none]
    intro v hv
    rcases List.mem_append.1 hv with hv | hv
    · simpa using hne v hv
    · simp only [List.mem_singleton] at hv
      subst hv; simpa using hnm.symm
  rw [if_neg hnm, h1]
  simp only
  rw [modE_mk rfl (fun x hx => (hk x hx).ne)]

theorem setEdgeIn_mk {vs : List Vtx} {es : List Edg} {e : Edg} {aV aE : Int} {k key : Nat} {l : List Int} {x : Vtx}
    (hk : e.key = key) (hn : ∀ x ∈ es, x.key ≠ key) (hx : vs[e.src]? = some x) (hl : x.phases = l.length) :
    setEdgeIn (mk vs (es ++ [e]) aV aE k) key l = some (mk vs (es ++ [{ e with ins := l, totIn := intSum l }]) aV aE k) := by
  unfold setEdgeIn
  rw [show edit (mk vs (es ++ [e]) aV aE k) = some (mk vs (es ++ [e]) aV aE k) from rfl]
  simp only [Option.bind_eq_bind, Option.bind_some]
  rw [modE_mk hk hn]
  simp only [Option.bind_some]
  rw [edge_last (e := { e with ins := l, totIn := intSum l }) rfl hk hn]
  simp only [Option.bind_some]
  rw [show (mk vs (es ++ [{ e with ins := l, totIn := intSum l }]) aV aE k).verts[e.src]? = some x from hx]
  simp only [Option.bind_some]
  rw [if_neg (fun h => h.2 hl)]
  show modV (mk vs _ aV aE k) e.src _ = _
  rw [modV_mk (lt_of_get hx), modify_same hx (by rw [← hl])]
  rfl

theorem setEdgeOut_mk {vs : List Vtx} {es : List Edg} {e : Edg} {aV aE : Int} {k key : Nat} {l : List Int} {x : Vtx}
    (hk : e.key = key) (hn : ∀ x ∈ es, x.key ≠ key) (hx : vs[e.tgt]? = some x) (hl : x.phases = l.length) :
    setEdgeOut (mk vs (es ++ [e]) aV aE k) key l = some (mk vs (es ++ [{ e with outs := l, totOut := intSum l }]) aV aE k) := by
  unfold setEdgeOut
  rw [show edit (mk vs (es ++ [e]) aV aE k) = some (mk vs (es ++ [e]) aV aE k) from rfl]
  simp only [Option.bind_eq_bind, Option.bind_some]
  rw [modE_mk hk hn]
  simp only [Option.bind_some]
  rw [edge_last (e := { e with outs := l, totOut := intSum l }) rfl hk hn]
  simp only [Option.bind_some]
  rw [show (mk vs (es ++ [{ e with outs := l, totOut := intSum l }]) aV aE k).verts[e.tgt]? = some x from hx]
  simp only [Option.bind_some]
  rw [if_neg (fun h => h.2 hl)]
  show modV (mk vs _ aV aE k) e.tgt _ = _
  rw [modV_mk (lt_of_get hx), modify_same hx (by rw [← hl])]
  rfl

theorem setEdgeIIn_mk {vs : List Vtx} {es : List Edg} {e : Edg} {aV aE : Int} {k key : Nat} {l : List Int} {x : Vtx}
    (hk : e.key = key) (hn : ∀ x ∈ es, x.key ≠ key) (hx : vs[e.src]? = some x) (hl : x.iphases = l.length) :
    setEdgeIIn (mk vs (es ++ [e]) aV aE k) key l = some (mk vs (es ++ [{ e with iins := l }]) aV aE k) := by
  unfold setEdgeIIn
  rw [show edit (mk vs (es ++ [e]) aV aE k) = some (mk vs (es ++ [e]) aV aE k) from rfl]
  simp only [Option.bind_eq_bind, Option.bind_some]
  rw [modE_mk hk hn]
  simp only [Option.bind_some]
  rw [edge_last (e := { e with iins := l }) rfl hk hn]
  simp only [Option.bind_some]
  rw [show (mk vs (es ++ [{ e with iins := l }]) aV aE k).verts[e.src]? = some x from hx]
  simp only [Option.bind_some]
  rw [if_neg (fun h => h.2 hl)]
  show modV (mk vs _ aV aE k) e.src _ = _
  rw [modV_mk (lt_of_get hx), modify_same hx (by rw [← hl])]
  rfl

theorem setEdgeIOut_mk {vs : List Vtx} {es : List Edg} {e : Edg} {aV aE : Int} {k key : Nat} {l : List Int} {x : Vtx}
    (hk : e.key = key) (hn : ∀ x ∈ es, x.key ≠ key) (hx : vs[e.tgt]? = some x) (hl : x.iphases = l.length) :
    setEdgeIOut (mk vs (es ++ [e]) aV aE k) key l = some (mk vs (es ++ [{ e with iouts := l }]) aV aE k) := by
  unfold setEdgeIOut
  rw [show edit (mk vs (es ++ [e]) aV aE k) = some (mk vs (es ++ [e]) aV aE k) from rfl]
  simp only [Option.bind_eq_bind, Option.bind_some]
  rw [modE_mk hk hn]
  simp only [Option.bind_some]
  rw [edge_last (e := { e with iouts := l }) rfl hk hn]
  simp only [Option.bind_some]
  rw [show (mk vs (es ++ [{ e with iouts := l }]) aV aE k).verts[e.tgt]? = some x from hx]
  simp only [Option.bind_some]
  rw [if_neg (fun h => h.2 hl)]
  show modV (mk vs _ aV aE k) e.tgt _ = _
  rw [modV_mk (lt_of_get hx), modify_same hx (by rw [← hl])]
  rfl

/-! ### Names -/

theorem num_inj {i j : Nat} (p : String) (h : p ++ toString i = p ++ toString j) : i = j := by
  have h2 : (p ++ toString i).toList = (p ++ toString j).toList := by rw [h]
  rw [String.toList_append, String.toList_append] at h2
  have h3 := List.append_cancel_left h2
  have e : ∀ n : Nat, (toString n).toList = Nat.toDigits 10 n := by
    intro n
    show (Nat.repr n).toList = _
    simp [Nat.repr]
  rw [e, e] at h3
  have := congrArg (fun l => Nat.ofDigitChars 10 l 0) h3
  simpa using this

theorem name_ne (p q : String) (hp : p ≠ "") : p ++ q ≠ "" := by
  intro h
  have : (p ++ q).toList = [] := by rw [h]; rfl
  rw [String.toList_append] at this
  exact hp (String.toList_inj.1 (List.append_eq_nil_iff.1 this).1)

/-! ### Tasks -/

theorem genTask_ok (r : Nat → Nat) {c : Config} (hc : c.Supported) {vs : List Vtx} {es : List Edg} {aV aE : Int} {k i : Nat}
    (hv : ∀ j x, vs[j]? = some x → TaskOK c j x) (hi : i = vs.length + 1) (j : Nat) :
    ∃ x z j', genTask r c (mk vs es aV aE k) i j = some ((mk (vs ++ [x]) es (max aV (i + 1)) aE k, z), j') ∧
      TaskOK c vs.length x ∧ 1 ≤ z ∧ z ≤ c.maxWeight := by
  obtain ⟨-, -, hd, hw, hp, hin⟩ := hc
  have hlt : ∀ v ∈ vs, v.id < (i : Int) := by
    intro v hm
    obtain ⟨j, hj⟩ := List.mem_iff_getElem?.mp hm
    have h1 := lt_of_get hj
    rw [(hv j v hj).id]
    omega
  have hnm : ∀ v ∈ vs, v.name ≠ "Node_" ++ toString i := by
    intro v hm he
    obtain ⟨j, hj⟩ := List.mem_iff_getElem?.mp hm
    have h1 := lt_of_get hj
    rw [(hv j v hj).name] at he
    have := num_inj _ he
    omega
  obtain ⟨ip, a1, a2, a3⟩ := draw_ok r hin j
  obtain ⟨p, b1, b2, b3⟩ := draw_ok r hp (j + 1)
  obtain ⟨il, c1, c2, c3⟩ := draws_ok r hd ip.toNat (j + 2)
  obtain ⟨l, d1, d2, d3⟩ := draws_ok r hd p.toNat (j + 2 + ip.toNat)
  obtain ⟨z, e1, e2, e3⟩ := draw_ok r hw (j + 2 + ip.toNat + p.toNat)
  have hne : "Node_" ++ toString i ≠ "" := name_ne _ _ (by decide)
  refine ⟨⟨i, "Node_" ++ toString i, p, 0, l.map fun x : Int => (x : ℚ), ip, il.map fun x : Int => (x : ℚ)⟩, z,
    j + 2 + ip.toNat + p.toNat + 1, ?_, ?_, e2, e3⟩
  rotate_left
  · refine ⟨?_, ?_, b2, b3, a2, a3, rfl, ?_, ?_, ?_, ?_⟩
    · show (i : Int) = _; omega
    · show "Node_" ++ toString i = _; rw [hi]
    · show ((l.map _).length : Int) = p
      rw [List.length_map, d2]; omega
    · intro d hd
      obtain ⟨x, hx, rfl⟩ := List.mem_map.1 hd
      exact ⟨x, (d3 x hx).1, (d3 x hx).2, rfl⟩
    · show ((il.map _).length : Int) = ip
      rw [List.length_map, c2]; omega
    · intro d hd
      obtain ⟨x, hx, rfl⟩ := List.mem_map.1 hd
      exact ⟨x, (c3 x hx).1, (c3 x hx).2, rfl⟩
  unfold genTask
  simp only [bind, StateT.bind, liftM, monadLift, MonadLift.monadLift, StateT.lift, pure, StateT.pure]
  rw [addVertexId_mk (by omega) hlt]
  simp only [Option.bind_some]
  rw [show (mk vs es aV aE k).verts.length = vs.length from rfl, setVertexName_mk hne hne.symm hnm]
  simp only [Option.bind_some]
  rw [a1]
  simp only [Option.bind_some]
  rw [b1]
  simp only [Option.bind_some]
  rw [setIPhases_mk]
  simp only [Option.bind_some]
  rw [setPhases_mk]
  simp only [Option.bind_some]
  rw [c1]
  simp only [Option.bind_some]
  rw [d1]
  simp only [Option.bind_some]
  rw [setDurs_mk (by show ((l.map _).length : Int) = p; rw [List.length_map, d2]; omega)]
  simp only [Option.bind_some]
  rw [setIDurs_mk (by show ((il.map _).length : Int) = ip; rw [List.length_map, c2]; omega)]
  simp only [Option.bind_some]
  rw [e1]
  rfl

theorem genTasks_ok (r : Nat → Nat) {c : Config} (hc : c.Supported) (n : Nat) {vs : List Vtx} {es : List Edg} {aV aE : Int}
    {k i : Nat} (hv : ∀ j x, vs[j]? = some x → TaskOK c j x) (hi : i = vs.length + 1) (j : Nat) :
    ∃ ws aV' zs j', genTasks r c n i (mk vs es aV aE k) j = some ((mk (vs ++ ws) es aV' aE k, zs), j') ∧
      ws.length = n ∧ (∀ j x, (vs ++ ws)[j]? = some x → TaskOK c j x) ∧
      zs.length = n ∧ ∀ z ∈ zs, 1 ≤ z ∧ z ≤ c.maxWeight := by
  induction n generalizing vs aV i j with
  | zero => exact ⟨[], aV, [], j, by rw [List.append_nil]; rfl, rfl, by simpa using hv, rfl, by simp⟩
  | succ n ih =>
    obtain ⟨x, z, j1, h1, h2, h3, h4⟩ := genTask_ok r hc (es := es) (aV := aV) (aE := aE) (k := k) hv hi j
    have hv' : ∀ j y, (vs ++ [x])[j]? = some y → TaskOK c j y := by
      intro j y hy
      rcases lt_trichotomy j vs.length with hj | hj | hj
      · rw [List.getElem?_append_left hj] at hy; exact hv j y hy
      · subst hj
        simp at hy
        subst hy; exact h2
      · rw [List.getElem?_eq_none (by simp; omega)] at hy; cases hy
    obtain ⟨ws, aV', zs, j', k1, k2, k3, k4, k5⟩ := ih (i := i + 1) (aV := max aV (i + 1)) hv' (by simp; omega) j1
    refine ⟨x :: ws, aV', z :: zs, j', ?_, by simp [k2], ?_, by simp [k4], ?_⟩
    · show (genTask r c (mk vs es aV aE k) i j).bind _ = _
      rw [h1]
      show (genTasks r c n (i + 1) _ j1).bind _ = _
      rw [k1]
      simp [pure, StateT.pure]
    · simpa using k3
    · intro y hy
      rcases List.mem_cons.1 hy with rfl | hy
      · exact ⟨h3, h4⟩
      · exact k5 y hy

/-! ### Channels -/

theorem redraw_some {r : Nat → Nat} {nV src : Int} {nsl : Bool} {fuel : Nat} {d d' : Int} {j j' : Nat}
    (hd : 1 ≤ d ∧ d ≤ nV) (h : redraw r nV nsl src fuel d j = some (d', j')) :
    (1 ≤ d' ∧ d' ≤ nV) ∧ (nsl = true → src ≠ d') := by
  induction fuel generalizing d j with
  | zero => cases h
  | succ n ih =>
    unfold redraw at h
    split at h
    · obtain ⟨x, h1, h2, h3⟩ := draw_ok r (show 1 ≤ nV by omega) j
      have h' : (draw r 1 nV j).bind (fun p => redraw r nV nsl src n p.1 p.2) = some (d', j') := h
      rw [h1] at h'
      exact ih ⟨h2, h3⟩ h'
    · rename_i hn
      have := Option.some.inj h
      simp only [Prod.mk.injEq] at this
      obtain ⟨rfl, -⟩ := this
      exact ⟨hd, fun hs he => hn ⟨hs, he⟩⟩

theorem redraw_mono {r : Nat → Nat} {nV src : Int} {nsl : Bool} {fuel fuel' : Nat} (hf : fuel ≤ fuel') {d : Int} {j : Nat}
    {p : Int × Nat} (h : redraw r nV nsl src fuel d j = some p) : redraw r nV nsl src fuel' d j = some p := by
  induction fuel generalizing d j fuel' with
  | zero => cases h
  | succ n ih =>
    obtain ⟨m, rfl⟩ : ∃ m, fuel' = m + 1 := ⟨fuel' - 1, by omega⟩
    unfold redraw at h ⊢
    split
    · rename_i hc
      rw [if_pos hc] at h
      have h' : (draw r 1 nV j).bind (fun p => redraw r nV nsl src n p.1 p.2) = some p := h
      show (draw r 1 nV j).bind (fun p => redraw r nV nsl src m p.1 p.2) = some p
      cases hd : draw r 1 nV j with
      | none => rw [hd] at h'; cases h'
      | some q => rw [hd] at h'; exact ih (by omega) h'
    · rename_i hc
      rw [if_neg hc] at h
      exact h

theorem redraw_ok {r : Nat → Nat} (hr : Varied r) {nV src : Int} {nsl : Bool} (hV : nsl = true → 2 ≤ nV) (d : Int) (j : Nat) :
    ∃ fuel p, redraw r nV nsl src fuel d j = some p := by
  have stop : ∀ (d : Int) (j : Nat), ¬ (nsl = true ∧ src = d) → redraw r nV nsl src 1 d j = some (d, j) := by
    intro d j hs
    unfold redraw; rw [if_neg hs]; rfl
  by_cases hn : nsl = true ∧ src = d
  · have h2 := hV hn.1
    obtain ⟨m, hm, hx⟩ := hr nV h2 src j
    have next : ∀ (d : Int) (j fuel : Nat), nsl = true ∧ src = d →
        redraw r nV nsl src (fuel + 1) d j = redraw r nV nsl src fuel (1 + (r j : Int) % nV) (j + 1) := by
      intro d j fuel hs
      conv_lhs => unfold redraw
      rw [if_pos hs]
      show (draw r 1 nV j).bind (fun p => redraw r nV nsl src fuel p.1 p.2) = _
      unfold draw
      rw [if_pos (by omega)]
      show redraw r nV nsl src fuel (1 + (r j : Int) % (nV - 1 + 1)) (j + 1) = _
      rw [show nV - 1 + 1 = nV by ring]
    have key : ∀ (n j : Nat) (d : Int), j + n = m → ∃ fuel p, redraw r nV nsl src fuel d j = some p := by
      intro n
      induction n with
      | zero =>
        intro j d hj
        by_cases hs : nsl = true ∧ src = d
        · refine ⟨2, _, (next d j 1 hs).trans (stop _ _ ?_)⟩
          rintro ⟨-, h⟩
          rw [show j = m by omega] at h
          exact hx h.symm
        · exact ⟨1, _, stop d j hs⟩
      | succ n ih =>
        intro j d hj
        by_cases hs : nsl = true ∧ src = d
        · obtain ⟨fuel, p, hp⟩ := ih (j + 1) (1 + (r j : Int) % nV) (by omega)
          exact ⟨fuel + 1, p, (next d j fuel hs).trans hp⟩
        · exact ⟨1, _, stop d j hs⟩
    exact key (m - j) j d (by omega)
  · exact ⟨1, (d, j), stop d j hn⟩

theorem quot_ok {a b : Int} (ha : 0 ≤ a) (hb : 0 < b) : quot a b = some (a / b) := by
  unfold quot
  rw [if_neg hb.ne', Int.tdiv_eq_ediv_of_nonneg ha]

/-- The channels made so far. -/
structure Built (vs : List Vtx) (es : List Edg) (k : Nat) : Prop where
  key : ∀ e ∈ es, e.key < k
  num : ∀ (j : Nat) (e : Edg), es[j]? = some e → e.id = j + 1 ∧ e.name = "buffer_" ++ toString (j + 1)

/-- The weights make the channel balanced. -/
def Weighted (zs : List Int) (e : Edg) : Prop :=
  ∃ a b, zs[e.src]? = some a ∧ zs[e.tgt]? = some b ∧ e.ins.sum * b = e.outs.sum * a

theorem vertexById_ok {c : Config} {vs : List Vtx} {es : List Edg} {aV aE : Int} {k : Nat}
    (hv : ∀ j x, vs[j]? = some x → TaskOK c j x) {d : Int} (h1 : 1 ≤ d) (h2 : d ≤ vs.length) :
    vertexById (mk vs es aV aE k) d = some (d - 1).toNat := by
  unfold vertexById
  have hlt : (d - 1).toNat < vs.length := by omega
  rw [List.findIdx?_eq_some_iff_getElem]
  refine ⟨hlt, ?_, ?_⟩
  · have := (hv _ _ (List.getElem?_eq_getElem hlt)).id
    simp only [mk, this, beq_iff_eq]
    omega
  · intro j hj
    have hj' : j < vs.length := by omega
    have := (hv _ _ (List.getElem?_eq_getElem hj')).id
    simp only [mk, this, beq_iff_eq]
    omega

theorem genEdge_ok (r : Nat → Nat) {c : Config} (hc : c.Supported) {vs : List Vtx} {es : List Edg} {aV aE : Int} {k i : Nat}
    (hv : ∀ j x, vs[j]? = some x → TaskOK c j x) {zs : List Int} (hzl : zs.length = vs.length)
    (hz : ∀ z ∈ zs, 1 ≤ z ∧ z ≤ c.maxWeight) (hb : Built vs es k) (hi : i = es.length + 1) {nV : Int}
    (hV : nV = vs.length) (hV1 : 1 ≤ nV) (hsl : c.noSelfLoop = true → 2 ≤ nV) (j : Nat) :
    ∃ src d0, (1 ≤ d0 ∧ d0 ≤ nV) ∧
      (∀ fuel, redraw r nV c.noSelfLoop src fuel d0 (j + 2) = none →
        genEdge r c nV zs fuel (mk vs es aV aE k) i j = none) ∧
      ∀ p : Int × Nat, (1 ≤ p.1 ∧ p.1 ≤ nV) ∧ (c.noSelfLoop = true → src ≠ p.1) → ∃ e j',
        (∀ fuel, redraw r nV c.noSelfLoop src fuel d0 (j + 2) = some p →
          genEdge r c nV zs fuel (mk vs es aV aE k) i j = some (mk vs (es ++ [e]) aV (max aE (i + 1)) (k + 1), j')) ∧
        e.key = k ∧ ChannelOK c vs es.length e ∧ Weighted zs e ∧ e.preload = 0 ∧
          e.totIn = intSum e.ins ∧ e.totOut = intSum e.outs := by
  obtain ⟨src, a1, a2, a3⟩ := draw_ok r hV1 j
  obtain ⟨d0, b1, b2, b3⟩ := draw_ok r hV1 (j + 1)
  have hguard : ¬ (c.noSelfLoop = true ∧ (mk vs es aV aE k).verts.length ≤ 1) := by
    rintro ⟨h1, h2⟩
    have := hsl h1
    have h3 : vs.length ≤ 1 := h2
    omega
  refine ⟨src, d0, ⟨b2, b3⟩, ?_, ?_⟩
  · intro fuel hn
    unfold genEdge
    rw [step a1, step b1]
    simp only
    rw [if_neg hguard, step_none hn]
  rintro ⟨d, j2⟩ ⟨⟨d1, d2⟩, d3⟩
  simp only at d1 d2 d3
  have hsl' : (src - 1).toNat < vs.length := by omega
  have hdl' : (d - 1).toNat < vs.length := by omega
  obtain ⟨xa, hxa⟩ : ∃ x, vs[(src - 1).toNat]? = some x := ⟨_, List.getElem?_eq_getElem hsl'⟩
  obtain ⟨xb, hxb⟩ : ∃ x, vs[(d - 1).toNat]? = some x := ⟨_, List.getElem?_eq_getElem hdl'⟩
  obtain ⟨za, hza⟩ : ∃ x, zs[(src - 1).toNat]? = some x := ⟨_, List.getElem?_eq_getElem (by omega)⟩
  obtain ⟨zb, hzb⟩ : ∃ x, zs[(d - 1).toNat]? = some x := ⟨_, List.getElem?_eq_getElem (by omega)⟩
  obtain ⟨za1, za2⟩ := hz za (List.mem_of_getElem? hza)
  obtain ⟨zb1, zb2⟩ := hz zb (List.mem_of_getElem? hzb)
  have ta := hv _ _ hxa
  have tb := hv _ _ hxb
  have hg : (0 : Int) < (Int.gcd za zb : Int) := by
    have : 0 < Int.gcd za zb := Int.gcd_pos_of_ne_zero_left _ (by omega)
    exact_mod_cast this
  have hga : (Int.gcd za zb : Int) ∣ za := Int.gcd_dvd_left ..
  have hgb : (Int.gcd za zb : Int) ∣ zb := Int.gcd_dvd_right ..
  generalize hG : (Int.gcd za zb : Int) = g at hg hga hgb
  obtain ⟨ka, rfl⟩ := hga
  obtain ⟨kb, rfl⟩ := hgb
  have hka : 0 < ka := by
    by_contra h
    have : g * ka ≤ 0 := mul_nonpos_of_nonneg_of_nonpos hg.le (by omega)
    omega
  have hkb : 0 < kb := by
    by_contra h
    have : g * kb ≤ 0 := mul_nonpos_of_nonneg_of_nonpos hg.le (by omega)
    omega
  have hqa : quot (g * ka) g = some ka := by rw [quot_ok (by omega) hg, Int.mul_ediv_cancel_left _ hg.ne']
  have hqb : quot (g * kb) g = some kb := by rw [quot_ok (by omega) hg, Int.mul_ediv_cancel_left _ hg.ne']
  have hka' : ka ≤ c.maxWeight := le_trans (by nlinarith) za2
  have hkb' : kb ≤ c.maxWeight := le_trans (by nlinarith) zb2
  have hw := hc.weight
  have hfa : 1 ≤ c.maxWeight / ka := by
    rw [Int.le_ediv_iff_mul_le hka]; omega
  have hfb : 1 ≤ c.maxWeight / kb := by
    rw [Int.le_ediv_iff_mul_le hkb]; omega
  obtain ⟨f, f1, f2, f3⟩ := draw_ok r (show 1 ≤ min (c.maxWeight / ka) (c.maxWeight / kb) by omega) j2
  have hwa : ka * f ≤ c.maxWeight := by
    have : f ≤ c.maxWeight / ka := by omega
    rw [Int.le_ediv_iff_mul_le hka] at this
    linarith
  have hwb : kb * f ≤ c.maxWeight := by
    have : f ≤ c.maxWeight / kb := by omega
    rw [Int.le_ediv_iff_mul_le hkb] at this
    linarith
  have hpa : 0 < ka * f := by positivity
  have hpb : 0 < kb * f := by positivity
  obtain ⟨wi, g1, g2, g3⟩ := draw_ok r hw (j2 + 1)
  obtain ⟨wo, h1, h2, h3⟩ := draw_ok r hw (j2 + 1 + 1)
  obtain ⟨s1, i1, k1, k2, k3, k4⟩ := sections_ok r (w := ka * f) (n := xa.phases) hpa.le (j2 + 1 + 1 + 1)
  obtain ⟨s2, i2, l1, l2, l3, l4⟩ := sections_ok r (w := kb * f) (n := xb.phases) hpb.le i1
  obtain ⟨s3, i3, m1, m2, m3, m4⟩ := sections_ok r (w := wi) (n := xa.iphases) (by omega) i2
  obtain ⟨s4, i4, n1, n2, n3, n4⟩ := sections_ok r (w := wo) (n := xb.iphases) (by omega) i3
  have pa := ta.phases1
  have pb := tb.phases1
  have qa := ta.iphases1
  have qb := tb.iphases1
  have hnm : ∀ e ∈ es, e.name ≠ "buffer_" ++ toString i := by
    intro e he heq
    obtain ⟨q, hq⟩ := List.mem_iff_getElem?.mp he
    rw [(hb.num q e hq).2] at heq
    have := num_inj _ heq
    have := (List.getElem?_eq_some_iff.1 hq).1
    omega
  have hid : ∀ e ∈ es, e.id ≠ (i : Int) := by
    intro e he heq
    obtain ⟨q, hq⟩ := List.mem_iff_getElem?.mp he
    rw [(hb.num q e hq).1] at heq
    have := (List.getElem?_eq_some_iff.1 hq).1
    omega
  refine ⟨⟨k, (src - 1).toNat, (d - 1).toNat, i, "buffer_" ++ toString i, rates s1 xa.phases, rates s2 xb.phases,
    intSum (rates s1 xa.phases), intSum (rates s2 xb.phases), 0, rates s3 xa.iphases, rates s4 xb.iphases⟩, i4, ?_, rfl,
    ?_, ?_, rfl, rfl, rfl⟩
  · intro fuel hp
    have hne : ∀ e ∈ es, e.key ≠ k := fun e he => (hb.key e he).ne
    unfold genEdge
    rw [step a1, step b1]
    simp only
    rw [if_neg hguard, step hp, stepO (vertexById_ok hv a2 (by omega)), stepO (vertexById_ok hv d1 (by omega)), stepO hza,
      stepO hzb]
    simp only [hG]
    rw [stepO hqa, stepO hqb, stepO (quot_ok (by omega) hka), stepO (quot_ok (by omega) hkb), step f1, step g1, step h1,
      stepO (show (mk vs es aV aE k).verts[(src - 1).toNat]? = some xa from hxa),
      stepO (show (mk vs es aV aE k).verts[(d - 1).toNat]? = some xb from hxb), step k1, step l1, step m1, step n1,
      stepO (addEdge_mk (by omega) hsl' hdl' hid hb.key (name_ne _ _ (by decide)) hnm),
      show (mk vs es aV aE k).nextKey = k from rfl,
      stepO (setEdgeIn_mk rfl hne hxa (by rw [k2]; omega)), stepO (setEdgeOut_mk rfl hne hxb (by rw [l2]; omega)),
      stepO (setEdgeIIn_mk rfl hne hxa (by rw [m2]; omega)), lastO (setEdgeIOut_mk rfl hne hxb (by rw [n2]; omega))]
  · have e1 := k4 (by omega)
    have e2 := l4 (by omega)
    refine ⟨?_, ?_, ?_, ⟨xa, hxa, ?_, ?_⟩, ⟨xb, hxb, ?_, ?_⟩, ?_, ?_, ?_, ?_, ?_⟩
    · show (i : Int) = _; omega
    · show "buffer_" ++ toString i = _; rw [hi]
    · intro h
      have := d3 h
      show (src - 1).toNat ≠ (d - 1).toNat
      omega
    · show ((rates s1 xa.phases).length : Int) = _; rw [k2]; omega
    · show ((rates s3 xa.iphases).length : Int) = _; rw [m2]; omega
    · show ((rates s2 xb.phases).length : Int) = _; rw [l2]; omega
    · show ((rates s4 xb.iphases).length : Int) = _; rw [n2]; omega
    · rintro x (hx | hx | hx | hx)
      · exact k3 x hx
      · exact l3 x hx
      · exact m3 x hx
      · exact n3 x hx
    · show 1 ≤ (rates s1 xa.phases).sum ∧ _ ≤ _
      dsimp only
      rw [e1]; omega
    · show 1 ≤ (rates s2 xb.phases).sum ∧ _ ≤ _
      dsimp only
      rw [e2]; omega
    · intro hne
      have : 0 < xa.iphases := by
        by_contra h
        apply hne
        show rates s3 xa.iphases = []
        rw [← List.length_eq_zero_iff, m2]; omega
      show 1 ≤ (rates s3 xa.iphases).sum ∧ _ ≤ _
      dsimp only
      rw [m4 this]; omega
    · intro hne
      have : 0 < xb.iphases := by
        by_contra h
        apply hne
        show rates s4 xb.iphases = []
        rw [← List.length_eq_zero_iff, n2]; omega
      show 1 ≤ (rates s4 xb.iphases).sum ∧ _ ≤ _
      dsimp only
      rw [n4 this]; omega
  · refine ⟨_, _, hza, hzb, ?_⟩
    show (rates s1 xa.phases).sum * _ = (rates s2 xb.phases).sum * _
    rw [k4 (by omega), l4 (by omega)]
    ring

theorem built_step {c : Config} {vs : List Vtx} {es : List Edg} {k : Nat} (hb : Built vs es k) {e : Edg} (e2 : e.key = k)
    (e3 : ChannelOK c vs es.length e) : Built vs (es ++ [e]) (k + 1) := by
  constructor
  · intro x hx
    rcases List.mem_append.1 hx with hx | hx
    · have := hb.key x hx; omega
    · simp only [List.mem_singleton] at hx; subst hx; omega
  · intro q x hx
    rcases lt_trichotomy q es.length with hj | hj | hj
    · rw [List.getElem?_append_left hj] at hx; exact hb.num q x hx
    · subst hj
      simp at hx
      subst hx; exact ⟨e3.id, e3.name⟩
    · rw [List.getElem?_eq_none (by simp; omega)] at hx; cases hx

theorem genEdges_some (r : Nat → Nat) {c : Config} (hc : c.Supported) {vs : List Vtx} {aV : Int}
    (hv : ∀ j x, vs[j]? = some x → TaskOK c j x) {zs : List Int} (hzl : zs.length = vs.length)
    (hz : ∀ z ∈ zs, 1 ≤ z ∧ z ≤ c.maxWeight) {nV : Int}
    (hV : nV = vs.length) (hV1 : 1 ≤ nV) (hsl : c.noSelfLoop = true → 2 ≤ nV) (fuel n : Nat) {es : List Edg} {aE : Int} {k : Nat}
    (hb : Built vs es k) {i : Nat} (hi : i = es.length + 1) {j : Nat} {p : State × Nat}
    (h : genEdges r c nV zs fuel n i (mk vs es aV aE k) j = some p) :
    ∃ fs aE' k', p.1 = mk vs (es ++ fs) aV aE' k' ∧ fs.length = n ∧
      ∀ q e, fs[q]? = some e → ChannelOK c vs (es.length + q) e ∧ Weighted zs e ∧ e.preload = 0 ∧
          e.totIn = intSum e.ins ∧ e.totOut = intSum e.outs ∧ e.key = k + q := by
  induction n generalizing es aE k i j with
  | zero =>
    have := Option.some.inj h
    subst this
    exact ⟨[], aE, k, by rw [List.append_nil], rfl, by simp⟩
  | succ n ih =>
    obtain ⟨src, d0, hd, h1, h2⟩ := genEdge_ok r hc (aV := aV) (aE := aE) hv hzl hz hb hi hV hV1 hsl j
    have h' : (genEdge r c nV zs fuel (mk vs es aV aE k) i >>= fun s => genEdges r c nV zs fuel n (i + 1) s) j = some p := h
    cases hr : redraw r nV c.noSelfLoop src fuel d0 (j + 2) with
    | none => rw [step_none (h1 fuel hr)] at h'; cases h'
    | some pr =>
      obtain ⟨e, j', e1, e2, e3, e4, e5, e6, e7⟩ := h2 pr (redraw_some hd hr)
      rw [step (e1 fuel hr)] at h'
      obtain ⟨fs, aE', k', f1, f2, f3⟩ := ih (built_step hb e2 e3) (by simp; omega) h'
      refine ⟨e :: fs, aE', k', by simpa using f1, by simp [f2], ?_⟩
      intro q x hx
      cases q with
      | zero =>
        simp at hx
        subst hx
        exact ⟨e3, e4, e5, e6, e7, e2⟩
      | succ q =>
        have := f3 q x (by simpa using hx)
        rw [List.length_append, List.length_singleton] at this
        rwa [show es.length + (q + 1) = es.length + 1 + q by omega, show k + (q + 1) = k + 1 + q by omega]

theorem genEdges_ok {r : Nat → Nat} (hr : Varied r) {c : Config} (hc : c.Supported) {vs : List Vtx} {aV : Int}
    (hv : ∀ j x, vs[j]? = some x → TaskOK c j x) {zs : List Int} (hzl : zs.length = vs.length)
    (hz : ∀ z ∈ zs, 1 ≤ z ∧ z ≤ c.maxWeight) {nV : Int}
    (hV : nV = vs.length) (hV1 : 1 ≤ nV) (hsl : c.noSelfLoop = true → 2 ≤ nV) (n : Nat) {es : List Edg} {aE : Int} {k : Nat}
    (hb : Built vs es k) {i : Nat} (hi : i = es.length + 1) (j : Nat) :
    ∃ fuel0, ∀ fuel, fuel0 ≤ fuel → ∃ p, genEdges r c nV zs fuel n i (mk vs es aV aE k) j = some p := by
  induction n generalizing es aE k i j with
  | zero => exact ⟨0, fun _ _ => ⟨_, rfl⟩⟩
  | succ n ih =>
    obtain ⟨src, d0, hd, -, h2⟩ := genEdge_ok r hc (aV := aV) (aE := aE) hv hzl hz hb hi hV hV1 hsl j
    obtain ⟨f0, p0, hp0⟩ := redraw_ok hr (src := src) hsl d0 (j + 2)
    obtain ⟨e, j', e1, e2, e3, -⟩ := h2 p0 (redraw_some hd hp0)
    obtain ⟨f1, hf1⟩ := ih (built_step hb e2 e3) (i := i + 1) (by simp; omega) (aE := max aE (i + 1)) j'
    refine ⟨max f0 f1, fun fuel hf => ?_⟩
    obtain ⟨p, hp⟩ := hf1 fuel (by omega)
    refine ⟨p, ?_⟩
    show (genEdge r c nV zs fuel (mk vs es aV aE k) i >>= fun s => genEdges r c nV zs fuel n (i + 1) s) j = _
    rw [step (e1 fuel (redraw_mono (by omega) hp0))]
    exact hp

end Kiter.Gen
