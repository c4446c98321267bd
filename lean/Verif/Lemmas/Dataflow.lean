/-
Invariants of `Dataflow` under every call.
-/
import Verif.Model.Dataflow
import Mathlib.Data.List.Nodup
import Mathlib.Tactic.Ring

set_option autoImplicit false

namespace Kiter.DF

/-- Ids of tasks and channels are unique, names are unique unless empty, channels connect present tasks, stored totals
are the sums of the stored rates, and the automatic numbers are ahead of every id and every cached id. -/
structure Inv (s : State) : Prop where
  vid : ∀ (i j : Nat) (a b : Vtx), s.verts[i]? = some a → s.verts[j]? = some b → a.id = b.id → i = j
  vname : ∀ (i j : Nat) (a b : Vtx), s.verts[i]? = some a → s.verts[j]? = some b → a.name = b.name → a.name ≠ "" → i = j
  keys : (s.edges.map fun e => e.key).Nodup
  keyLt : ∀ e ∈ s.edges, e.key < s.nextKey
  eid : ∀ e ∈ s.edges, ∀ f ∈ s.edges, e.id = f.id → e.key = f.key
  epos : ∀ e ∈ s.edges, 0 < e.id
  ename : ∀ e ∈ s.edges, ∀ f ∈ s.edges, e.name = f.name → e.name ≠ "" → e.key = f.key
  ends : ∀ e ∈ s.edges, e.src < s.verts.length ∧ e.tgt < s.verts.length
  autoV : ∀ v ∈ s.verts, v.id < s.autoV
  autoE : ∀ e ∈ s.edges, e.id < s.autoE
  cacheLt : ∀ p ∈ s.cache, p.1 < s.autoE
  auto1 : 0 < s.autoV ∧ 0 < s.autoE
  totals : ∀ e ∈ s.edges, e.totIn = intSum e.ins ∧ e.totOut = intSum e.outs

theorem inv_empty : Inv empty := by
  constructor <;> simp [empty]

theorem edit_some {s t : State} (h : edit s = some t) : s.readonly = false ∧ t = reset s := by
  unfold edit at h
  split at h
  · simp at h
  · rename_i hr; exact ⟨by simpa using hr, by simpa using h.symm⟩

theorem inv_reset {s : State} (h : Inv s) : Inv (reset s) := by
  obtain ⟨a, b, c, d, e, f, g, i, j, k, l, m, n⟩ := h
  exact ⟨a, b, c, d, e, f, g, i, j, k, l, m, n⟩

theorem edit_reset (s : State) : edit (reset s) = some (reset s) := rfl

theorem modV_some {s t : State} {v : Nat} {f : Vtx → Vtx} (h : modV s v f = some t) :
    v < s.verts.length ∧ t = { s with verts := s.verts.modify v f } := by
  unfold modV at h
  split at h
  · exact ⟨by assumption, by simpa using h.symm⟩
  · simp at h

theorem modE_some {s t : State} {k : Nat} {f : Edg → Edg} (h : modE s k f = some t) :
    (∃ e ∈ s.edges, e.key = k) ∧ t = { s with edges := s.edges.map fun e => if e.key = k then f e else e } := by
  unfold modE at h
  split at h
  · rename_i hk
    rw [List.any_eq_true] at hk
    obtain ⟨e, he, hk⟩ := hk
    exact ⟨⟨e, he, by simpa using hk⟩, by simpa using h.symm⟩
  · simp at h

theorem getElem_modify {l : List Vtx} {v : Nat} {f : Vtx → Vtx} {i : Nat} {a : Vtx} (h : (l.modify v f)[i]? = some a) :
    ∃ a', l[i]? = some a' ∧ a = if i = v then f a' else a' := by
  rw [List.getElem?_modify] at h
  cases h' : l[i]? with
  | none => rw [h'] at h; simp at h
  | some a' =>
    rw [h'] at h
    refine ⟨a', rfl, ?_⟩
    by_cases hv : v = i
    · simp only [hv, if_true] at h; subst hv; simpa using h.symm
    · rw [if_neg (fun h => hv h.symm)]; simp only [hv, if_false] at h; simpa using h.symm

theorem mem_modify {l : List Vtx} {v : Nat} {f : Vtx → Vtx} {a : Vtx} (h : a ∈ l.modify v f) :
    ∃ i a', l[i]? = some a' ∧ a = if i = v then f a' else a' := by
  obtain ⟨i, hi⟩ := List.mem_iff_getElem?.mp h
  obtain ⟨a', h1, h2⟩ := getElem_modify hi
  exact ⟨i, a', h1, h2⟩

/-- Task edits that leave id and name alone. -/
theorem inv_modV {s t : State} {v : Nat} {f : Vtx → Vtx} (h : Inv s) (hf : ∀ x, (f x).id = x.id ∧ (f x).name = x.name)
    (hm : modV s v f = some t) : Inv t := by
  obtain ⟨-, rfl⟩ := modV_some hm
  have key : ∀ (i : Nat) (a : Vtx), (s.verts.modify v f)[i]? = some a →
      ∃ a', s.verts[i]? = some a' ∧ a.id = a'.id ∧ a.name = a'.name := by
    intro i a ha
    obtain ⟨a', h1, h2⟩ := getElem_modify ha
    refine ⟨a', h1, ?_⟩
    rw [h2]; split
    · exact hf a'
    · exact ⟨rfl, rfl⟩
  refine ⟨?_, ?_, h.keys, h.keyLt, h.eid, h.epos, h.ename, ?_, ?_, h.autoE, h.cacheLt, h.auto1, h.totals⟩
  · intro i j a b ha hb hab
    obtain ⟨a', a1, a2, -⟩ := key i a ha
    obtain ⟨b', b1, b2, -⟩ := key j b hb
    exact h.vid i j a' b' a1 b1 (by rw [← a2, ← b2, hab])
  · intro i j a b ha hb hab hne
    obtain ⟨a', a1, -, a2⟩ := key i a ha
    obtain ⟨b', b1, -, b2⟩ := key j b hb
    exact h.vname i j a' b' a1 b1 (by rw [← a2, ← b2, hab]) (by rw [← a2]; exact hne)
  · intro e he; simpa using h.ends e he
  · intro a ha
    obtain ⟨i, hi⟩ := List.mem_iff_getElem?.mp ha
    obtain ⟨a', a1, a2, -⟩ := key i a hi
    rw [a2]; exact h.autoV a' (List.mem_of_getElem? a1)

theorem mem_modE {l : List Edg} {k : Nat} {f : Edg → Edg} {a : Edg} (h : a ∈ l.map fun e => if e.key = k then f e else e) :
    ∃ a' ∈ l, a = if a'.key = k then f a' else a' := by
  obtain ⟨a', h1, h2⟩ := List.mem_map.mp h
  exact ⟨a', h1, h2.symm⟩

theorem keys_modE {l : List Edg} {k : Nat} {f : Edg → Edg} (hf : ∀ x, (f x).key = x.key) :
    ((l.map fun e => if e.key = k then f e else e).map fun e => e.key) = l.map fun e => e.key := by
  rw [List.map_map]
  apply List.map_congr_left
  intro e _
  simp only [Function.comp]
  split
  · exact hf e
  · rfl

/-- Channel edits that leave key, end points, id and name alone and keep totals right. -/
theorem inv_modE {s t : State} {k : Nat} {f : Edg → Edg} (h : Inv s)
    (hf : ∀ x, (f x).id = x.id ∧ (f x).name = x.name ∧ (f x).key = x.key ∧ (f x).src = x.src ∧ (f x).tgt = x.tgt ∧
      (x.totIn = intSum x.ins ∧ x.totOut = intSum x.outs → (f x).totIn = intSum (f x).ins ∧ (f x).totOut = intSum (f x).outs))
    (hm : modE s k f = some t) : Inv t := by
  obtain ⟨-, rfl⟩ := modE_some hm
  have key : ∀ a, a ∈ (s.edges.map fun e => if e.key = k then f e else e) → ∃ a' ∈ s.edges, a.id = a'.id ∧ a.name = a'.name ∧
      a.key = a'.key ∧ a.src = a'.src ∧ a.tgt = a'.tgt ∧ (a.totIn = intSum a.ins ∧ a.totOut = intSum a.outs) := by
    intro a ha
    obtain ⟨a', h1, h2⟩ := mem_modE ha
    obtain ⟨f1, f2, f3, f4, f5, f6⟩ := hf a'
    refine ⟨a', h1, ?_⟩
    rw [h2]; split
    · exact ⟨f1, f2, f3, f4, f5, f6 (h.totals a' h1)⟩
    · exact ⟨rfl, rfl, rfl, rfl, rfl, h.totals a' h1⟩
  refine ⟨h.vid, h.vname, ?_, ?_, ?_, ?_, ?_, ?_, h.autoV, ?_, h.cacheLt, h.auto1, ?_⟩
  · simp only; rw [keys_modE fun x => (hf x).2.2.1]; exact h.keys
  · intro a ha
    obtain ⟨a', a1, a2, a3, a4, a5, a6, a7⟩ := key a ha
    rw [a4]; exact h.keyLt a' a1
  · intro a ha b hb hab
    obtain ⟨a', a1, a2, a3, a4, a5, a6, a7⟩ := key a ha
    obtain ⟨b', b1, b2, b3, b4, b5, b6, b7⟩ := key b hb
    rw [a4, b4]; exact h.eid a' a1 b' b1 (by rw [← a2, ← b2, hab])
  · intro a ha
    obtain ⟨a', a1, a2, -⟩ := key a ha
    rw [a2]; exact h.epos a' a1
  · intro a ha b hb hab hne
    obtain ⟨a', a1, a2, a3, a4, a5, a6, a7⟩ := key a ha
    obtain ⟨b', b1, b2, b3, b4, b5, b6, b7⟩ := key b hb
    rw [a4, b4]; exact h.ename a' a1 b' b1 (by rw [← a3, ← b3, hab]) (by rw [← a3]; exact hne)
  · intro a ha
    obtain ⟨a', a1, a2, a3, a4, a5, a6, a7⟩ := key a ha
    rw [a5, a6]; exact h.ends a' a1
  · intro a ha
    obtain ⟨a', a1, a2, -⟩ := key a ha
    rw [a2]; exact h.autoE a' a1
  · intro a ha
    obtain ⟨a', a1, a2, a3, a4, a5, a6, a7⟩ := key a ha
    exact a7

theorem findIdx_some {l : List Vtx} {p : Vtx → Bool} {i : Nat} (h : l.findIdx? p = some i) :
    (∃ a, l[i]? = some a ∧ p a = true) ∧ ∀ j a, j < i → l[j]? = some a → p a = false := by
  rw [List.findIdx?_eq_some_iff_getElem] at h
  obtain ⟨h1, h2, h3⟩ := h
  refine ⟨⟨_, List.getElem?_eq_getElem h1, h2⟩, ?_⟩
  intro j a hj ha
  have hjl : j < l.length := by omega
  rw [List.getElem?_eq_getElem hjl] at ha
  have := h3 j hj
  simp only [Option.some.injEq] at ha
  rw [ha] at this; simpa using this

theorem findIdx_none {l : List Vtx} {p : Vtx → Bool} (h : l.findIdx? p = none) : ∀ a ∈ l, p a = false := by
  rw [List.findIdx?_eq_none_iff] at h
  intro a ha; simpa using h a ha

/-- `setVertexId` on a state in which the id of `v` may still clash with the ids of earlier tasks (a new task). -/
theorem inv_setVertexId {s t : State} {v : Nat} {id : Int}
    (h : ∀ x : Int, (∀ a ∈ s.verts, a.id ≠ x) → Inv { s with verts := s.verts.modify v (fun a => { a with id := x }), autoV := max s.autoV (x + 1) })
    (h' : (∀ j a, s.verts[j]? = some a → a.id = id → v ≤ j) → (∃ a, s.verts[v]? = some a ∧ a.id = id) → Inv s)
    (hm : setVertexId s v id = some t) : Inv t := by
  unfold setVertexId at hm
  obtain ⟨s1, h1, hm2⟩ := Option.bind_eq_some_iff.mp hm
  clear hm
  obtain ⟨-, rfl⟩ := edit_some h1
  cases hf : vertexById (reset s) id with
  | some o =>
    simp only [hf] at hm2
    split at hm2
    · rename_i ho
      subst ho
      obtain ⟨⟨a, e1, e2⟩, e3⟩ := findIdx_some hf
      obtain rfl := Option.some.inj hm2
      apply inv_reset
      apply h'
      · intro j b hb hid
        by_contra hc
        have := e3 j b (by omega) hb
        simp [hid] at this
      · exact ⟨a, e1, by simpa using e2⟩
    · simp at hm2
  | none =>
    simp only [hf, edit_reset] at hm2
    obtain ⟨s2, h2, hm3⟩ := Option.bind_eq_some_iff.mp hm2
    obtain rfl := Option.some.inj h2
    obtain ⟨s3, h3, hm4⟩ := Option.bind_eq_some_iff.mp hm3
    obtain ⟨hv, rfl⟩ := modV_some h3
    obtain rfl := Option.some.inj hm4
    exact inv_reset (h id (fun a ha => by have := findIdx_none hf a ha; simpa using this))

theorem inv_setId_mod {s : State} (h : Inv s) (v : Nat) (x : Int) (hx : ∀ a ∈ s.verts, a.id ≠ x) :
    Inv { s with verts := s.verts.modify v (fun a => { a with id := x }), autoV := max s.autoV (x + 1) } := by
  refine ⟨?_, ?_, h.keys, h.keyLt, h.eid, h.epos, h.ename, ?_, ?_, h.autoE, h.cacheLt, ⟨lt_max_of_lt_left h.auto1.1, h.auto1.2⟩, h.totals⟩
  · intro i j a b ha hb hab
    obtain ⟨a', a1, a2⟩ := getElem_modify ha
    obtain ⟨b', b1, b2⟩ := getElem_modify hb
    by_cases hi : i = v
    · by_cases hj : j = v
      · rw [hi, hj]
      · rw [if_pos hi] at a2; rw [if_neg hj] at b2
        rw [a2, b2] at hab
        exact absurd hab.symm (hx b' (List.mem_of_getElem? b1))
    · by_cases hj : j = v
      · rw [if_neg hi] at a2; rw [if_pos hj] at b2
        rw [a2, b2] at hab
        exact absurd hab (hx a' (List.mem_of_getElem? a1))
      · rw [if_neg hi] at a2; rw [if_neg hj] at b2
        exact h.vid i j a' b' a1 b1 (by rw [← a2, ← b2, hab])
  · intro i j a b ha hb hab hne
    obtain ⟨a', a1, a2⟩ := getElem_modify ha
    obtain ⟨b', b1, b2⟩ := getElem_modify hb
    have n1 : a.name = a'.name := by rw [a2]; split <;> rfl
    have n2 : b.name = b'.name := by rw [b2]; split <;> rfl
    exact h.vname i j a' b' a1 b1 (by rw [← n1, ← n2, hab]) (by rw [← n1]; exact hne)
  · intro e he; simpa using h.ends e he
  · intro a ha
    obtain ⟨i, a', a1, a2⟩ := mem_modify ha
    have := h.autoV a' (List.mem_of_getElem? a1)
    simp only
    rw [a2]; split
    · simp only; omega
    · omega

theorem inv_addUnsafeVertex {s t : State} (h : Inv s) {id : Int} (hm : addUnsafeVertex s id = some t) : Inv t := by
  unfold addUnsafeVertex at hm
  obtain ⟨s1, h1, hm⟩ := Option.bind_eq_some_iff.mp hm
  obtain ⟨-, rfl⟩ := edit_some h1
  have h := inv_reset h
  revert hm h
  generalize reset s = s
  intro hm h
  have app : ∀ (i : Nat) (a : Vtx), (s.verts ++ [⟨0, "", 0, 0, [], 0, []⟩])[i]? = some a →
      (s.verts[i]? = some a ∧ i < s.verts.length) ∨ (i = s.verts.length ∧ a = ⟨0, "", 0, 0, [], 0, []⟩) := by
    intro i a ha
    by_cases hi : i < s.verts.length
    · left; rw [List.getElem?_append_left hi] at ha; exact ⟨ha, hi⟩
    · right
      have hlen : i < (s.verts ++ [(⟨0, "", 0, 0, [], 0, []⟩ : Vtx)]).length := by
        rw [List.getElem?_eq_some_iff] at ha; exact ha.1
      simp at hlen
      have : i = s.verts.length := by omega
      subst this
      simp at ha
      exact ⟨rfl, ha.symm⟩
  have names : ∀ (i j : Nat) (a b : Vtx), (s.verts ++ [⟨0, "", 0, 0, [], 0, []⟩])[i]? = some a →
      (s.verts ++ [⟨0, "", 0, 0, [], 0, []⟩])[j]? = some b → a.name = b.name → a.name ≠ "" → i = j := by
    intro i j a b ha hb hab hne
    rcases app i a ha with ⟨a1, -⟩ | ⟨-, rfl⟩
    · rcases app j b hb with ⟨b1, -⟩ | ⟨-, rfl⟩
      · exact h.vname i j a b a1 b1 hab hne
      · exact absurd hab hne
    · exact absurd rfl hne
  refine inv_setVertexId ?_ ?_ hm
  · intro x hx
    refine ⟨?_, ?_, h.keys, h.keyLt, h.eid, h.epos, h.ename, ?_, ?_, h.autoE, h.cacheLt, ⟨lt_max_of_lt_left h.auto1.1, h.auto1.2⟩, h.totals⟩
    · intro i j a b ha hb hab
      obtain ⟨a', a1, a2⟩ := getElem_modify ha
      obtain ⟨b', b1, b2⟩ := getElem_modify hb
      by_cases hi : i = s.verts.length
      · by_cases hj : j = s.verts.length
        · rw [hi, hj]
        · rw [if_pos hi] at a2; rw [if_neg hj] at b2
          rw [a2, b2] at hab
          exact absurd hab.symm (hx b' (List.mem_of_getElem? b1))
      · by_cases hj : j = s.verts.length
        · rw [if_neg hi] at a2; rw [if_pos hj] at b2
          rw [a2, b2] at hab
          exact absurd hab (hx a' (List.mem_of_getElem? a1))
        · rw [if_neg hi] at a2; rw [if_neg hj] at b2
          rcases app i a' a1 with ⟨a3, -⟩ | ⟨h3, -⟩
          · rcases app j b' b1 with ⟨b3, -⟩ | ⟨h3, -⟩
            · exact h.vid i j a' b' a3 b3 (by rw [← a2, ← b2, hab])
            · exact absurd h3 hj
          · exact absurd h3 hi
    · intro i j a b ha hb hab hne
      obtain ⟨a', a1, a2⟩ := getElem_modify ha
      obtain ⟨b', b1, b2⟩ := getElem_modify hb
      have n1 : a.name = a'.name := by rw [a2]; split <;> rfl
      have n2 : b.name = b'.name := by rw [b2]; split <;> rfl
      exact names i j a' b' a1 b1 (by rw [← n1, ← n2, hab]) (by rw [← n1]; exact hne)
    · intro e he
      have := h.ends e he
      simp only [List.length_modify, List.length_append, List.length_singleton]
      omega
    · intro a ha
      obtain ⟨i, a', a1, a2⟩ := mem_modify ha
      simp only
      rw [a2]; split
      · simp only; omega
      · rename_i hi
        rcases app i a' a1 with ⟨a3, -⟩ | ⟨h3, -⟩
        · have := h.autoV a' (List.mem_of_getElem? a3); omega
        · exact absurd h3 hi
  · intro hfirst hthere
    obtain ⟨a0, ha0, hid⟩ := hthere
    simp only [List.getElem?_append_right (le_refl _), Nat.sub_self, List.getElem?_cons_zero, Option.some.injEq] at ha0
    have hid0 : id = 0 := by rw [← hid, ← ha0]
    have hne : ∀ a ∈ s.verts, a.id ≠ 0 := by
      intro a ha h0
      obtain ⟨i, hi⟩ := List.mem_iff_getElem?.mp ha
      have hil : i < s.verts.length := by rw [List.getElem?_eq_some_iff] at hi; exact hi.1
      have := hfirst i a (by simp only; rw [List.getElem?_append_left hil]; exact hi) (by rw [h0, hid0])
      omega
    refine ⟨?_, names, h.keys, h.keyLt, h.eid, h.epos, h.ename, ?_, ?_, h.autoE, h.cacheLt, h.auto1, h.totals⟩
    · intro i j a b ha hb hab
      rcases app i a ha with ⟨a1, -⟩ | ⟨hi, rfl⟩
      · rcases app j b hb with ⟨b1, -⟩ | ⟨hj, rfl⟩
        · exact h.vid i j a b a1 b1 hab
        · exact absurd hab (hne a (List.mem_of_getElem? a1))
      · rcases app j b hb with ⟨b1, -⟩ | ⟨hj, rfl⟩
        · exact absurd hab.symm (hne b (List.mem_of_getElem? b1))
        · rw [hi, hj]
    · intro e he
      have := h.ends e he
      simp only [List.length_append, List.length_singleton]
      omega
    · intro a ha
      rcases List.mem_append.mp ha with ha | ha
      · exact h.autoV a ha
      · simp only [List.mem_singleton] at ha
        subst ha; exact h.auto1.1

theorem inv_setVertexId' {s t : State} (h : Inv s) {v : Nat} {id : Int} (hm : setVertexId s v id = some t) : Inv t :=
  inv_setVertexId (fun x hx => inv_setId_mod h v x hx) (fun _ _ => h) hm

theorem inv_setVertexName {s t : State} (h : Inv s) {v : Nat} {n : String} (hm : setVertexName s v n = some t) :
    Inv t := by
  unfold setVertexName at hm
  obtain ⟨s1, h1, hm2⟩ := Option.bind_eq_some_iff.mp hm
  clear hm
  obtain ⟨-, rfl⟩ := edit_some h1
  replace h := inv_reset h
  revert hm2 h
  clear h1
  generalize reset s = s
  intro hm2 h
  split at hm2
  · simp at hm2
  have key : (∀ j a, s.verts[j]? = some a → a.name = n → j = v) →
      modV s v (fun x => { x with name := n }) = some t → Inv t := by
    intro hn hmv
    obtain ⟨-, rfl⟩ := modV_some hmv
    refine ⟨?_, ?_, h.keys, h.keyLt, h.eid, h.epos, h.ename, ?_, ?_, h.autoE, h.cacheLt, h.auto1, h.totals⟩
    · intro i j a b ha hb hab
      obtain ⟨a', a1, a2⟩ := getElem_modify ha
      obtain ⟨b', b1, b2⟩ := getElem_modify hb
      have n1 : a.id = a'.id := by rw [a2]; split <;> rfl
      have n2 : b.id = b'.id := by rw [b2]; split <;> rfl
      exact h.vid i j a' b' a1 b1 (by rw [← n1, ← n2, hab])
    · intro i j a b ha hb hab hne
      obtain ⟨a', a1, a2⟩ := getElem_modify ha
      obtain ⟨b', b1, b2⟩ := getElem_modify hb
      by_cases hi : i = v
      · by_cases hj : j = v
        · rw [hi, hj]
        · rw [if_pos hi] at a2; rw [if_neg hj] at b2
          rw [a2, b2] at hab
          exact absurd (hn j b' b1 hab.symm) hj
      · by_cases hj : j = v
        · rw [if_neg hi] at a2; rw [if_pos hj] at b2
          rw [a2, b2] at hab
          exact absurd (hn i a' a1 hab) hi
        · rw [if_neg hi] at a2; rw [if_neg hj] at b2
          exact h.vname i j a' b' a1 b1 (by rw [← a2, ← b2, hab]) (by rw [← a2]; exact hne)
    · intro e he; simpa using h.ends e he
    · intro a ha
      obtain ⟨i, a', a1, a2⟩ := mem_modify ha
      have := h.autoV a' (List.mem_of_getElem? a1)
      rw [a2]; split
      · exact this
      · exact this
  rename_i hn0
  cases hf : vertexByName s n with
  | some o =>
    simp only [hf] at hm2
    split at hm2
    · rename_i ho
      subst ho
      obtain ⟨⟨a, e1, e2⟩, e3⟩ := findIdx_some hf
      simp only [beq_iff_eq] at e2
      exact key (fun j b hb hbn => h.vname j o b a hb e1 (by rw [hbn, e2]) (by rw [hbn]; exact hn0)) hm2
    · simp at hm2
  | none =>
    simp only [hf] at hm2
    refine key (fun j b hb hbn => ?_) hm2
    have := findIdx_none hf b (List.mem_of_getElem? hb)
    simp [hbn] at this

theorem inv_autoV {s : State} (h : Inv s) {n : Int} (hn : s.autoV ≤ n) : Inv { s with autoV := n } :=
  ⟨h.vid, h.vname, h.keys, h.keyLt, h.eid, h.epos, h.ename, h.ends, fun v hv => lt_of_lt_of_le (h.autoV v hv) hn,
    h.autoE, h.cacheLt, ⟨lt_of_lt_of_le h.auto1.1 hn, h.auto1.2⟩, h.totals⟩

theorem inv_autoE {s : State} (h : Inv s) {n : Int} (hn : s.autoE ≤ n) : Inv { s with autoE := n } :=
  ⟨h.vid, h.vname, h.keys, h.keyLt, h.eid, h.epos, h.ename, h.ends, h.autoV,
    fun v hv => lt_of_lt_of_le (h.autoE v hv) hn, fun v hv => lt_of_lt_of_le (h.cacheLt v hv) hn,
    ⟨h.auto1.1, lt_of_lt_of_le h.auto1.2 hn⟩, h.totals⟩

theorem foldl_id_le {α : Type} (l : List α) (f : α → Int) (m : Int) :
    m ≤ l.foldl (fun m v => if f v ≥ m then f v + 1 else m) m := by
  induction l generalizing m with
  | nil => simp
  | cons a l ih =>
    simp only [List.foldl_cons]
    refine le_trans ?_ (ih _)
    split <;> omega

theorem inv_addVertex {s t : State} (h : Inv s) (hm : addVertex s = some t) : Inv t := by
  unfold addVertex at hm
  have := foldl_id_le s.verts (fun v => v.id) s.autoV
  exact inv_addUnsafeVertex (inv_autoV h (by omega)) hm

theorem inv_addVertexId {s t : State} (h : Inv s) {id : Int} (hm : addVertexId s id = some t) : Inv t := by
  unfold addVertexId at hm
  split at hm
  · simp at hm
  · exact inv_addUnsafeVertex h hm

theorem inv_named {s : Option State} {t : State} (h : ∀ u, s = some u → Inv u) {n : String} (hm : named s n = some t) :
    Inv t := by
  unfold named at hm
  obtain ⟨u, h1, hm2⟩ := Option.bind_eq_some_iff.mp hm
  exact inv_setVertexName (h u h1) hm2

theorem inv_setEdgeName {s t : State} (h : Inv s) {k : Nat} {n : String} (hm : setEdgeName s k n = some t) :
    Inv t := by
  unfold setEdgeName at hm
  obtain ⟨s1, h1, hm2⟩ := Option.bind_eq_some_iff.mp hm
  clear hm
  obtain ⟨-, rfl⟩ := edit_some h1
  replace h := inv_reset h
  revert hm2 h
  clear h1
  generalize reset s = s
  intro hm2 h
  split at hm2
  · simp at hm2
  rename_i hn0
  have key : (∀ a ∈ s.edges, a.name = n → a.key = k) →
      modE s k (fun x => { x with name := n }) = some t → Inv t := by
    intro hn hmv
    obtain ⟨-, rfl⟩ := modE_some hmv
    have key : ∀ a, a ∈ (s.edges.map fun e => if e.key = k then { e with name := n } else e) → ∃ a' ∈ s.edges,
        a.id = a'.id ∧ a.key = a'.key ∧ a.src = a'.src ∧ a.tgt = a'.tgt ∧ a.totIn = a'.totIn ∧ a.totOut = a'.totOut ∧
        a.ins = a'.ins ∧ a.outs = a'.outs ∧ a.name = if a'.key = k then n else a'.name := by
      intro a ha
      obtain ⟨a', h1, h2⟩ := mem_modE ha
      refine ⟨a', h1, ?_⟩
      rw [h2]; split <;> simp
    refine ⟨h.vid, h.vname, ?_, ?_, ?_, ?_, ?_, ?_, h.autoV, ?_, h.cacheLt, h.auto1, ?_⟩
    · simp only; rw [keys_modE (by intro x; rfl)]; exact h.keys
    · intro a ha
      obtain ⟨a', a1, a2, a3, a4, a5, a6, a7, a8, a9, a10⟩ := key a ha
      rw [a3]; exact h.keyLt a' a1
    · intro a ha b hb hab
      obtain ⟨a', a1, a2, a3, a4, a5, a6, a7, a8, a9, a10⟩ := key a ha
      obtain ⟨b', b1, b2, b3, b4, b5, b6, b7, b8, b9, b10⟩ := key b hb
      rw [a3, b3]; exact h.eid a' a1 b' b1 (by rw [← a2, ← b2, hab])
    · intro a ha
      obtain ⟨a', a1, a2, a3, a4, a5, a6, a7, a8, a9, a10⟩ := key a ha
      rw [a2]; exact h.epos a' a1
    · intro a ha b hb hab hne
      obtain ⟨a', a1, a2, a3, a4, a5, a6, a7, a8, a9, a10⟩ := key a ha
      obtain ⟨b', b1, b2, b3, b4, b5, b6, b7, b8, b9, b10⟩ := key b hb
      rw [a3, b3]
      by_cases hi : a'.key = k
      · by_cases hj : b'.key = k
        · rw [hi, hj]
        · rw [if_pos hi] at a10; rw [if_neg hj] at b10
          exact absurd (hn b' b1 (by rw [← b10, ← hab, a10])) hj
      · by_cases hj : b'.key = k
        · rw [if_neg hi] at a10; rw [if_pos hj] at b10
          exact absurd (hn a' a1 (by rw [← a10, hab, b10])) hi
        · rw [if_neg hi] at a10; rw [if_neg hj] at b10
          exact h.ename a' a1 b' b1 (by rw [← a10, ← b10, hab]) (by rw [← a10]; exact hne)
    · intro a ha
      obtain ⟨a', a1, a2, a3, a4, a5, a6, a7, a8, a9, a10⟩ := key a ha
      rw [a4, a5]; exact h.ends a' a1
    · intro a ha
      obtain ⟨a', a1, a2, a3, a4, a5, a6, a7, a8, a9, a10⟩ := key a ha
      rw [a2]; exact h.autoE a' a1
    · intro a ha
      obtain ⟨a', a1, a2, a3, a4, a5, a6, a7, a8, a9, a10⟩ := key a ha
      rw [a6, a7, a8, a9]; exact h.totals a' a1
  cases hf : edgeByName s n with
  | some o =>
    simp only [hf] at hm2
    split at hm2
    · rename_i ho
      subst ho
      obtain ⟨e, he, hk⟩ := Option.map_eq_some_iff.mp hf
      have e1 := List.mem_of_find?_eq_some he
      have e2 := List.find?_some he
      simp only [beq_iff_eq] at e2
      exact key (fun b hb hbn => by rw [← hk]; exact h.ename b hb e e1 (by rw [hbn, e2]) (by rw [hbn]; exact hn0)) hm2
    · simp at hm2
  | none =>
    simp only [hf] at hm2
    refine key (fun b hb hbn => ?_) hm2
    have := Option.map_eq_none_iff.mp hf
    rw [List.find?_eq_none] at this
    have := this b hb
    simp [hbn] at this

/-- `setEdgeId` on a state in which channel `k` may be new (id 0). -/
theorem inv_setEdgeId {s t : State} {k : Nat} {id : Int}
    (h : ∀ x : Int, 0 < x → (∀ a ∈ s.edges, a.id ≠ x) →
      Inv { s with edges := s.edges.map (fun e => if e.key = k then { e with id := x } else e), autoE := max s.autoE (x + 1) })
    (h' : (∃ a ∈ s.edges, a.key = k ∧ 0 < a.id) → Inv s)
    (hm : setEdgeId s k id = some t) : Inv t := by
  unfold setEdgeId at hm
  obtain ⟨s1, h1, hm2⟩ := Option.bind_eq_some_iff.mp hm
  clear hm
  obtain ⟨-, rfl⟩ := edit_some h1
  split at hm2
  · rename_i hpos
    cases hf : edgeById (reset s) id with
    | some o =>
      simp only [hf] at hm2
      split at hm2
      · rename_i ho
        subst ho
        obtain ⟨e, he, hk⟩ := Option.map_eq_some_iff.mp hf
        have e1 := List.mem_of_find?_eq_some he
        have e2 := List.find?_some he
        simp only [beq_iff_eq] at e2
        obtain rfl := Option.some.inj hm2
        exact inv_reset (h' ⟨e, e1, hk, by rw [e2]; exact hpos⟩)
      · simp at hm2
    | none =>
      simp only [hf] at hm2
      obtain ⟨s3, h3, hm4⟩ := Option.bind_eq_some_iff.mp hm2
      obtain ⟨hv, rfl⟩ := modE_some h3
      obtain rfl := Option.some.inj hm4
      refine inv_reset (h id hpos (fun a ha hid => ?_))
      have := Option.map_eq_none_iff.mp hf
      rw [List.find?_eq_none] at this
      have := this a ha
      simp [hid] at this
  · simp at hm2

/-- Invariants except the id clauses for the channel `k`. -/
theorem inv_edgeId_mod {s : State} {k : Nat} {x : Int} (hp : 0 < x) (hx : ∀ a ∈ s.edges, a.id ≠ x)
    (vid : ∀ (i j : Nat) (a b : Vtx), s.verts[i]? = some a → s.verts[j]? = some b → a.id = b.id → i = j)
    (vname : ∀ (i j : Nat) (a b : Vtx), s.verts[i]? = some a → s.verts[j]? = some b → a.name = b.name → a.name ≠ "" → i = j)
    (keys : (s.edges.map fun e => e.key).Nodup)
    (keyLt : ∀ e ∈ s.edges, e.key < s.nextKey)
    (eid : ∀ e ∈ s.edges, ∀ f ∈ s.edges, e.key ≠ k → f.key ≠ k → e.id = f.id → e.key = f.key)
    (epos : ∀ e ∈ s.edges, e.key ≠ k → 0 < e.id)
    (ename : ∀ e ∈ s.edges, ∀ f ∈ s.edges, e.name = f.name → e.name ≠ "" → e.key = f.key)
    (ends : ∀ e ∈ s.edges, e.src < s.verts.length ∧ e.tgt < s.verts.length)
    (autoV : ∀ v ∈ s.verts, v.id < s.autoV)
    (autoE : ∀ e ∈ s.edges, e.key ≠ k → e.id < s.autoE)
    (cacheLt : ∀ p ∈ s.cache, p.1 < s.autoE)
    (auto1 : 0 < s.autoV ∧ 0 < s.autoE)
    (totals : ∀ e ∈ s.edges, e.totIn = intSum e.ins ∧ e.totOut = intSum e.outs) :
    Inv { s with edges := s.edges.map (fun e => if e.key = k then { e with id := x } else e), autoE := max s.autoE (x + 1) } := by
  have key : ∀ a, a ∈ (s.edges.map fun e => if e.key = k then { e with id := x } else e) → ∃ a' ∈ s.edges,
      a.name = a'.name ∧ a.key = a'.key ∧ a.src = a'.src ∧ a.tgt = a'.tgt ∧ a.totIn = a'.totIn ∧ a.totOut = a'.totOut ∧
      a.ins = a'.ins ∧ a.outs = a'.outs ∧ a.id = if a'.key = k then x else a'.id := by
    intro a ha
    obtain ⟨a', h1, h2⟩ := mem_modE ha
    refine ⟨a', h1, ?_⟩
    rw [h2]; split <;> simp
  refine ⟨vid, vname, ?_, ?_, ?_, ?_, ?_, ?_, autoV, ?_, ?_, ?_, ?_⟩
  · simp only; rw [keys_modE (by intro x; rfl)]; exact keys
  · intro a ha
    obtain ⟨a', a1, a2, a3, a4, a5, a6, a7, a8, a9, a10⟩ := key a ha
    rw [a3]; exact keyLt a' a1
  · intro a ha b hb hab
    obtain ⟨a', a1, a2, a3, a4, a5, a6, a7, a8, a9, a10⟩ := key a ha
    obtain ⟨b', b1, b2, b3, b4, b5, b6, b7, b8, b9, b10⟩ := key b hb
    rw [a3, b3]
    by_cases hi : a'.key = k
    · by_cases hj : b'.key = k
      · rw [hi, hj]
      · rw [if_pos hi] at a10; rw [if_neg hj] at b10
        exact absurd (by rw [← b10, ← hab, a10]) (hx b' b1)
    · by_cases hj : b'.key = k
      · rw [if_neg hi] at a10; rw [if_pos hj] at b10
        exact absurd (by rw [← a10, hab, b10]) (hx a' a1)
      · rw [if_neg hi] at a10; rw [if_neg hj] at b10
        exact eid a' a1 b' b1 hi hj (by rw [← a10, ← b10, hab])
  · intro a ha
    obtain ⟨a', a1, a2, a3, a4, a5, a6, a7, a8, a9, a10⟩ := key a ha
    rw [a10]; split
    · exact hp
    · exact epos a' a1 (by assumption)
  · intro a ha b hb hab hne
    obtain ⟨a', a1, a2, a3, a4, a5, a6, a7, a8, a9, a10⟩ := key a ha
    obtain ⟨b', b1, b2, b3, b4, b5, b6, b7, b8, b9, b10⟩ := key b hb
    rw [a3, b3]; exact ename a' a1 b' b1 (by rw [← a2, ← b2, hab]) (by rw [← a2]; exact hne)
  · intro a ha
    obtain ⟨a', a1, a2, a3, a4, a5, a6, a7, a8, a9, a10⟩ := key a ha
    rw [a4, a5]; exact ends a' a1
  · intro a ha
    obtain ⟨a', a1, a2, a3, a4, a5, a6, a7, a8, a9, a10⟩ := key a ha
    simp only
    rw [a10]; split
    · omega
    · have := autoE a' a1 (by assumption); omega
  · intro p hp
    have := cacheLt p hp
    simp only; omega
  · exact ⟨auto1.1, lt_max_of_lt_left auto1.2⟩
  · intro a ha
    obtain ⟨a', a1, a2, a3, a4, a5, a6, a7, a8, a9, a10⟩ := key a ha
    rw [a6, a7, a8, a9]; exact totals a' a1

theorem inv_setEdgeId' {s t : State} (h : Inv s) {k : Nat} {id : Int} (hm : setEdgeId s k id = some t) : Inv t :=
  inv_setEdgeId (fun _ hp hx => inv_edgeId_mod hp hx h.vid h.vname h.keys h.keyLt (fun e he f hf _ _ => h.eid e he f hf)
    (fun e he _ => h.epos e he) h.ename h.ends h.autoV (fun e he _ => h.autoE e he) h.cacheLt h.auto1 h.totals)
    (fun _ => h) hm

theorem inv_addEdgeUnsafe {s t : State} (h : Inv s) {a b : Nat} {id : Int} (hm : addEdgeUnsafe s a b id = some t) :
    Inv t := by
  unfold addEdgeUnsafe at hm
  obtain ⟨s1, h1, hm2⟩ := Option.bind_eq_some_iff.mp hm
  clear hm
  obtain ⟨-, rfl⟩ := edit_some h1
  replace h := inv_reset h
  revert hm2 h
  clear h1
  generalize reset s = s
  intro hm2 h
  split at hm2
  · rename_i hab
    have app : ∀ e, e ∈ s.edges ++ [(⟨s.nextKey, a, b, 0, "", [], [], 0, 0, 0, [], []⟩ : Edg)] →
        (e ∈ s.edges ∧ e.key < s.nextKey) ∨ e = ⟨s.nextKey, a, b, 0, "", [], [], 0, 0, 0, [], []⟩ := by
      intro e he
      rcases List.mem_append.mp he with he | he
      · exact Or.inl ⟨he, h.keyLt e he⟩
      · exact Or.inr (by simpa using he)
    refine inv_setEdgeId ?_ ?_ hm2
    · intro x hp hx
      refine inv_edgeId_mod hp hx h.vid h.vname ?_ ?_ ?_ ?_ ?_ ?_ h.autoV ?_ h.cacheLt h.auto1 ?_
      · simp only [List.map_append, List.map_cons, List.map_nil]
        rw [List.nodup_append]
        refine ⟨h.keys, by simp, ?_⟩
        intro _ hx y hy
        simp only [List.mem_singleton] at hy
        obtain ⟨e, he, rfl⟩ := List.mem_map.mp hx
        have := h.keyLt e he
        omega
      · intro e he
        rcases app e he with ⟨-, h1⟩ | rfl
        · exact Nat.lt_succ_of_lt h1
        · simp
      · intro e he f hf hek hfk hid
        rcases app e he with ⟨e1, -⟩ | rfl
        · rcases app f hf with ⟨f1, -⟩ | rfl
          · exact h.eid e e1 f f1 hid
          · exact absurd rfl hfk
        · exact absurd rfl hek
      · intro e he hek
        rcases app e he with ⟨e1, -⟩ | rfl
        · exact h.epos e e1
        · exact absurd rfl hek
      · intro e he f hf hn hne
        rcases app e he with ⟨e1, -⟩ | rfl
        · rcases app f hf with ⟨f1, -⟩ | rfl
          · exact h.ename e e1 f f1 hn hne
          · exact absurd hn hne
        · exact absurd rfl hne
      · intro e he
        rcases app e he with ⟨e1, -⟩ | rfl
        · exact h.ends e e1
        · exact hab
      · intro e he hek
        rcases app e he with ⟨e1, -⟩ | rfl
        · exact h.autoE e e1
        · exact absurd rfl hek
      · intro e he
        rcases app e he with ⟨e1, -⟩ | rfl
        · exact h.totals e e1
        · simp [intSum]
    · rintro ⟨e, he, hek, hp⟩
      rcases app e he with ⟨e1, h2⟩ | rfl
      · omega
      · simp at hp
  · simp at hm2

theorem inv_addEdge {s t : State} (h : Inv s) {a b : Nat} (hm : addEdge s a b = some t) : Inv t := by
  unfold addEdge at hm
  have := foldl_id_le s.edges (fun v => v.id) s.autoE
  exact inv_addEdgeUnsafe (inv_autoE h this) hm

theorem inv_namedE {s : Option State} {t : State} (h : ∀ u, s = some u → Inv u) {n : String} (hm : namedE s n = some t) :
    Inv t := by
  unfold namedE at hm
  obtain ⟨u, h1, hm2⟩ := Option.bind_eq_some_iff.mp hm
  exact inv_setEdgeName (h u h1) hm2

theorem inv_subEdges {s : State} (h : Inv s) {l : List Edg} (hl : l.Sublist s.edges) : Inv { s with edges := l } :=
  ⟨h.vid, h.vname, h.keys.sublist (hl.map _), fun e he => h.keyLt e (hl.subset he),
    fun e he f hf => h.eid e (hl.subset he) f (hl.subset hf), fun e he => h.epos e (hl.subset he),
    fun e he f hf => h.ename e (hl.subset he) f (hl.subset hf), fun e he => h.ends e (hl.subset he), h.autoV,
    fun e he => h.autoE e (hl.subset he), h.cacheLt, h.auto1, fun e he => h.totals e (hl.subset he)⟩

theorem inv_removeEdge {s t : State} (h : Inv s) {k : Nat} (hm : removeEdge s k = some t) : Inv t := by
  unfold removeEdge at hm
  obtain ⟨s1, h1, hm2⟩ := Option.bind_eq_some_iff.mp hm
  clear hm
  obtain ⟨-, rfl⟩ := edit_some h1
  split at hm2
  · obtain rfl := Option.some.inj hm2
    exact inv_subEdges (inv_reset h) List.filter_sublist
  · simp at hm2

theorem getElem_eraseIdx {l : List Vtx} {v i : Nat} {a : Vtx} (h : (l.eraseIdx v)[i]? = some a) :
    l[if i < v then i else i + 1]? = some a := by
  rw [List.getElem?_eraseIdx] at h
  split <;> simp_all

theorem inv_removeVertex {s t : State} (h : Inv s) {v : Nat} (hm : removeVertex s v = some t) : Inv t := by
  unfold removeVertex at hm
  obtain ⟨s1, h1, hm2⟩ := Option.bind_eq_some_iff.mp hm
  clear hm
  obtain ⟨-, rfl⟩ := edit_some h1
  replace h := inv_reset h
  revert hm2 h
  clear h1
  generalize reset s = s
  intro hm2 h
  split at hm2
  · rename_i hv
    obtain rfl := Option.some.inj hm2
    have key : ∀ a, a ∈ ((s.edges.filter fun e => e.src ≠ v ∧ e.tgt ≠ v).map fun e : Edg =>
        { e with src := if e.src > v then e.src - 1 else e.src, tgt := if e.tgt > v then e.tgt - 1 else e.tgt }) →
        ∃ a' ∈ s.edges, a'.src ≠ v ∧ a'.tgt ≠ v ∧ a = { a' with
          src := if a'.src > v then a'.src - 1 else a'.src, tgt := if a'.tgt > v then a'.tgt - 1 else a'.tgt } := by
      intro a ha
      obtain ⟨a', h1, h2⟩ := List.mem_map.mp ha
      rw [List.mem_filter] at h1
      have := h1.2
      simp only [ne_eq, decide_eq_true_eq] at this
      exact ⟨a', h1.1, this.1, this.2, h2.symm⟩
    refine ⟨?_, ?_, ?_, ?_, ?_, ?_, ?_, ?_, ?_, ?_, h.cacheLt, h.auto1, ?_⟩
    · intro i j a b ha hb hab
      have := h.vid _ _ a b (getElem_eraseIdx ha) (getElem_eraseIdx hb) hab
      split at this <;> split at this <;> omega
    · intro i j a b ha hb hab hne
      have := h.vname _ _ a b (getElem_eraseIdx ha) (getElem_eraseIdx hb) hab hne
      split at this <;> split at this <;> omega
    · simp only [List.map_map]
      exact h.keys.sublist (List.filter_sublist.map _)
    · intro e he
      obtain ⟨e', e1, -, -, rfl⟩ := key e he
      exact h.keyLt e' e1
    · intro e he f hf hid
      obtain ⟨e', e1, -, -, rfl⟩ := key e he
      obtain ⟨f', f1, -, -, rfl⟩ := key f hf
      exact h.eid e' e1 f' f1 hid
    · intro e he
      obtain ⟨e', e1, -, -, rfl⟩ := key e he
      exact h.epos e' e1
    · intro e he f hf hid
      obtain ⟨e', e1, -, -, rfl⟩ := key e he
      obtain ⟨f', f1, -, -, rfl⟩ := key f hf
      exact h.ename e' e1 f' f1 hid
    · intro e he
      obtain ⟨e', e1, n1, n2, rfl⟩ := key e he
      have := h.ends e' e1
      simp only [List.length_eraseIdx, hv, if_true]
      constructor <;> split <;> omega
    · intro a ha
      exact h.autoV a (List.mem_of_mem_eraseIdx ha)
    · intro e he
      obtain ⟨e', e1, -, -, rfl⟩ := key e he
      exact h.autoE e' e1
    · intro e he
      obtain ⟨e', e1, -, -, rfl⟩ := key e he
      exact h.totals e' e1
  · simp at hm2

theorem inv_setPhases {s t : State} (h : Inv s) {v : Nat} {n : Int} (hm : setPhases s v n = some t) : Inv t := by
  unfold setPhases at hm
  obtain ⟨s1, h1, hm2⟩ := Option.bind_eq_some_iff.mp hm
  obtain ⟨-, rfl⟩ := edit_some h1
  exact inv_modV (inv_reset h) (by intro x; exact ⟨rfl, rfl⟩) hm2

theorem setEdgeIn_some {s t : State} {k : Nat} {l : List Int} (hm : setEdgeIn s k l = some t) :
    s.readonly = false ∧ ∃ s1 e v, modE (reset s) k (fun x => { x with ins := l, totIn := intSum l }) = some s1 ∧
      edge s1 k = some e ∧ s1.verts[e.src]? = some v ∧ ¬ (v.phases > 0 ∧ v.phases ≠ l.length) ∧
      setPhases s1 e.src l.length = some t := by
  unfold setEdgeIn at hm
  obtain ⟨s1, h1, hm2⟩ := Option.bind_eq_some_iff.mp hm
  obtain ⟨hr, rfl⟩ := edit_some h1
  obtain ⟨s3, h3, hm4⟩ := Option.bind_eq_some_iff.mp hm2
  obtain ⟨e, h4, hm5⟩ := Option.bind_eq_some_iff.mp hm4
  obtain ⟨v, h5, hm6⟩ := Option.bind_eq_some_iff.mp hm5
  refine ⟨hr, s3, e, v, h3, h4, h5, ?_⟩
  split at hm6
  · simp at hm6
  · exact ⟨by assumption, hm6⟩

theorem setEdgeOut_some {s t : State} {k : Nat} {l : List Int} (hm : setEdgeOut s k l = some t) :
    s.readonly = false ∧ ∃ s1 e v, modE (reset s) k (fun x => { x with outs := l, totOut := intSum l }) = some s1 ∧
      edge s1 k = some e ∧ s1.verts[e.tgt]? = some v ∧ ¬ (v.phases > 0 ∧ v.phases ≠ l.length) ∧
      setPhases s1 e.tgt l.length = some t := by
  unfold setEdgeOut at hm
  obtain ⟨s1, h1, hm2⟩ := Option.bind_eq_some_iff.mp hm
  obtain ⟨hr, rfl⟩ := edit_some h1
  obtain ⟨s3, h3, hm4⟩ := Option.bind_eq_some_iff.mp hm2
  obtain ⟨e, h4, hm5⟩ := Option.bind_eq_some_iff.mp hm4
  obtain ⟨v, h5, hm6⟩ := Option.bind_eq_some_iff.mp hm5
  refine ⟨hr, s3, e, v, h3, h4, h5, ?_⟩
  split at hm6
  · simp at hm6
  · exact ⟨by assumption, hm6⟩

theorem inv_setEdgeIn {s t : State} (h : Inv s) {k : Nat} {l : List Int} (hm : setEdgeIn s k l = some t) : Inv t := by
  obtain ⟨-, s1, e, v, h1, -, -, -, h2⟩ := setEdgeIn_some hm
  exact inv_setPhases (inv_modE (inv_reset h) (by intro x; exact ⟨rfl, rfl, rfl, rfl, rfl, fun hx => ⟨rfl, hx.2⟩⟩) h1) h2

theorem inv_setEdgeOut {s t : State} (h : Inv s) {k : Nat} {l : List Int} (hm : setEdgeOut s k l = some t) : Inv t := by
  obtain ⟨-, s1, e, v, h1, -, -, -, h2⟩ := setEdgeOut_some hm
  exact inv_setPhases (inv_modE (inv_reset h) (by intro x; exact ⟨rfl, rfl, rfl, rfl, rfl, fun hx => ⟨hx.1, rfl⟩⟩) h1) h2

theorem inv_getFineGCD {s t : State} (h : Inv s) {k : Nat} {x : Int} (hm : getFineGCD s k = some (x, t)) : Inv t := by
  unfold getFineGCD at hm
  obtain ⟨e, h1, hm2⟩ := Option.bind_eq_some_iff.mp hm
  have he := List.mem_of_find?_eq_some h1
  cases hl : s.cache.lookup e.id with
  | some y => simp only [hl, Option.some.injEq, Prod.mk.injEq] at hm2; rw [← hm2.2]; exact h
  | none =>
    simp only [hl] at hm2
    obtain ⟨y, -, hm3⟩ := Option.bind_eq_some_iff.mp hm2
    simp only [Option.some.injEq, Prod.mk.injEq] at hm3
    rw [← hm3.2]
    refine ⟨h.vid, h.vname, h.keys, h.keyLt, h.eid, h.epos, h.ename, h.ends, h.autoV, h.autoE, ?_, h.auto1, h.totals⟩
    intro p hp
    rcases List.mem_append.mp hp with hp | hp
    · exact h.cacheLt p hp
    · simp only [List.mem_singleton] at hp
      rw [hp]; exact h.autoE e he

theorem putNi_getElem {vs : List Vtx} {N} {i : Nat} {a : Vtx} (h : (putNi vs N)[i]? = some a) :
    ∃ (a' : Vtx) (n : Int), vs[i]? = some a' ∧ a = { a' with ni := n } := by
  unfold putNi at h
  rw [List.getElem?_ofFn] at h
  split at h
  · rename_i hi
    exact ⟨vs[i], _, List.getElem?_eq_getElem hi, (Option.some.inj h).symm⟩
  · simp at h

theorem putNi_length (vs : List Vtx) (N) : (putNi vs N).length = vs.length := by simp [putNi]

theorem computeRV_cases {s t : State} {b : Bool} (hm : computeRV s = some (b, t)) :
    (s.repDone = true ∧ b = true ∧ t = s) ∨
    (s.repDone = false ∧ ∃ g r, repOf (s.verts.map fun v => v.phases) s.edges = some g ∧ Rep.compute g = some r ∧
      ((r = none ∧ b = false ∧ t = { s with readonly := true }) ∨
       ∃ N, r = some N ∧ b = true ∧ t = { s with readonly := true, repDone := true, verts := putNi s.verts N })) := by
  unfold computeRV at hm
  split at hm
  · simp only [Option.some.injEq, Prod.mk.injEq] at hm
    exact Or.inl ⟨by assumption, hm.1.symm, hm.2.symm⟩
  · rename_i hr
    obtain ⟨g, h1, hm2⟩ := Option.bind_eq_some_iff.mp hm
    obtain ⟨r, h2, hm3⟩ := Option.bind_eq_some_iff.mp hm2
    refine Or.inr ⟨by simpa using hr, g, r, h1, h2, ?_⟩
    cases r with
    | none =>
      simp only [Option.some.injEq, Prod.mk.injEq] at hm3
      exact Or.inl ⟨rfl, hm3.1.symm, hm3.2.symm⟩
    | some N =>
      simp only [Option.some.injEq, Prod.mk.injEq] at hm3
      exact Or.inr ⟨N, rfl, hm3.1.symm, hm3.2.symm⟩

theorem inv_computeRV {s t : State} (h : Inv s) {b : Bool} (hm : computeRV s = some (b, t)) : Inv t := by
  rcases computeRV_cases hm with ⟨-, -, rfl⟩ | ⟨-, g, r, -, -, ⟨-, -, rfl⟩ | ⟨N, -, -, rfl⟩⟩
  · exact h
  · exact ⟨h.vid, h.vname, h.keys, h.keyLt, h.eid, h.epos, h.ename, h.ends, h.autoV, h.autoE, h.cacheLt, h.auto1, h.totals⟩
  · refine ⟨?_, ?_, h.keys, h.keyLt, h.eid, h.epos, h.ename, ?_, ?_, h.autoE, h.cacheLt, h.auto1, h.totals⟩
    · intro i j a b ha hb hab
      obtain ⟨a', _, a1, rfl⟩ := putNi_getElem ha
      obtain ⟨b', _, b1, rfl⟩ := putNi_getElem hb
      exact h.vid i j a' b' a1 b1 hab
    · intro i j a b ha hb hab hne
      obtain ⟨a', _, a1, rfl⟩ := putNi_getElem ha
      obtain ⟨b', _, b1, rfl⟩ := putNi_getElem hb
      exact h.vname i j a' b' a1 b1 hab hne
    · intro e he
      have := h.ends e he
      simp only [putNi_length]; exact this
    · intro a ha
      obtain ⟨i, hi⟩ := List.mem_iff_getElem?.mp ha
      obtain ⟨a', _, a1, rfl⟩ := putNi_getElem hi
      exact h.autoV a' (List.mem_of_getElem? a1)

theorem inv_setIPhases {s t : State} (h : Inv s) {v : Nat} {n : Int} (hm : setIPhases s v n = some t) : Inv t := by
  unfold setIPhases at hm
  obtain ⟨s1, h1, hm2⟩ := Option.bind_eq_some_iff.mp hm
  obtain ⟨-, rfl⟩ := edit_some h1
  exact inv_modV (inv_reset h) (by intro x; exact ⟨rfl, rfl⟩) hm2

theorem setEdgeIIn_some {s t : State} {k : Nat} {l : List Int} (hm : setEdgeIIn s k l = some t) :
    s.readonly = false ∧ ∃ s1 e v, modE (reset s) k (fun x => { x with iins := l }) = some s1 ∧
      edge s1 k = some e ∧ s1.verts[e.src]? = some v ∧ ¬ (v.iphases > 0 ∧ v.iphases ≠ l.length) ∧
      setIPhases s1 e.src l.length = some t := by
  unfold setEdgeIIn at hm
  obtain ⟨s1, h1, hm2⟩ := Option.bind_eq_some_iff.mp hm
  obtain ⟨hr, rfl⟩ := edit_some h1
  obtain ⟨s3, h3, hm4⟩ := Option.bind_eq_some_iff.mp hm2
  obtain ⟨e, h4, hm5⟩ := Option.bind_eq_some_iff.mp hm4
  obtain ⟨v, h5, hm6⟩ := Option.bind_eq_some_iff.mp hm5
  refine ⟨hr, s3, e, v, h3, h4, h5, ?_⟩
  split at hm6
  · simp at hm6
  · exact ⟨by assumption, hm6⟩

theorem setEdgeIOut_some {s t : State} {k : Nat} {l : List Int} (hm : setEdgeIOut s k l = some t) :
    s.readonly = false ∧ ∃ s1 e v, modE (reset s) k (fun x => { x with iouts := l }) = some s1 ∧
      edge s1 k = some e ∧ s1.verts[e.tgt]? = some v ∧ ¬ (v.iphases > 0 ∧ v.iphases ≠ l.length) ∧
      setIPhases s1 e.tgt l.length = some t := by
  unfold setEdgeIOut at hm
  obtain ⟨s1, h1, hm2⟩ := Option.bind_eq_some_iff.mp hm
  obtain ⟨hr, rfl⟩ := edit_some h1
  obtain ⟨s3, h3, hm4⟩ := Option.bind_eq_some_iff.mp hm2
  obtain ⟨e, h4, hm5⟩ := Option.bind_eq_some_iff.mp hm4
  obtain ⟨v, h5, hm6⟩ := Option.bind_eq_some_iff.mp hm5
  refine ⟨hr, s3, e, v, h3, h4, h5, ?_⟩
  split at hm6
  · simp at hm6
  · exact ⟨by assumption, hm6⟩

theorem inv_setEdgeIIn {s t : State} (h : Inv s) {k : Nat} {l : List Int} (hm : setEdgeIIn s k l = some t) : Inv t := by
  obtain ⟨-, s1, e, v, h1, -, -, -, h2⟩ := setEdgeIIn_some hm
  exact inv_setIPhases (inv_modE (inv_reset h) (by intro x; exact ⟨rfl, rfl, rfl, rfl, rfl, fun hx => hx⟩) h1) h2

theorem inv_setEdgeIOut {s t : State} (h : Inv s) {k : Nat} {l : List Int} (hm : setEdgeIOut s k l = some t) : Inv t := by
  obtain ⟨-, s1, e, v, h1, -, -, -, h2⟩ := setEdgeIOut_some hm
  exact inv_setIPhases (inv_modE (inv_reset h) (by intro x; exact ⟨rfl, rfl, rfl, rfl, rfl, fun hx => hx⟩) h1) h2

theorem setDurs_some {s t : State} {v : Nat} {l : List ℚ} (hm : setDurs s v l = some t) :
    s.readonly = false ∧ ∃ x, s.verts[v]? = some x ∧ (l.length : Int) = x.phases ∧
      modV (reset s) v (fun x => { x with durs := l }) = some t := by
  unfold setDurs at hm
  obtain ⟨s1, h1, hm2⟩ := Option.bind_eq_some_iff.mp hm
  obtain ⟨hr, rfl⟩ := edit_some h1
  obtain ⟨x, h3, hm4⟩ := Option.bind_eq_some_iff.mp hm2
  split at hm4
  · exact ⟨hr, x, h3, by assumption, hm4⟩
  · simp at hm4

theorem setIDurs_some {s t : State} {v : Nat} {l : List ℚ} (hm : setIDurs s v l = some t) :
    s.readonly = false ∧ ∃ x, s.verts[v]? = some x ∧ (l.length : Int) = x.iphases ∧
      modV (reset s) v (fun x => { x with idurs := l }) = some t := by
  unfold setIDurs at hm
  obtain ⟨s1, h1, hm2⟩ := Option.bind_eq_some_iff.mp hm
  obtain ⟨hr, rfl⟩ := edit_some h1
  obtain ⟨x, h3, hm4⟩ := Option.bind_eq_some_iff.mp hm2
  split at hm4
  · exact ⟨hr, x, h3, by assumption, hm4⟩
  · simp at hm4

theorem inv_call {s t : State} (h : Inv s) {o : Op} (hm : call s o = some t) : Inv t := by
  cases o with
  | addVertex => exact inv_addVertex h hm
  | addVertexId id => exact inv_addVertexId h hm
  | addVertexName n => exact inv_named (fun u hu => inv_addVertex h hu) hm
  | addVertexIdName id n => exact inv_named (fun u hu => inv_addVertexId h hu) hm
  | removeVertex v => exact inv_removeVertex h hm
  | addEdge a b => exact inv_addEdge h hm
  | addEdgeId a b id => exact inv_addEdgeUnsafe h hm
  | addEdgeName a b n => exact inv_namedE (fun u hu => inv_addEdge h hu) hm
  | addEdgeIdName a b id n => exact inv_namedE (fun u hu => inv_addEdgeUnsafe h hu) hm
  | removeEdge k => exact inv_removeEdge h hm
  | setVertexId v id => exact inv_setVertexId' h hm
  | setEdgeId k id => exact inv_setEdgeId' h hm
  | setVertexName v n => exact inv_setVertexName h hm
  | setEdgeName k n => exact inv_setEdgeName h hm
  | setPhases v n => exact inv_setPhases h hm
  | setEdgeIn k l => exact inv_setEdgeIn h hm
  | setEdgeOut k l => exact inv_setEdgeOut h hm
  | setIPhases v n => exact inv_setIPhases h hm
  | setEdgeIIn k l => exact inv_setEdgeIIn h hm
  | setEdgeIOut k l => exact inv_setEdgeIOut h hm
  | setDurs v l =>
    obtain ⟨-, x, -, -, h1⟩ := setDurs_some hm
    exact inv_modV (inv_reset h) (by intro x; exact ⟨rfl, rfl⟩) h1
  | setIDurs v l =>
    obtain ⟨-, x, -, -, h1⟩ := setIDurs_some hm
    exact inv_modV (inv_reset h) (by intro x; exact ⟨rfl, rfl⟩) h1
  | setPreload k p =>
    simp only [call, setPreload] at hm
    split at hm
    · simp at hm
    · exact inv_modE h (by intro x; exact ⟨rfl, rfl, rfl, rfl, rfl, fun hx => hx⟩) hm
  | setNi v n =>
    simp only [call, setNi] at hm
    split at hm
    · simp at hm
    · exact inv_modV h (by intro x; exact ⟨rfl, rfl⟩) hm
  | getFineGCD k =>
    obtain ⟨⟨x, u⟩, h1, rfl⟩ := Option.map_eq_some_iff.mp hm
    exact inv_getFineGCD h h1
  | computeRV =>
    obtain ⟨⟨x, u⟩, h1, rfl⟩ := Option.map_eq_some_iff.mp hm
    exact inv_computeRV h h1
  | readOnly =>
    obtain rfl := Option.some.inj hm
    exact ⟨h.vid, h.vname, h.keys, h.keyLt, h.eid, h.epos, h.ename, h.ends, h.autoV, h.autoE, h.cacheLt, h.auto1, h.totals⟩
  | reset => obtain rfl := Option.some.inj hm; exact inv_reset h

theorem inv_calls {s t : State} (h : Inv s) {os : List Op} (hm : calls s os = some t) : Inv t := by
  induction os generalizing s with
  | nil => obtain rfl := Option.some.inj hm; exact h
  | cons o os ih =>
    obtain ⟨u, h1, hm2⟩ := Option.bind_eq_some_iff.mp hm
    exact ih (inv_call h h1) hm2

end Kiter.DF
