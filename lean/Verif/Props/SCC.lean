/-
Strongly connected components and cycle detection: C43, C44.
-/
import Verif.Lemmas.SCC
import Verif.Props.Dataflow

set_option autoImplicit false

namespace Kiter

open SCC

/-! Specification -/

/-- `b` can be reached from `a` along channels. -/
def SCC.Reach (g : Graph) : Int → Int → Prop := Relation.ReflTransGen fun a b => (a, b) ∈ g.edges

/-- Distinct ids, and channels between tasks of the graph. -/
def SCC.Valid (g : Graph) : Prop := g.ids.Nodup ∧ ∀ e ∈ g.edges, e.1 ∈ g.ids ∧ e.2 ∈ g.ids

/-- A directed cycle through `c.length` pairwise different tasks: each is followed by the next, the last by the first. -/
def SCC.IsCycle (g : Graph) (c : List Int) : Prop :=
  c.Nodup ∧ (∀ i (hi : i + 1 < c.length), (c[i], c[i + 1]) ∈ g.edges) ∧
    ∃ a z, c.head? = some a ∧ c.getLast? = some z ∧ (z, a) ∈ g.edges

theorem SCC.path_reach {g : Graph} {a b : Int} : Path g.Edge [] a b ↔ Reach g a b := by
  constructor
  · intro p; exact rtg_mono (fun _ _ h1 => h1.1) p
  · intro p; exact rtg_mono (fun _ _ h1 => ⟨h1, by simp, by simp⟩) p

theorem SCC.path_swap {g : Graph} {vis : List Int} {a b : Int} (p : Path (fun a b => g.Edge b a) vis a b) :
    Reach g b a := by
  induction p with
  | refl => exact .refl
  | tail _ h1 ih => exact .head h1.1 ih

/-- State of the second loop: `vis` is the union of the components found, which are the classes of mutual reachability. -/
structure SCC.Done (g : Graph) (vis : List Int) (cs : List (List Int)) : Prop where
  vis_iff : ∀ x, x ∈ vis ↔ x ∈ cs.flatten
  nodup : cs.flatten.Nodup
  ne : ∀ c ∈ cs, c ≠ []
  sub : ∀ x ∈ cs.flatten, x ∈ g.ids
  whole : ∀ c ∈ cs, ∀ u ∈ c, ∀ v, v ∈ c ↔ Reach g u v ∧ Reach g v u

theorem SCC.pop_done {g : Graph} (hg : ∀ e ∈ g.edges, e.1 ∈ g.ids ∧ e.2 ∈ g.ids) {f : Nat} (hf : g.ids.length < f)
    {A : List Int} {z : Int} {B : List Int} {vis : List Int} {cs : List (List Int)} (hd : Done g vis cs)
    (hz : z ∈ g.ids) (hall : ∀ x ∈ g.ids, x ∈ A ++ z :: B) (hA : ∀ x ∈ A, x ∈ vis)
    (ho : ∀ u ∈ B, Reach g u z → ∃ w ∈ A ++ [z], Reach g w u ∧ Reach g u w) :
    ∃ vis' cs', popStack g f (vis, cs) z = some (vis', cs') ∧ Done g vis' cs' ∧ ∀ x ∈ A ++ [z], x ∈ vis' := by
  unfold popStack
  by_cases hm : z ∈ vis
  · refine ⟨vis, cs, by simp [hm], hd, ?_⟩
    intro x hx
    rcases List.mem_append.mp hx with h | h
    · exact hA x h
    · simp only [List.mem_singleton] at h; subst h; exact hm
  · have hleft : left g vis < f := lt_of_le_of_lt (List.length_filter_le _ _) hf
    obtain ⟨N, t, h1, h2, h3, h4⟩ := dfsTranspose_seen hg f z hz (vis, []) hleft
    have hzN : z ∈ N := (h2.cover z (by simp)).resolve_left hm
    -- visited vertices form whole classes
    have cls : ∀ x y, x ∈ vis → Reach g x y → Reach g y x → y ∈ vis := fun x y hx p q => by
      rw [hd.vis_iff] at hx ⊢
      obtain ⟨c, hc, hxc⟩ := List.mem_flatten.mp hx
      exact List.mem_flatten.mpr ⟨c, hc, (hd.whole c hc x hxc y).mpr ⟨p, q⟩⟩
    have reach_mem : ∀ a b, Reach g a b → a ∈ g.ids ∨ a = b := fun a b p => by
      induction p using Relation.ReflTransGen.head_induction_on with
      | refl => exact .inr rfl
      | head h _ _ => exact .inl (hg _ h).1
    have toz : ∀ x ∈ N, Reach g x z ∧ Reach g z x := fun x hx => by
      obtain ⟨n, hn, hn2, p⟩ := h2.reach x hx
      simp only [List.mem_singleton] at hn; subst hn
      have r : Reach g x n := path_swap p
      refine ⟨r, ?_⟩
      by_cases hxz : x = n
      · subst hxz; exact .refl
      · have hxi : x ∈ g.ids := (reach_mem _ _ r).resolve_right hxz
        have hxv := h2.fresh x hx
        have hxB : x ∈ B := by
          have := hall x hxi
          simp only [List.mem_append, List.mem_cons] at this
          rcases this with h | h | h
          · exact absurd (hA x h) hxv
          · exact absurd h hxz
          · exact h
        obtain ⟨w, hw, q1, q2⟩ := ho x hxB r
        rcases List.mem_append.mp hw with h | h
        · exact absurd (cls w x (hA w h) q1 q2) hxv
        · simp only [List.mem_singleton] at h; subst h; exact q1
    have tozc : ∀ x, Reach g x z → Reach g z x → x ∈ N := fun x r q => by
      induction r using Relation.ReflTransGen.head_induction_on with
      | refl => exact hzN
      | @head a c h p ih =>
        have hc := ih (q.tail h)
        rcases h2.closed c hc a h with hv | hn
        · exact absurd (cls a z hv (.head h p) q) hm
        · exact hn
    refine ⟨t.1, cs ++ [N], ?_, ?_, ?_⟩
    · simp only [hm, if_false, h1]
      simp [h4]
    · constructor
      · intro x; rw [h3]; simp only [List.flatten_append, List.flatten_cons, List.flatten_nil, List.append_nil,
          List.mem_append, ← hd.vis_iff]
      · simp only [List.flatten_append, List.flatten_cons, List.flatten_nil, List.append_nil]
        refine List.nodup_append.mpr ⟨hd.nodup, h2.nodup, fun x hx y hy hxy => ?_⟩
        subst hxy; exact h2.fresh x hy ((hd.vis_iff x).mpr hx)
      · intro c hc
        rcases List.mem_append.mp hc with h | h
        · exact hd.ne c h
        · simp only [List.mem_singleton] at h; subst h; exact List.ne_nil_of_mem hzN
      · intro x hx
        simp only [List.flatten_append, List.flatten_cons, List.flatten_nil, List.append_nil, List.mem_append] at hx
        rcases hx with h | h
        · exact hd.sub x h
        · rcases reach_mem _ _ (toz x h).1 with h | h
          · exact h
          · exact h ▸ hz
      · intro c hc u hu v
        rcases List.mem_append.mp hc with h | h
        · exact hd.whole c h u hu v
        · simp only [List.mem_singleton] at h; subst h
          have hu2 := toz u hu
          constructor
          · intro hv; have hv2 := toz v hv
            exact ⟨hu2.1.trans hv2.2, hv2.1.trans hu2.2⟩
          · rintro ⟨p, q⟩
            exact tozc v (q.trans hu2.1) (hu2.2.trans p)
    · intro x hx
      rw [h3]
      rcases List.mem_append.mp hx with h | h
      · exact .inl (hA x h)
      · simp only [List.mem_singleton] at h; subst h; exact .inr hzN

theorem SCC.pops_done {g : Graph} (hg : ∀ e ∈ g.edges, e.1 ∈ g.ids ∧ e.2 ∈ g.ids) {f : Nat} (hf : g.ids.length < f)
    (B : List Int) : ∀ (A : List Int) (vis : List Int) (cs : List (List Int)), Done g vis cs →
    (∀ x ∈ A ++ B, x ∈ g.ids) → (∀ x ∈ g.ids, x ∈ A ++ B) → (∀ x ∈ A, x ∈ vis) →
    (∀ A' z B', A ++ B = A' ++ z :: B' → ∀ u ∈ B', Reach g u z → ∃ w ∈ A' ++ [z], Reach g w u ∧ Reach g u w) →
    ∃ vis' cs', B.foldlM (popStack g f) (vis, cs) = some (vis', cs') ∧ Done g vis' cs' ∧ ∀ x ∈ A ++ B, x ∈ vis' := by
  induction B with
  | nil => intro A vis cs hd _ _ hA _; exact ⟨vis, cs, by simp, hd, by simpa using hA⟩
  | cons z B ih =>
    intro A vis cs hd hsub hall hA ho
    obtain ⟨v1, c1, h1, h2, h3⟩ := pop_done hg hf hd (hsub z (by simp)) hall hA (ho A z B rfl)
    obtain ⟨v2, c2, k1, k2, k3⟩ := ih (A ++ [z]) v1 c1 h2 (by simpa using hsub) (by simpa using hall) h3 (by simpa using ho)
    exact ⟨v2, c2, by rw [List.foldlM_cons, h1]; exact k1, k2, by simpa using k3⟩

/-- C43: on every graph the component search terminates; its components are non-empty, contain every task exactly once, and
two tasks are in one component exactly when each can be reached from the other. -/
theorem C43_exact (g : Graph) (hg : Valid g) :
    ∃ cs, kosaraju g = some cs ∧ cs.flatten.Perm g.ids ∧ (∀ c ∈ cs, c ≠ []) ∧
      ∀ c ∈ cs, ∀ u ∈ c, ∀ v, v ∈ c ↔ Reach g u v ∧ Reach g v u := by
  obtain ⟨hnd, hg⟩ := hg
  set f := g.ids.length + 1 with hf
  set L := g.ids.insertionSort (· ≤ ·) with hL
  have hLmem : ∀ x, x ∈ L ↔ x ∈ g.ids := fun x => by rw [hL]; simp
  obtain ⟨N, t, h1, h2, h3, h4⟩ := fold_post (g := g) (R := g.Edge) (k := f)
    (F := fun v s => if v ∈ s.1 then some s else dfsStack g f v s)
    (fun v hv s hs => by
      by_cases hm : v ∈ s.1
      · exact ⟨[], s, by simp [hm], Post.nil (by simpa using hm), by simp, by simp⟩
      · simpa [hm] using dfsStack_post hg f v hv s hs) L (fun n hn => (hLmem n).mp hn) ([], [])
    (lt_of_le_of_lt (List.length_filter_le _ _) (by omega))
  simp only [List.append_nil] at h4
  have hNids : ∀ x, x ∈ N ↔ x ∈ g.ids := fun x => by
    constructor
    · intro hx
      obtain ⟨n, hn, -, p⟩ := h2.reach x hx
      rcases Relation.ReflTransGen.cases_tail p with h | ⟨y, -, h⟩
      · rw [h]; exact (hLmem n).mp hn
      · exact (hg _ h.1).2
    · intro hx; exact (h2.cover x ((hLmem x).mpr hx)).resolve_left (by simp)
  obtain ⟨v2, cs, k1, k2, k3⟩ := pops_done hg (f := f) (by omega) N [] [] []
    ⟨by simp, by simp, by simp, by simp, by simp⟩ (fun x hx => (hNids x).mp (by simpa using hx))
    (fun x hx => by simpa using (hNids x).mpr hx) (by simp)
    (fun A z B hd u hu p => by
      obtain ⟨w, hw, q1, q2⟩ := h2.order A z B (by simpa using hd) u hu (path_reach.mpr p)
      exact ⟨w, hw, path_reach.mp q1, path_reach.mp q2⟩)
  refine ⟨cs, ?_, ?_, k2.ne, k2.whole⟩
  · unfold kosaraju
    simp only [← hf, ← hL, h1, Option.bind_eq_bind, Option.bind_some]
    rw [h4, k1]; rfl
  · rw [List.perm_ext_iff_of_nodup k2.nodup hnd]
    intro x
    exact ⟨k2.sub x, fun hx => (k2.vis_iff x).mp (k3 x (by simpa using (hNids x).mpr hx))⟩

/-- What the component search reads of a graph built through the interface. -/
def SCC.ofState (s : DF.State) : Graph :=
  ⟨s.verts.map fun v => v.id, s.edges.filterMap fun e => do
    let a ← s.verts[e.src]?
    let b ← s.verts[e.tgt]?
    some (a.id, b.id)⟩

/-- Every graph built through the interface meets the hypothesis of C43 and C44. -/
theorem C43_valid {ops : List DF.Op} {s : DF.State} (h : DF.calls DF.empty ops = some s) : Valid (ofState s) := by
  have hv := (DF.inv_calls DF.inv_empty h).vid
  refine ⟨?_, ?_⟩
  · rw [List.nodup_iff_injective_getElem]
    rintro ⟨i, hi⟩ ⟨j, hj⟩ hij
    simp only [ofState, List.length_map] at hi hj
    simp only [ofState, List.getElem_map] at hij
    exact Fin.ext (hv i j s.verts[i] s.verts[j] (by simp) (by simp) hij)
  rintro ⟨a, b⟩ he
  unfold ofState at he ⊢
  simp only [List.mem_filterMap] at he
  obtain ⟨e, -, h1⟩ := he
  cases ha : s.verts[e.src]? with
  | none => simp [ha] at h1
  | some x =>
    cases hb : s.verts[e.tgt]? with
    | none => simp [ha, hb] at h1
    | some y =>
      simp [ha, hb] at h1
      obtain ⟨rfl, rfl⟩ := h1
      exact ⟨List.mem_map.mpr ⟨x, List.mem_of_getElem? ha, rfl⟩, List.mem_map.mpr ⟨y, List.mem_of_getElem? hb, rfl⟩⟩

/-! ### C44 -/

/-- A simple path as a list. -/
theorem SCC.simple_path {g : Graph} {a b : Int} (p : Reach g a b) :
    ∃ l : List Int, l.Nodup ∧ (∀ i (hi : i + 1 < l.length), (l[i], l[i + 1]) ∈ g.edges) ∧ l.head? = some a ∧
      l.getLast? = some b := by
  induction p using Relation.ReflTransGen.head_induction_on with
  | refl => exact ⟨[b], by simp, by simp, by simp, by simp⟩
  | @head a c h _ ih =>
    obtain ⟨l, hn, hc, hh, hl⟩ := ih
    by_cases hm : a ∈ l
    · obtain ⟨A, B, rfl⟩ := List.append_of_mem hm
      refine ⟨a :: B, (List.nodup_append.mp hn).2.1, ?_, by simp, ?_⟩
      · intro i hi
        have := hc (A.length + i) (by simp only [List.length_append]; omega)
        simpa [List.getElem_append_right, Nat.add_assoc] using this
      · rw [List.getLast?_append_of_ne_nil _ (by simp)] at hl; exact hl
    · refine ⟨a :: l, List.nodup_cons.mpr ⟨hm, hn⟩, ?_, by simp, ?_⟩
      · intro i hi
        cases i with
        | zero =>
          cases l with
          | nil => simp at hi
          | cons x l => simp only [List.head?_cons, Option.some.injEq] at hh; subst hh; simpa using h
        | succ i => simpa using hc i (by simpa using hi)
      · cases l with
        | nil => simp at hl
        | cons x l => simpa using hl

theorem SCC.chain_reach {g : Graph} (l : List Int) (hc : ∀ i (hi : i + 1 < l.length), (l[i], l[i + 1]) ∈ g.edges)
    (i j : Nat) (hij : i ≤ j) (hj : j < l.length) : Reach g (l[i]'(by omega)) l[j] := by
  induction j with
  | zero => obtain rfl : i = 0 := by omega
            exact .refl
  | succ j ih =>
    rcases Nat.lt_or_ge i (j + 1) with h | h
    · exact (ih (by omega) (by omega)).tail (hc j hj)
    · obtain rfl : i = j + 1 := by omega
      exact .refl

/-- C44: `has_cycles` always answers, and answers true exactly when some directed cycle passes through at least two tasks. -/
theorem C44_cycles (g : Graph) (hg : Valid g) :
    ∃ b, hasCycles g = some b ∧ (b = true ↔ ∃ c, IsCycle g c ∧ 2 ≤ c.length) := by
  obtain ⟨cs, h1, h2, h3, h4⟩ := C43_exact g hg
  have hnd : cs.flatten.Nodup := h2.nodup_iff.mpr hg.1
  refine ⟨_, by rw [hasCycles, h1]; rfl, ?_⟩
  simp only [List.any_eq_true, decide_eq_true_eq]
  constructor
  · rintro ⟨c, hc, hl⟩
    obtain ⟨u, v, c', rfl⟩ : ∃ u v c', c = u :: v :: c' := by
      match c, hl with
      | u :: v :: c', _ => exact ⟨u, v, c', rfl⟩
    have huv : u ≠ v := by
      have := (List.nodup_flatten.mp hnd).1 _ hc
      simp only [List.nodup_cons, List.mem_cons, not_or] at this
      exact this.1.1
    obtain ⟨p, q⟩ := (h4 _ hc u (by simp) v).mp (by simp)
    rcases Relation.ReflTransGen.cases_head p with h | ⟨w, hw, p1⟩
    · exact absurd h huv
    · by_cases hwu : w = u
      · -- drop leading self edges: use a simple path from v to u instead
        obtain ⟨l, a1, a2, a3, a4⟩ := simple_path q
        obtain ⟨m, b1, b2, b3, b4⟩ := simple_path p
        -- second vertex of the simple path from u to v
        match m, b1, b2, b3, b4 with
        | [x], _, _, b3, b4 =>
          simp at b3 b4; exact absurd (b3.symm.trans b4) huv
        | x :: y :: m, b1, b2, b3, b4 =>
          simp only [List.head?_cons, Option.some.injEq] at b3; subst b3
          have e1 : (x, y) ∈ g.edges := by simpa using b2 0 (by simp)
          have hxy : y ≠ x := by
            simp only [List.nodup_cons, List.mem_cons, not_or] at b1
            exact fun h => b1.1.1 h.symm
          have r : Reach g y v := by
            have hlast : (x :: y :: m)[m.length + 1]'(by simp) = v := by
              rw [List.getLast?_eq_getElem?] at b4
              simpa using b4
            have := chain_reach (x :: y :: m) b2 1 (m.length + 1) (by omega) (by simp)
            rw [hlast] at this; exact this
          obtain ⟨k, d1, d2, d3, d4⟩ := simple_path (r.trans q)
          refine ⟨k, ⟨d1, d2, y, x, d3, d4, e1⟩, ?_⟩
          match k, d3, d4 with
          | [z], d3, d4 => simp at d3 d4; exact absurd (d3.symm.trans d4) hxy
          | _ :: _ :: _, _, _ => simp
      · obtain ⟨k, d1, d2, d3, d4⟩ := simple_path (p1.trans q)
        refine ⟨k, ⟨d1, d2, w, u, d3, d4, hw⟩, ?_⟩
        match k, d3, d4 with
        | [z], d3, d4 => simp at d3 d4; exact absurd (d3.symm.trans d4) hwu
        | _ :: _ :: _, _, _ => simp
  · rintro ⟨c, ⟨hn, hc, a, z, ha, hz, he⟩, hl⟩
    match c, hl with
    | x :: y :: c', _ =>
      simp only [List.head?_cons, Option.some.injEq] at ha; subst ha
      have exy : (x, y) ∈ g.edges := by simpa using hc 0 (by simp)
      have hlast : (x :: y :: c')[c'.length + 1]'(by simp) = z := by
        rw [List.getLast?_eq_getElem?] at hz
        simpa using hz
      have r : Reach g y x := by
        have := chain_reach (x :: y :: c') hc 1 (c'.length + 1) (by omega) (by simp)
        rw [hlast] at this; exact this.tail he
      have hx : x ∈ cs.flatten := h2.mem_iff.mpr (hg.2 _ exy).1
      obtain ⟨d, hd, hxd⟩ := List.mem_flatten.mp hx
      have hyd : y ∈ d := (h4 d hd x hxd y).mpr ⟨.single exy, r⟩
      have hxy : x ≠ y := by
        simp only [List.nodup_cons, List.mem_cons, not_or] at hn
        exact hn.1.1
      refine ⟨d, hd, ?_⟩
      match d, hxd, hyd with
      | [w], hxd, hyd => simp at hxd hyd; exact absurd (hxd.trans hyd.symm) hxy
      | _ :: _ :: _, _, _ => simp

/-- A self edge is a directed cycle through one task that `has_cycles` does not report. -/
theorem C44_self_edge : ∃ g, Valid g ∧ IsCycle g [1] ∧ hasCycles g = some false :=
  ⟨⟨[1, 2], [(1, 1), (1, 2)]⟩, ⟨by decide, by decide⟩, ⟨by simp, by simp, 1, 1, rfl, rfl, by simp⟩, by decide +kernel⟩

example : Valid ⟨[3, 1, 2, 7], [(1, 2), (2, 3), (3, 1), (3, 7)]⟩ := by constructor <;> decide
example : kosaraju ⟨[3, 1, 2, 7], [(1, 2), (2, 3), (3, 1), (3, 7)]⟩ = some [[1, 3, 2], [7]] := by decide +kernel
example : hasCycles ⟨[3, 1, 2, 7], [(1, 2), (2, 3), (3, 1), (3, 7)]⟩ = some true := by decide +kernel
example : hasCycles ⟨[3, 1, 2, 7], [(1, 2), (2, 3), (3, 7)]⟩ = some false := by decide +kernel

end Kiter
