/-
The effect of `resolveSrcConflicts` on the lists of tasks and channels.
-/
import Verif.Lemmas.SoftwareNoC
import Verif.Props.Conflict

set_option autoImplicit false

namespace Kiter.DF

/-- The tasks are still there, with the same identity and durations. -/
def SameTasks (vs ws : List Vtx) : Prop :=
  ∀ (i : Nat) (x : Vtx), vs[i]? = some x → ∃ y, ws[i]? = some y ∧ y.id = x.id ∧ y.name = x.name ∧ y.durs = x.durs

theorem SameTasks.refl (vs : List Vtx) : SameTasks vs vs := fun _ x h => ⟨x, h, rfl, rfl, rfl⟩

theorem SameTasks.trans {a b c : List Vtx} (h1 : SameTasks a b) (h2 : SameTasks b c) : SameTasks a c := by
  intro i x hx
  obtain ⟨y, hy, e1, e2, e3⟩ := h1 i x hx
  obtain ⟨z, hz, f1, f2, f3⟩ := h2 i y hy
  exact ⟨z, hz, f1.trans e1, f2.trans e2, f3.trans e3⟩

theorem SameTasks.modify (vs : List Vtx) (v : Nat) (n : Int) :
    SameTasks vs (vs.modify v fun x => { x with phases := n }) := by
  intro i x hx
  rw [List.getElem?_modify, hx]
  by_cases h : v = i
  · simp only [h, if_true, Option.map_eq_map, Option.map_some]; exact ⟨_, rfl, rfl, rfl, rfl⟩
  · simp only [h, if_false, Option.map_eq_map, Option.map_some]; exact ⟨_, rfl, rfl, rfl, rfl⟩

theorem SameTasks.append (vs : List Vtx) (x : Vtx) : SameTasks vs (vs ++ [x]) := by
  intro i y hy
  refine ⟨y, ?_, rfl, rfl, rfl⟩
  rw [List.getElem?_append_left (List.getElem?_eq_some_iff.1 hy).1]
  exact hy

theorem eff_serveTask {s t : State} (hi : Inv s) {src : Nat} {nm : String} {n g p : Int} (hsrc : src < s.verts.length)
    (hn : 0 < n) (hm : serveTask s src nm n g p = some t) :
    ∃ b : Edg, b.src = src ∧ b.tgt = s.verts.length ∧ b.ins = [n * g] ∧ b.outs = List.replicate n.toNat 1 ∧
      b.preload = p ∧ b.iins = [] ∧ b.iouts = [] ∧ b.key = s.nextKey ∧
      Eff s t t.verts (s.edges ++ [b]) (s.nextKey + 1) ∧ t.verts.length = s.verts.length + 1 ∧
      SameTasks s.verts t.verts ∧
      ∃ x, t.verts[s.verts.length]? = some x ∧ x.name = nm ∧ x.phases = n ∧ x.durs = List.replicate n.toNat 1 := by
  unfold serveTask at hm
  dsimp only at hm
  obtain ⟨s1, h1, hm⟩ := Option.bind_eq_some_iff.mp hm
  obtain ⟨s2, h2, hm⟩ := Option.bind_eq_some_iff.mp hm
  obtain ⟨s3, h3, hm⟩ := Option.bind_eq_some_iff.mp hm
  obtain ⟨s4, h4, hm⟩ := Option.bind_eq_some_iff.mp hm
  obtain ⟨s5, h5, hm⟩ := Option.bind_eq_some_iff.mp hm
  obtain ⟨s6, h6, hm⟩ := Option.bind_eq_some_iff.mp hm
  obtain ⟨s7, h7, h8⟩ := Option.bind_eq_some_iff.mp hm
  obtain ⟨id, e1, -⟩ := eff_addVertex hi h1
  have e2 := eff_setVertexName e1.inv h2
  obtain ⟨-, e3⟩ := eff_setPhases e2.inv h3
  have e4 := eff_setDurs e3.inv h4
  obtain ⟨-, -, eid, e5⟩ := eff_addEdge e4.inv h5
  have e6 := eff_setPreload e5.inv e5.edges rfl h6
  obtain ⟨-, e7⟩ := eff_setEdgeIn e6.inv e6.edges rfl h7
  obtain ⟨-, e8⟩ := eff_setEdgeOut e7.inv e7.edges rfl h8
  have k4 : s4.nextKey = s.nextKey := by rw [e4.next, e3.next, e2.next, e1.next]
  have v4 : s4.verts = s.verts ++ [⟨id, nm, n, 0, List.replicate n.toNat 1, 0, []⟩] := by
    rw [e4.verts, e3.verts, e2.verts, e1.verts, modify_last, modify_last, modify_last]
  have v8 : t.verts = (s4.verts.modify src fun x => { x with phases := (([n * g] : List Int).length : Int) }).modify
      s.verts.length fun x => { x with phases := ((List.replicate n.toNat (1 : Int)).length : Int) } := by
    rw [e8.verts, e7.verts, e6.verts, e5.verts]
  refine ⟨⟨s4.nextKey, src, s.verts.length, eid, "", [n * g], List.replicate n.toNat 1, intSum [n * g],
    intSum (List.replicate n.toNat 1), p, [], []⟩, rfl, rfl, rfl, rfl, rfl, rfl, rfl, k4, ⟨e8.inv, rfl, ?_, ?_, e8.writable⟩, ?_, ?_, ?_⟩
  · rw [e8.edges, e4.edges, e3.edges, e2.edges, e1.edges]
  · rw [e8.next, e7.next, e6.next, e5.next, k4]
  · rw [v8, v4]; simp
  · rw [v8]
    refine ((SameTasks.append s.verts ⟨id, nm, n, 0, List.replicate n.toNat 1, 0, []⟩).trans ?_).trans
      (SameTasks.modify _ _ _)
    rw [← v4]
    exact SameTasks.modify _ _ _
  · refine ⟨⟨id, nm, n, 0, List.replicate n.toNat 1, 0, []⟩, ?_, rfl, rfl, rfl⟩
    rw [v8, v4, List.getElem?_modify, List.getElem?_modify, List.getElem?_append_right (le_refl _)]
    have : src ≠ s.verts.length := by omega
    simp [this]
    omega

theorem filter_unique {s : State} (hi : Inv s) {P : Edg → Bool} {e : Edg} (he : e ∈ s.edges) (hP : P e = true)
    (hu : ∀ f ∈ s.edges, P f = true → f = e) : s.edges.filter P = [e] := by
  have hn : s.edges.Nodup := List.Nodup.of_map _ hi.keys
  have : (s.edges.filter P).Perm [e] := by
    rw [List.perm_ext_iff_of_nodup (hn.filter _) (by simp)]
    intro a
    rw [List.mem_filter, List.mem_singleton]
    constructor
    · rintro ⟨h1, h2⟩; exact hu a h1 h2
    · rintro rfl; exact ⟨he, hP⟩
  exact List.perm_singleton.1 this

/-- The first hop of a transfer: `e` leads to a task with no other channel than `e` and the outgoing `f`. -/
structure FirstHop (es : List Edg) (e f : Edg) : Prop where
  mem : e ∈ es
  mem' : f ∈ es
  meet : f.src = e.tgt
  input : ∀ x ∈ es, x.tgt = e.tgt → x = e
  output : ∀ x ∈ es, x.src = e.tgt → x = f
  away : f.tgt ≠ e.tgt

theorem eff_serveStep {s t : State} (hi : Inv s) {mid : Nat} {e f : Edg} (h : FirstHop s.edges e f) {l : List Int}
    (hm : serveStep mid s f l = some t) :
    ∃ b : Edg, b.src = mid ∧ b.tgt = f.tgt ∧ b.ins = l ∧ b.outs = [1] ∧ b.preload = f.preload ∧
      b.iins = [] ∧ b.iouts = [] ∧ b.key = s.nextKey ∧
      Eff s t ((s.verts.modify mid fun x => { x with phases := (l.length : Int) }).modify f.tgt
          fun x => { x with phases := 1 })
        ((s.edges.filter fun x => x.key ≠ e.key ∧ x.key ≠ f.key) ++ [b]) (s.nextKey + 1) := by
  unfold serveStep at hm
  obtain ⟨s1, h1, hm⟩ := Option.bind_eq_some_iff.mp hm
  obtain ⟨s2, h2, hm⟩ := Option.bind_eq_some_iff.mp hm
  obtain ⟨s3, h3, hm⟩ := Option.bind_eq_some_iff.mp hm
  obtain ⟨s4, h4, h5⟩ := Option.bind_eq_some_iff.mp hm
  unfold removeRouter at h1
  have hin : inEdges s f.src = [e] := filter_unique hi h.mem (by simp [h.meet]) fun x hx hp =>
    h.input x hx (by rw [← h.meet]; simpa using hp)
  have hout : outEdges s f.src = [f] := filter_unique hi h.mem' (by simp) fun x hx hp =>
    h.output x hx (by rw [← h.meet]; simpa using hp)
  rw [hin, hout] at h1
  simp only at h1
  obtain ⟨r1, q1, q2⟩ := Option.bind_eq_some_iff.mp h1
  have x0 := eff_removeEdge hi q1
  have x1 := eff_removeEdge x0.inv q2
  obtain ⟨-, -, id, x2⟩ := eff_addEdge x1.inv h2
  obtain ⟨-, x3⟩ := eff_setEdgeIn x2.inv x2.edges rfl h3
  obtain ⟨-, x4⟩ := eff_setEdgeOut x3.inv x3.edges rfl h4
  have x5 := eff_setPreload x4.inv x4.edges rfl h5
  have k1 : s1.nextKey = s.nextKey := by rw [x1.next, x0.next]
  refine ⟨⟨s1.nextKey, mid, f.tgt, id, "", l, [1], intSum l, intSum [1], f.preload, [], []⟩, rfl, rfl, rfl, rfl, rfl, rfl,
    rfl, k1, x5.inv, ?_, ?_, ?_, x5.writable⟩
  · rw [x5.verts, x4.verts, x3.verts, x2.verts, x1.verts, x0.verts]; rfl
  · rw [x5.edges, x1.edges, x0.edges, List.filter_filter]
    congr 1
    apply List.filter_congr
    intro x _
    rw [Bool.eq_iff_iff]
    simp only [Bool.and_eq_true, decide_eq_true_eq]
    tauto
  · rw [x5.next, x4.next, x3.next, x2.next, k1]

theorem tokenVec_length (ns : List Nat) (j : Nat) : (tokenVec ns j).length = ns.sum := by
  unfold tokenVec
  rw [List.length_flatten, List.map_map]
  have : (ns.zipIdx.map (List.length ∘ fun p : Nat × Nat => List.replicate p.1 (if p.2 = j then (1 : Int) else 0)))
      = ns.zipIdx.map Prod.fst := by
    apply List.map_congr_left
    intro p _
    simp
  rw [this]
  congr 1
  exact List.zipIdx_map_fst 0 ns

theorem serveAll_spec (mid : Nat) (ns : List Nat) : ∀ (P : List (Edg × Edg)) (i : Nat) (s s' : State), Inv s →
    s.readonly = false →
    (∀ p ∈ P, FirstHop s.edges p.1 p.2 ∧ p.1.tgt ≠ mid ∧ p.2.tgt ≠ mid) →
    (∀ p ∈ P, ∀ p' ∈ P, p.2.tgt ≠ p'.1.tgt) →
    P.Pairwise (fun p p' => p.1.tgt ≠ p'.1.tgt) →
    serveAll mid ns (P.map Prod.snd) i s = some s' →
    ∃ news : List Edg, news.length = P.length ∧
      (∀ (j : Nat) (p : Edg × Edg) (h : Edg), P[j]? = some p → news[j]? = some h → h.src = mid ∧ h.tgt = p.2.tgt ∧
        h.ins = tokenVec ns (i + j) ∧ h.outs = [1] ∧ h.preload = p.2.preload ∧ h.iins = [] ∧ h.iouts = []) ∧
      Eff s s' s'.verts ((s.edges.filter fun x => ∀ p ∈ P, x.key ≠ p.1.key ∧ x.key ≠ p.2.key) ++ news) s'.nextKey ∧
      SameTasks s.verts s'.verts ∧ s'.verts.length = s.verts.length ∧
      ∀ x, s.verts[mid]? = some x → x.phases = ns.sum → s'.verts[mid]? = some x := by
  intro P
  induction P with
  | nil =>
    intro i s s' hi hw _ _ _ hm
    have := Option.some.inj hm
    subst this
    exact ⟨[], rfl, by simp, ⟨hi, rfl, by simp, rfl, hw⟩, SameTasks.refl _, rfl, fun x hx _ => hx⟩
  | cons p P ih =>
    intro i s s' hi hw hP hcross hpair hm
    rw [List.map_cons, serveAll] at hm
    obtain ⟨s1, h1, hm⟩ := Option.bind_eq_some_iff.mp hm
    obtain ⟨hfh, hm1, hm2⟩ := hP p (by simp)
    obtain ⟨b, b1, b2, b3, b4, b5, b6, b7, b8, x1⟩ := eff_serveStep hi hfh h1
    rw [List.pairwise_cons] at hpair
    have hmem1 : ∀ x, x ∈ s1.edges ↔ (x ∈ s.edges ∧ x.key ≠ p.1.key ∧ x.key ≠ p.2.key) ∨ x = b := by
      intro x
      rw [x1.edges, List.mem_append, List.mem_filter, List.mem_singleton]
      simp
    have hstay : ∀ p' ∈ P, FirstHop s1.edges p'.1 p'.2 ∧ p'.1.tgt ≠ mid ∧ p'.2.tgt ≠ mid := by
      intro p' hp'
      obtain ⟨f1, m1, m2⟩ := hP p' (List.mem_cons_of_mem _ hp')
      have d := hpair.1 p' hp'
      have c1 := hcross p (by simp) p' (List.mem_cons_of_mem _ hp')
      have c2 := hcross p' (List.mem_cons_of_mem _ hp') p (by simp)
      refine ⟨⟨?_, ?_, f1.meet, ?_, ?_, f1.away⟩, m1, m2⟩
      · rw [hmem1]
        refine Or.inl ⟨f1.mem, fun h => ?_, fun h => ?_⟩
        · exact d (by rw [key_inj hi f1.mem hfh.mem h])
        · exact c1 (by rw [key_inj hi f1.mem hfh.mem' h])
      · rw [hmem1]
        refine Or.inl ⟨f1.mem', fun h => ?_, fun h => ?_⟩
        · exact c2 (by rw [key_inj hi f1.mem' hfh.mem h])
        · have := key_inj hi f1.mem' hfh.mem' h
          exact d (by rw [← hfh.meet, ← f1.meet, this])
      · intro x hx ht
        rw [hmem1] at hx
        rcases hx with ⟨hx, -⟩ | rfl
        · exact f1.input x hx ht
        · exact absurd (b2.symm.trans ht) c1
      · intro x hx ht
        rw [hmem1] at hx
        rcases hx with ⟨hx, -⟩ | rfl
        · exact f1.output x hx ht
        · exact absurd (b1.symm.trans ht).symm m1
    obtain ⟨news, n1, n2, x2, st, sl, sm⟩ := ih (i + 1) s1 s' x1.inv x1.writable hstay
      (fun q hq q' hq' => hcross q (List.mem_cons_of_mem _ hq) q' (List.mem_cons_of_mem _ hq')) hpair.2 hm
    refine ⟨b :: news, by simp [n1], ?_, ⟨x2.inv, rfl, ?_, rfl, x2.writable⟩, ?_, ?_, ?_⟩
    · intro j q h hq hh
      cases j with
      | zero =>
        simp only [List.getElem?_cons_zero, Option.some.injEq] at hq hh
        subst hq; subst hh
        exact ⟨b1, b2, b3, b4, b5, b6, b7⟩
      | succ j =>
        rw [List.getElem?_cons_succ] at hq hh
        have := n2 j q h hq hh
        rwa [show i + 1 + j = i + (j + 1) by omega] at this
    · rw [x2.edges, x1.edges, List.filter_append, List.filter_filter]
      have hb : ([b].filter fun x => decide (∀ p ∈ P, x.key ≠ p.1.key ∧ x.key ≠ p.2.key)) = [b] := by
        rw [List.filter_eq_self]
        intro x hx
        rw [List.mem_singleton] at hx
        subst hx
        rw [decide_eq_true_eq]
        intro p' hp'
        obtain ⟨f1, -, -⟩ := hP p' (List.mem_cons_of_mem _ hp')
        have k1 := hi.keyLt _ f1.mem
        have k2 := hi.keyLt _ f1.mem'
        rw [b8]
        omega
      rw [hb, List.append_assoc]
      congr 1
      apply List.filter_congr
      intro x _
      rw [Bool.eq_iff_iff]
      simp only [List.mem_cons, forall_eq_or_imp, Bool.and_eq_true, decide_eq_true_eq]
      tauto
    · refine SameTasks.trans ?_ st
      rw [x1.verts]
      exact (SameTasks.modify _ _ _).trans (SameTasks.modify _ _ _)
    · rw [sl, x1.verts]; simp
    · intro x hx hph
      refine sm x ?_ hph
      rw [x1.verts, List.getElem?_modify, List.getElem?_modify, hx]
      simp only [if_true, hm2, if_false, Option.map_eq_map, Option.map_some]
      rw [tokenVec_length, ← hph]

theorem tokenVec_aux (j : Nat) : ∀ (ns : List Nat) (o : Nat),
    (∀ k, k < ns.sum → ∃ i, i < ns.length ∧
      ∀ j, ((ns.zipIdx o).map fun p => List.replicate p.1 (if p.2 = j then (1 : Int) else 0)).flatten[k]?
        = some (if j = o + i then 1 else 0)) ∧
    (((ns.zipIdx o).map fun p => List.replicate p.1 (if p.2 = j then (1 : Int) else 0)).flatten.sum
      = if o ≤ j then ((ns[j - o]?).getD 0 : Int) else 0) := by
  intro ns
  induction ns with
  | nil => intro o; simp
  | cons n ns ih =>
    intro o
    obtain ⟨h1, h2⟩ := ih (o + 1)
    simp only [List.zipIdx_cons, List.map_cons, List.flatten_cons]
    constructor
    · intro k hk
      by_cases hkn : k < n
      · refine ⟨0, by simp, fun j => ?_⟩
        rw [List.getElem?_append_left (by simpa using hkn), List.getElem?_replicate, if_pos hkn, Nat.add_zero]
        congr 1
        by_cases h : o = j
        · rw [if_pos h, if_pos h.symm]
        · rw [if_neg h, if_neg (fun h' => h h'.symm)]
      · rw [List.sum_cons] at hk
        obtain ⟨i, hi, h3⟩ := h1 (k - n) (by omega)
        refine ⟨i + 1, by simpa using hi, fun j => ?_⟩
        rw [List.getElem?_append_right (by simp; omega), List.length_replicate, h3 j]
        rw [show o + 1 + i = o + (i + 1) by omega]
    · rw [List.sum_append, h2, List.sum_replicate]
      by_cases h : o = j
      · subst h
        simp
      · rw [if_neg h]
        by_cases hle : o ≤ j
        · rw [if_pos hle, if_pos (by omega : o + 1 ≤ j)]
          rw [show j - o = (j - (o + 1)) + 1 by omega, List.getElem?_cons_succ]
          simp
        · rw [if_neg hle, if_neg (by omega)]
          simp

/-- Each phase serves one channel. -/
theorem tokenVec_phase (ns : List Nat) (k : Nat) (hk : k < ns.sum) :
    ∃ i, i < ns.length ∧ ∀ j, (tokenVec ns j)[k]? = some (if j = i then 1 else 0) := by
  obtain ⟨i, hi, h⟩ := (tokenVec_aux 0 ns 0).1 k hk
  exact ⟨i, hi, fun j => by simpa [tokenVec] using h j⟩

theorem tokenVec_sum (ns : List Nat) (j : Nat) : (tokenVec ns j).sum = ((ns[j]?).getD 0 : Int) := by
  have := (tokenVec_aux j ns 0).2
  rw [if_pos (Nat.zero_le _), Nat.sub_zero] at this
  exact this

theorem flowGcd_spec (srcs : List Edg) : ∀ (g g' : Int),
    srcs.foldlM (fun g e => if g = 0 then some e.totIn
      else (SNoC.gcdExtended (e.totIn.natAbs + 1) e.totIn.natAbs g.natAbs).map fun r => (r.1 : Int)) g = some g' →
    g' ∣ g ∧ (∀ e ∈ srcs, g' ∣ e.totIn) ∧ ∀ d : Int, d ∣ g → (∀ e ∈ srcs, d ∣ e.totIn) → d ∣ g' := by
  induction srcs with
  | nil =>
    intro g g' h
    have := Option.some.inj h
    subst this
    exact ⟨dvd_refl _, by simp, fun d hd _ => hd⟩
  | cons e l ih =>
    intro g g' h
    rw [List.foldlM_cons] at h
    obtain ⟨g1, h1, h2⟩ := Option.bind_eq_some_iff.mp h
    obtain ⟨k1, k2, k3⟩ := ih g1 g' h2
    have hg1 : g1 ∣ g ∧ g1 ∣ e.totIn ∧ ∀ d : Int, d ∣ g → d ∣ e.totIn → d ∣ g1 := by
      by_cases h0 : g = 0
      · rw [if_pos h0] at h1
        have := Option.some.inj h1
        subst this
        subst h0
        exact ⟨dvd_zero _, dvd_refl _, fun d _ hd => hd⟩
      · rw [if_neg h0] at h1
        obtain ⟨a, b, e1, -⟩ := C115_gcd (e.totIn.natAbs + 1) e.totIn.natAbs g.natAbs (by omega)
        rw [e1] at h1
        have := Option.some.inj h1
        subst this
        refine ⟨?_, ?_, ?_⟩
        · exact Int.natCast_dvd.2 (Nat.gcd_dvd_right _ _)
        · exact Int.natCast_dvd.2 (Nat.gcd_dvd_left _ _)
        · intro d d1 d2
          exact Int.dvd_natCast.2 (Nat.dvd_gcd (Int.natAbs_dvd_natAbs.2 d2) (Int.natAbs_dvd_natAbs.2 d1))
    refine ⟨dvd_trans k1 hg1.1, ?_, ?_⟩
    · intro x hx
      rcases List.mem_cons.1 hx with rfl | hx
      · exact dvd_trans k1 hg1.2.1
      · exact k2 x hx
    · intro d d1 d2
      exact k3 d (hg1.2.2 d d1 (d2 e (by simp))) fun x hx => d2 x (List.mem_cons_of_mem _ hx)

end Kiter.DF
