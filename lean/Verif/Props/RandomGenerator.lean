/-
Properties C45 and C64: the random generator.
-/
import Verif.Lemmas.RandomGenerator
import Verif.Props.Transform
import Verif.Props.Repetition
import Mathlib.Algebra.BigOperators.Group.List.Basic

set_option autoImplicit false

namespace Kiter

open DF Gen

/-! ### The graph -/

theorem Gen.genEdge_guard (r : Nat → Nat) {c : Config} {nV : Int} (zs : List Int) (fuel : Nat) {s : State} (i j : Nat)
    (hV1 : 1 ≤ nV) (h1 : c.noSelfLoop = true) (h2 : s.verts.length ≤ 1) : genEdge r c nV zs fuel s i j = none := by
  obtain ⟨src, a1, a2, a3⟩ := draw_ok r hV1 j
  obtain ⟨d0, b1, b2, b3⟩ := draw_ok r hV1 (j + 1)
  unfold genEdge
  rw [step a1, step b1]
  simp only
  rw [if_pos ⟨h1, h2⟩]
  rfl

theorem Gen.mk_empty : empty = mk [] [] 1 1 0 := rfl

theorem Gen.shape_eq (r : Nat → Nat) {c : Config} (hc : c.Supported) (fuel j : Nat) :
    ∃ nV nE : Int, (c.minV ≤ nV ∧ nV ≤ c.maxV) ∧ (c.minE ≤ nE ∧ nE ≤ c.maxE) ∧
      shape r c fuel j = if nV < 1 ∨ nE < 1 then none else
        (genTasks r c nV.toNat 1 empty >>= fun p => genEdges r c nV p.2 fuel nE.toNat 1 p.1) (j + 2) := by
  obtain ⟨nV, a1, a2, a3⟩ := draw_ok r hc.vertices j
  obtain ⟨nE, b1, b2, b3⟩ := draw_ok r hc.edges (j + 1)
  refine ⟨nV, nE, ⟨a2, a3⟩, ⟨b2, b3⟩, ?_⟩
  unfold shape
  simp only
  rw [if_neg (fun h => h ⟨hc.vertices, hc.edges, hc.duration, hc.weight, hc.phases, hc.initial⟩), step a1, step b1]
  split
  · rfl
  · rfl

theorem Gen.supported_of_shape {r : Nat → Nat} {c : Config} {fuel j : Nat} {p : State × Nat} (h : shape r c fuel j = some p) :
    c.Supported := by
  by_contra hn
  unfold shape at h
  simp only at h
  rw [if_pos (fun hh => hn ⟨hh.1, hh.2.1, hh.2.2.1, hh.2.2.2.1, hh.2.2.2.2.1, hh.2.2.2.2.2⟩)] at h
  cases h

theorem Gen.shape_some {r : Nat → Nat} {c : Config} {fuel j : Nat} {p : State × Nat} (h : shape r c fuel j = some p) :
    ∃ vs es aV aE k zs, p.1 = mk vs es aV aE k ∧ (c.minV ≤ vs.length ∧ vs.length ≤ c.maxV ∧ 1 ≤ vs.length) ∧
      (c.minE ≤ es.length ∧ es.length ≤ c.maxE ∧ 1 ≤ es.length) ∧
      zs.length = vs.length ∧ (∀ z ∈ zs, (1 : Int) ≤ z ∧ z ≤ c.maxWeight) ∧
      (∀ j x, vs[j]? = some x → TaskOK c j x) ∧
      ∀ q e, es[q]? = some e → ChannelOK c vs q e ∧ Weighted zs e ∧ e.preload = 0 ∧
          e.totIn = intSum e.ins ∧ e.totOut = intSum e.outs ∧ e.key = q := by
  have hc := supported_of_shape h
  obtain ⟨nV, nE, a, b, he⟩ := shape_eq r hc fuel j
  rw [he] at h
  split at h
  · cases h
  · rename_i hpos
    push Not at hpos
    obtain ⟨vs, aV, zs, j', t1, t2, t3, t4, t5⟩ := genTasks_ok r hc nV.toNat (vs := []) (es := []) (aV := 1) (aE := 1) (k := 0)
      (i := 1) (by simp) rfl (j + 2)
    rw [mk_empty, step t1] at h
    simp only [List.nil_append] at h t3
    have hsl : c.noSelfLoop = true → 2 ≤ nV := by
      intro h1
      by_contra h2
      obtain ⟨m, hm⟩ : ∃ m, nE.toNat = m + 1 := ⟨nE.toNat - 1, by omega⟩
      rw [hm] at h
      have h' : (genEdge r c nV zs fuel (mk vs [] aV 1 0) 1 >>= fun s => genEdges r c nV zs fuel m (1 + 1) s) j' = some p := h
      rw [step_none (genEdge_guard r zs fuel 1 j' hpos.1 h1 (show vs.length ≤ 1 by omega))] at h'
      cases h'
    obtain ⟨es, aE, k, e1, e2, e3⟩ := genEdges_some r hc (aV := aV) (aE := 1) (k := 0) (es := []) t3 (by omega) t5
      (by omega) hpos.1 hsl fuel nE.toNat ⟨by simp, by simp⟩ rfl h
    refine ⟨vs, es, aV, aE, k, zs, by simpa using e1, by omega, by omega, by omega, t5, t3, ?_⟩
    intro q e hq
    have := e3 q e hq
    simpa using this

/-- **C45** Whatever the draws, a generated graph has numbers of tasks and channels within the configured limits, its tasks
and channels satisfy `TaskOK` and `ChannelOK`, and it is consistent: the balance equations have a positive solution. -/
theorem C45_graph {r : Nat → Nat} {c : Config} {fuel : Nat} {s : State} {j : Nat}
    (h : (shape r c fuel).run 0 = some (s, j)) :
    (c.minV ≤ s.verts.length ∧ s.verts.length ≤ c.maxV) ∧ (c.minE ≤ s.edges.length ∧ s.edges.length ≤ c.maxE) ∧
    (∀ i x, s.verts[i]? = some x → TaskOK c i x) ∧ (∀ i e, s.edges[i]? = some e → ChannelOK c s.verts i e ∧ e.preload = 0) ∧
    ∃ q : Nat → Int, (∀ v, 0 < q v) ∧ Balanced s.edges q := by
  obtain ⟨vs, es, aV, aE, k, zs, h1, h2, h3, h4, h5, h6, h7⟩ := shape_some h
  simp only at h1
  subst h1
  refine ⟨⟨h2.1, h2.2.1⟩, ⟨h3.1, h3.2.1⟩, h6, fun i e he => ⟨(h7 i e he).1, (h7 i e he).2.2.1⟩, ?_⟩
  have hpos : 0 < zs.prod := by
    clear h4 h7
    induction zs with
    | nil => simp
    | cons z zs ih =>
      rw [List.prod_cons]
      exact mul_pos (by have := h5 z (by simp); omega) (ih fun y hy => h5 y (by simp [hy]))
  refine ⟨fun v => match zs[v]? with | none => 1 | some z => zs.prod / z, ?_, ?_⟩
  · intro v
    cases hz : zs[v]? with
    | none => simp only [hz]; norm_num
    | some z =>
      have hm := List.mem_of_getElem? hz
      have := h5 z hm
      simp only [hz]
      exact Int.ediv_pos_of_pos_of_dvd hpos (by omega) (List.dvd_prod hm)
  · intro e he
    obtain ⟨i, hi⟩ := List.mem_iff_getElem?.mp he
    obtain ⟨-, ⟨a, b, ha, hb, hab⟩, -⟩ := h7 i e hi
    simp only [ha, hb]
    have za := h5 a (List.mem_of_getElem? ha)
    have zb := h5 b (List.mem_of_getElem? hb)
    obtain ⟨x, hx⟩ := List.dvd_prod (List.mem_of_getElem? ha)
    obtain ⟨y, hy⟩ := List.dvd_prod (List.mem_of_getElem? hb)
    rw [show zs.prod / a = x by rw [hx]; exact Int.mul_ediv_cancel_left _ (by omega),
      show zs.prod / b = y by rw [hy]; exact Int.mul_ediv_cancel_left _ (by omega)]
    have hxy : a * x = b * y := by rw [← hx, ← hy]
    apply mul_right_cancel₀ (show a * b ≠ 0 from mul_ne_zero (by omega) (by omega))
    calc x * e.ins.sum * (a * b) = (e.ins.sum * b) * (a * x) := by ring
      _ = (e.outs.sum * a) * (b * y) := by rw [hab, hxy]
      _ = y * e.outs.sum * (a * b) := by ring

/-- **C45** With a supported configuration (at least one task and one channel; at least two tasks if loops are excluded)
and draws that do not repeat one value for ever, the graph is generated. -/
theorem C45_total {r : Nat → Nat} (hr : Varied r) {c : Config} (hc : c.Supported) (hV : 1 ≤ c.minV) (hE : 1 ≤ c.minE)
    (hl : c.noSelfLoop = true → 2 ≤ c.minV) : ∃ fuel0, ∀ fuel, fuel0 ≤ fuel → ∃ p, (shape r c fuel).run 0 = some p := by
  obtain ⟨nV, a1, a2, a3⟩ := draw_ok r hc.vertices 0
  obtain ⟨nE, b1, b2, b3⟩ := draw_ok r hc.edges 1
  obtain ⟨vs, aV, zs, j', t1, t2, t3, t4, t5⟩ := genTasks_ok r hc nV.toNat (vs := []) (es := []) (aV := 1) (aE := 1) (k := 0)
    (i := 1) (by simp) rfl 2
  simp only [List.nil_append] at t1 t3
  obtain ⟨f0, hf⟩ := genEdges_ok hr hc (aV := aV) (aE := 1) (k := 0) (es := []) t3 (by omega) t5 (nV := nV) (by omega) (by omega)
    (fun h => by have := hl h; omega) nE.toNat ⟨by simp, by simp⟩ (i := 1) rfl j'
  refine ⟨f0, fun fuel hle => ?_⟩
  obtain ⟨p, hp⟩ := hf fuel hle
  refine ⟨p, ?_⟩
  show shape r c fuel 0 = some p
  unfold shape
  simp only
  rw [if_neg (fun h => h ⟨hc.vertices, hc.edges, hc.duration, hc.weight, hc.phases, hc.initial⟩), step a1, step b1, if_neg (by omega),
    mk_empty, step t1]
  exact hp

/-! ### The repetition vector -/

/-- A graph with one rate per phase, no negative rate, some token on every channel, stored totals that are the sums, and a
solution of the balance equations. -/
structure DF.Sound (s : State) : Prop where
  nonempty : 0 < s.verts.length
  phases : ∀ v ∈ s.verts, 0 < v.phases
  src : ∀ e ∈ s.edges, ∃ x, s.verts[e.src]? = some x ∧ (e.ins.length : Int) = x.phases
  tgt : ∀ e ∈ s.edges, ∃ x, s.verts[e.tgt]? = some x ∧ (e.outs.length : Int) = x.phases
  nonneg : ∀ e ∈ s.edges, ∀ x, x ∈ e.ins ∨ x ∈ e.outs → 0 ≤ x
  pos : ∀ e ∈ s.edges, 0 < e.ins.sum ∧ 0 < e.outs.sum
  totals : ∀ e ∈ s.edges, e.totIn = e.ins.sum ∧ e.totOut = e.outs.sum
  balance : ∃ q : Nat → Int, (∀ v, 0 < q v) ∧ Balanced s.edges q

/-- What the computation of the repetition vector sees of such a graph, and that it succeeds. -/
theorem DF.sound_rep {s : State} (h : Sound s) :
    ∃ g : Rep.Graph (s.verts.map fun v : Vtx => v.phases).length s.edges.length,
      repOf (s.verts.map fun v : Vtx => v.phases) s.edges = some g ∧ Rep.OK g ∧
      (∀ i, (g.src i : Nat) = s.edges[i].src ∧ (g.tgt i : Nat) = s.edges[i].tgt ∧ g.prod i = s.edges[i].ins ∧
        g.cons i = s.edges[i].outs) ∧
      (∀ v, g.phases v = ((s.verts.map fun v : Vtx => v.phases)[v]).toNat) ∧ ∃ N, Rep.compute g = some (some N) := by
  have hsrc : ∀ e ∈ s.edges, e.src < (s.verts.map fun v : Vtx => v.phases).length := by
    intro e he
    obtain ⟨x, hx, -⟩ := h.src e he
    rw [List.length_map]; exact lt_of_get hx
  have htgt : ∀ e ∈ s.edges, e.tgt < (s.verts.map fun v : Vtx => v.phases).length := by
    intro e he
    obtain ⟨x, hx, -⟩ := h.tgt e he
    rw [List.length_map]; exact lt_of_get hx
  have hP : ∀ i : Fin s.edges.length, (s.edges[i].src < (s.verts.map fun v : Vtx => v.phases).length ∧
      s.edges[i].tgt < (s.verts.map fun v : Vtx => v.phases).length) ∧
      s.edges[i].totIn = s.edges[i].ins.sum ∧ s.edges[i].totOut = s.edges[i].outs.sum := by
    intro i
    have hm : s.edges[i] ∈ s.edges := List.getElem_mem _
    exact ⟨⟨hsrc _ hm, htgt _ hm⟩, h.totals _ hm⟩
  let g : Rep.Graph (s.verts.map fun v : Vtx => v.phases).length s.edges.length :=
    ⟨fun i => ⟨_, (hP i).1.1⟩, fun i => ⟨_, (hP i).1.2⟩, fun i => s.edges[i].ins, fun i => s.edges[i].outs,
      fun v => (s.verts.map fun v : Vtx => v.phases)[v].toNat⟩
  have hg : repOf (s.verts.map fun v : Vtx => v.phases) s.edges = some g := by
    unfold repOf
    rw [dif_pos hP]
  have hph : ∀ v : Fin (s.verts.map fun v : Vtx => v.phases).length, 0 < (s.verts.map fun v : Vtx => v.phases)[v] := by
    intro v
    have : (s.verts.map fun v : Vtx => v.phases)[v] ∈ s.verts.map fun v : Vtx => v.phases := List.getElem_mem _
    obtain ⟨x, hx, hx2⟩ := List.mem_map.1 this
    rw [← hx2]; exact h.phases x hx
  have hlen : ∀ (v : Nat) (x : Vtx) (n : Nat) (hv : v < (s.verts.map fun v : Vtx => v.phases).length), s.verts[v]? = some x →
      (n : Int) = x.phases → n = ((s.verts.map fun v : Vtx => v.phases)[v]'hv).toNat := by
    intro v x n hv hx hn
    rw [List.getElem_map]
    have : s.verts[v]'(lt_of_get hx) = x := (List.getElem?_eq_some_iff.1 hx).2
    rw [this]; omega
  have hok : Rep.OK g := by
    refine ⟨by simpa using h.nonempty, ?_, ?_, ?_, ?_, ?_⟩
    · intro v
      have := hph v
      show 0 < ((s.verts.map fun v : Vtx => v.phases)[v]).toNat
      omega
    · intro e
      obtain ⟨x, hx, hl⟩ := h.src s.edges[e] (List.getElem_mem _)
      exact hlen _ x _ _ hx hl
    · intro e
      obtain ⟨x, hx, hl⟩ := h.tgt s.edges[e] (List.getElem_mem _)
      exact hlen _ x _ _ hx hl
    · intro e x hx
      exact h.nonneg s.edges[e] (List.getElem_mem _) x (Or.inl hx)
    · intro e x hx
      exact h.nonneg s.edges[e] (List.getElem_mem _) x (Or.inr hx)
  obtain ⟨N, hN⟩ := (C14_consistent_iff hok).2.2 ⟨fun e => h.pos s.edges[e] (List.getElem_mem _), by
    obtain ⟨q, hq, hb⟩ := h.balance
    refine ⟨fun v => q v, fun v => hq v, fun e => ?_⟩
    have := hb s.edges[e] (List.getElem_mem _)
    show s.edges[e].ins.sum * q s.edges[e].src = s.edges[e].outs.sum * q s.edges[e].tgt
    linarith⟩
  exact ⟨g, hg, hok, fun i => ⟨rfl, rfl, rfl, rfl⟩, fun v => rfl, N, hN⟩

theorem DF.computeRV_sound {s : State} (h : Sound s) : ∃ t N, computeRV s = some (true, t) ∧
    (t = s ∨ t = { s with readonly := true, repDone := true, verts := putNi s.verts N }) := by
  obtain ⟨g, hg, -, -, -, N, hN⟩ := sound_rep h
  unfold computeRV
  split
  · exact ⟨s, fun _ => 0, rfl, Or.inl rfl⟩
  rw [hg]
  simp only [Option.bind_eq_bind, Option.bind_some]
  rw [hN]
  exact ⟨_, N, rfl, Or.inr rfl⟩

theorem Gen.shape_sound {r : Nat → Nat} {c : Config} {fuel : Nat} {s : State} {j : Nat}
    (h : (shape r c fuel).run 0 = some (s, j)) (hw : c.maxWeight < 2 ^ 31) : Sound s := by
  obtain ⟨h1, h2, h3, h4, h5⟩ := C45_graph h
  obtain ⟨vs, es, aV, aE, k, zs, k1, k2, k3, k4, k5, k6, k7⟩ := shape_some h
  simp only at k1
  subst k1
  have hch : ∀ e ∈ es, ∃ i, ChannelOK c vs i e ∧ e.totIn = intSum e.ins ∧ e.totOut = intSum e.outs := by
    intro e he
    obtain ⟨i, hi⟩ := List.mem_iff_getElem?.mp he
    obtain ⟨c1, -, -, c2, c3, -⟩ := k7 i e hi
    exact ⟨i, c1, c2, c3⟩
  refine ⟨by show 0 < vs.length; omega, ?_, ?_, ?_, ?_, ?_, ?_, h5⟩
  · intro v hv
    obtain ⟨i, hi⟩ := List.mem_iff_getElem?.mp hv
    have := (k6 i v hi).phases1
    omega
  · intro e he
    obtain ⟨i, hi, -⟩ := hch e he
    obtain ⟨x, hx, hl, -⟩ := hi.src
    exact ⟨x, hx, hl⟩
  · intro e he
    obtain ⟨i, hi, -⟩ := hch e he
    obtain ⟨x, hx, hl, -⟩ := hi.tgt
    exact ⟨x, hx, hl⟩
  · rintro e he x hx
    obtain ⟨i, hi, -⟩ := hch e he
    exact hi.rates x (by tauto)
  · intro e he
    obtain ⟨i, hi, -⟩ := hch e he
    have := hi.inTotal
    have := hi.outTotal
    omega
  · intro e he
    obtain ⟨i, hi, t1, t2⟩ := hch e he
    have := hi.inTotal
    have := hi.outTotal
    rw [t1, t2, intSum_eq, intSum_eq, bmod_self (by norm_num; omega) (by omega), bmod_self (by norm_num; omega) (by omega)]
    exact ⟨rfl, rfl⟩

/-- **C45** The repetition vector of a generated graph exists: `computeRepetitionVector` returns true. Weights must be less
than 2^31: totals are stored modulo 2^32. -/
theorem C45_accepted {r : Nat → Nat} {c : Config} {fuel : Nat} {s : State} {j : Nat}
    (h : (shape r c fuel).run 0 = some (s, j)) (hw : c.maxWeight < 2 ^ 31) : ∃ t, computeRV s = some (true, t) := by
  obtain ⟨t, N, ht, -⟩ := computeRV_sound (shape_sound h hw)
  exact ⟨t, ht⟩

/-! ### The initial marking -/

/-- `t` is `s` with more initial tokens, a multiple of its granularity on each channel, and with repetition counts. -/
structure Gen.Marked (s t : State) : Prop where
  tasks : t.verts.map (fun x => { x with ni := 0 }) = s.verts.map fun x => { x with ni := 0 }
  channels : t.edges.length = s.edges.length
  tokens : ∀ (i : Nat) (e : Edg), s.edges[i]? = some e →
    ∃ (g : Int) (n : Nat), computeFineGCD e = some g ∧ t.edges[i]? = some { e with preload := e.preload + n * g }

/-- The positions are the keys and the numbers, and the cached granularities are right. -/
structure Gen.Numbered (s : State) : Prop where
  key : ∀ (i : Nat) (e : Edg), s.edges[i]? = some e → e.key = i
  id : ∀ (i : Nat) (e : Edg), s.edges[i]? = some e → e.id = i + 1
  cache : ∀ p ∈ s.cache, ∀ e ∈ s.edges, e.id = p.1 → computeFineGCD e = some p.2

theorem Gen.foldl_gcd_pos (l : List Int) (a : Int) (h : 0 < a ∨ ∃ x ∈ l, 0 < x) (ha : 0 ≤ a) :
    0 < l.foldl (fun g r => (Int.gcd g r : Int)) a := by
  induction l generalizing a with
  | nil => simpa using h
  | cons y l ih =>
    rw [List.foldl_cons]
    apply ih
    · rcases h with h | ⟨x, hx, h0⟩
      · left
        exact_mod_cast Int.gcd_pos_of_ne_zero_left _ h.ne'
      · rcases List.mem_cons.1 hx with rfl | hx
        · left
          exact_mod_cast Int.gcd_pos_of_ne_zero_right _ h0.ne'
        · exact Or.inr ⟨x, hx, h0⟩
    · positivity

theorem Gen.sum_nonpos (l : List Int) (h : ∀ x ∈ l, x ≤ 0) : l.sum ≤ 0 := by
  induction l with
  | nil => simp
  | cons x l ih =>
    rw [List.sum_cons]
    have := h x (by simp)
    have := ih fun y hy => h y (by simp [hy])
    omega

/-- The granularity of a channel that carries tokens is positive. -/
theorem Gen.fineGCD_pos {e : Edg} (h1 : ∀ x, x ∈ e.ins ∨ x ∈ e.outs → 0 ≤ x) (h2 : 0 < e.ins.sum) :
    ∃ g, computeFineGCD e = some g ∧ 0 < g := by
  have hne : e.ins ≠ [] := by intro h; rw [h] at h2; simp at h2
  obtain ⟨x, l, hl⟩ := List.exists_cons_of_ne_nil hne
  unfold computeFineGCD phaseAt
  rw [hl]
  refine ⟨_, by simp; rfl, ?_⟩
  have hx : 0 ≤ x := h1 x (Or.inl (by simp [hl]))
  have hpos : 0 < (x :: l).foldl (fun g r => (Int.gcd g r : Int)) x := by
    apply foldl_gcd_pos _ _ _ hx
    by_contra hn
    push Not at hn
    have : (x :: l).sum ≤ 0 := sum_nonpos _ hn.2
    rw [hl] at h2
    omega
  have := foldl_gcd_pos e.outs _ (Or.inl hpos) hpos.le
  simpa using this

theorem Gen.marked_refl {s : State} (h : Sound s) : Marked s s := by
  refine ⟨rfl, rfl, fun i e he => ?_⟩
  have hm := List.mem_of_getElem? he
  obtain ⟨g, hg, -⟩ := fineGCD_pos (h.nonneg e hm) (h.pos e hm).1
  refine ⟨g, 0, hg, ?_⟩
  rw [he]
  simp

theorem Gen.map_ni {vs ws : List Vtx} (h : ws.map (fun x => { x with ni := 0 }) = vs.map fun x => { x with ni := 0 }) :
    ws.length = vs.length ∧ ∀ (i : Nat) (x : Vtx), vs[i]? = some x → ∃ y, ws[i]? = some y ∧ y.phases = x.phases := by
  have hl : ws.length = vs.length := by simpa using congrArg List.length h
  refine ⟨hl, fun i x hx => ?_⟩
  have hi := lt_of_get hx
  refine ⟨ws[i], List.getElem?_eq_getElem (by omega), ?_⟩
  have h2 := congrArg (fun l => l[i]?) h
  simp only [List.getElem?_map, hx, List.getElem?_eq_getElem (show i < ws.length by omega), Option.map_some] at h2
  have := Option.some.inj h2
  simp only [Vtx.mk.injEq] at this
  exact this.2.2.1

theorem Gen.sound_marked {s t : State} (h : Sound s) (hm : Marked s t) : Sound t := by
  obtain ⟨hl, hv⟩ := map_ni hm.tasks
  have hv' := (map_ni hm.tasks.symm).2
  have he : ∀ f ∈ t.edges, ∃ e ∈ s.edges, f.src = e.src ∧ f.tgt = e.tgt ∧ f.ins = e.ins ∧ f.outs = e.outs ∧
      f.totIn = e.totIn ∧ f.totOut = e.totOut := by
    intro f hf
    obtain ⟨i, hi⟩ := List.mem_iff_getElem?.mp hf
    have hlt := (List.getElem?_eq_some_iff.1 hi).1
    have hs : s.edges[i]? = some (s.edges[i]'(by have := hm.channels; omega)) := List.getElem?_eq_getElem _
    obtain ⟨g, n, -, h2⟩ := hm.tokens i _ hs
    rw [hi] at h2
    have := Option.some.inj h2
    subst this
    exact ⟨_, List.mem_of_getElem? hs, rfl, rfl, rfl, rfl, rfl, rfl⟩
  refine ⟨by rw [hl]; exact h.nonempty, ?_, ?_, ?_, ?_, ?_, ?_, ?_⟩
  · intro v hv1
    obtain ⟨i, hi⟩ := List.mem_iff_getElem?.mp hv1
    obtain ⟨y, hy, hp⟩ := hv' i v hi
    rw [← hp]; exact h.phases y (List.mem_of_getElem? hy)
  · intro f hf
    obtain ⟨e, he, a1, a2, a3, a4, a5, a6⟩ := he f hf
    obtain ⟨x, hx, hl⟩ := h.src e he
    obtain ⟨y, hy, hp⟩ := hv _ x hx
    exact ⟨y, by rw [a1]; exact hy, by rw [a3, hp]; exact hl⟩
  · intro f hf
    obtain ⟨e, he, a1, a2, a3, a4, a5, a6⟩ := he f hf
    obtain ⟨x, hx, hl⟩ := h.tgt e he
    obtain ⟨y, hy, hp⟩ := hv _ x hx
    exact ⟨y, by rw [a2]; exact hy, by rw [a4, hp]; exact hl⟩
  · intro f hf
    obtain ⟨e, he, a1, a2, a3, a4, a5, a6⟩ := he f hf
    rw [a3, a4]; exact h.nonneg e he
  · intro f hf
    obtain ⟨e, he, a1, a2, a3, a4, a5, a6⟩ := he f hf
    rw [a3, a4]; exact h.pos e he
  · intro f hf
    obtain ⟨e, he, a1, a2, a3, a4, a5, a6⟩ := he f hf
    rw [a3, a4, a5, a6]; exact h.totals e he
  · obtain ⟨q, hq, hb⟩ := h.balance
    refine ⟨q, hq, fun f hf => ?_⟩
    obtain ⟨e, he, a1, a2, a3, a4, a5, a6⟩ := he f hf
    rw [a1, a2, a3, a4]; exact hb e he

theorem Gen.mem_of_lookup {l : List (Int × Int)} {a v : Int} (h : l.lookup a = some v) : (a, v) ∈ l := by
  induction l with
  | nil => cases h
  | cons p l ih =>
    obtain ⟨b, w⟩ := p
    rw [List.lookup_cons] at h
    split at h
    · rename_i hb
      simp only [beq_iff_eq] at hb
      have := Option.some.inj h
      subst this; subst hb; simp
    · exact List.mem_cons_of_mem _ (ih h)

theorem Gen.edge_pos {s : State} (h : Numbered s) {k : Nat} {e : Edg} (he : edge s k = some e) : s.edges[k]? = some e := by
  have hm := List.mem_of_find?_eq_some he
  have hk : e.key = k := by simpa using List.find?_some he
  obtain ⟨i, hi⟩ := List.mem_iff_getElem?.mp hm
  rw [← hk, h.key i e hi]; exact hi

theorem Gen.putNi_ni (vs : List Vtx) (N : Fin (vs.map fun v => v.phases).length → Int) :
    (putNi vs N).map (fun x => { x with ni := 0 }) = vs.map fun x => { x with ni := 0 } := by
  apply List.ext_getElem
  · simp [putNi]
  · intro i h1 h2
    simp [putNi]

/-- One turn of the loop. -/
theorem Gen.turn {s0 s : State} (h0 : Sound s0) (hm : Marked s0 s) (hn : Numbered s) {k : Nat} {e : Edg}
    (he : edge s k = some e) : ∃ g s1 s2, 0 < g ∧ getFineGCD (reset s) k = some (g, s1) ∧
      setPreload s1 k (e.preload + g) = some s2 ∧ Marked s0 s2 ∧ Numbered s2 ∧ s2.repDone = false ∧
      s2.edges = s.edges.set k { e with preload := e.preload + g } := by
  have hsound := sound_marked h0 hm
  have hk := edge_pos hn he
  have hmem := List.mem_of_getElem? hk
  obtain ⟨g, hg, hg0⟩ := fineGCD_pos (hsound.nonneg e hmem) (hsound.pos e hmem).1
  have step1 : ∃ cch, getFineGCD (reset s) k = some (g, { reset s with cache := cch }) ∧
      ∀ p ∈ cch, ∀ e ∈ s.edges, e.id = p.1 → computeFineGCD e = some p.2 := by
    unfold getFineGCD
    rw [show edge (reset s) k = some e from he]
    simp only [Option.bind_eq_bind, Option.bind_some]
    cases hl : (reset s).cache.lookup e.id with
    | some v =>
      have hv : (e.id, v) ∈ s.cache := by
        have : s.cache.lookup e.id = some v := hl
        exact mem_of_lookup this
      have := hn.cache _ hv e hmem rfl
      rw [hg] at this
      have := Option.some.inj this
      subst this
      exact ⟨s.cache, rfl, hn.cache⟩
    | none =>
      simp only
      rw [hg]
      refine ⟨_, rfl, ?_⟩
      intro p hp f hf hid
      rcases List.mem_append.1 hp with hp | hp
      · exact hn.cache p hp f hf hid
      · simp only [List.mem_singleton] at hp
        subst hp
        obtain ⟨i, hi⟩ := List.mem_iff_getElem?.mp hf
        have h1 := hn.id i f hi
        have h2 := hn.id k e hk
        simp only at hid
        have : i = k := by omega
        subst this
        rw [hk] at hi
        have := Option.some.inj hi
        subst this; exact hg
  obtain ⟨cch, c1, c2⟩ := step1
  have hes : s.edges.map (fun x => if x.key = k then { x with preload := e.preload + g } else x) =
      s.edges.set k { e with preload := e.preload + g } := by
    apply List.ext_getElem?
    intro i
    rw [List.getElem?_map, List.getElem?_set]
    by_cases hik : k = i
    · subst hik
      rw [if_pos rfl, hk, if_pos (List.getElem?_eq_some_iff.1 hk).1]
      simp [hn.key _ _ hk]
    · rw [if_neg hik]
      cases hi : s.edges[i]? with
      | none => rfl
      | some f =>
        have := hn.key i f hi
        simp only [Option.map_some]
        rw [if_neg (by omega)]
  refine ⟨g, _, { reset s with cache := cch, edges := s.edges.set k { e with preload := e.preload + g } }, hg0, c1, ?_, ?_, ?_, rfl, rfl⟩
  · unfold setPreload
    rw [if_neg (by simp [reset])]
    unfold modE
    rw [if_pos]
    · show some _ = some _
      congr 1
      show State.mk _ _ _ _ _ _ _ _ _ = _
      rw [show ({ reset s with cache := cch } : State).edges = s.edges from rfl, hes]
    · rw [List.any_eq_true]
      exact ⟨e, hmem, by simp [hn.key _ _ hk]⟩
  · refine ⟨hm.tasks, by show (s.edges.set _ _).length = _; rw [List.length_set]; exact hm.channels, ?_⟩
    intro i f hf
    obtain ⟨g', n, k1, k2⟩ := hm.tokens i f hf
    show ∃ g n, _ ∧ (s.edges.set _ _)[i]? = _
    rw [List.getElem?_set]
    by_cases hik : k = i
    · subst hik
      rw [if_pos rfl, if_pos (List.getElem?_eq_some_iff.1 hk).1]
      rw [hk] at k2
      have := Option.some.inj k2
      subst this
      have hgg : computeFineGCD { f with preload := f.preload + n * g' } = computeFineGCD f := rfl
      rw [hgg, k1] at hg
      have := Option.some.inj hg
      subst this
      refine ⟨g', n + 1, k1, ?_⟩
      congr 2
      push_cast
      ring
    · rw [if_neg hik]
      exact ⟨g', n, k1, k2⟩
  · refine ⟨?_, ?_, ?_⟩
    · intro i f hf
      have hf : (s.edges.set k _)[i]? = some f := hf
      rw [List.getElem?_set] at hf
      split at hf
      · rename_i hik
        split at hf
        · have := Option.some.inj hf
          subst this
          rw [← hik]; exact hn.key k e hk
        · cases hf
      · exact hn.key i f hf
    · intro i f hf
      have hf : (s.edges.set k _)[i]? = some f := hf
      rw [List.getElem?_set] at hf
      split at hf
      · rename_i hik
        split at hf
        · have := Option.some.inj hf
          subst this
          rw [← hik]; exact hn.id k e hk
        · cases hf
      · exact hn.id i f hf
    · intro p hp f hf hid
      have hf : f ∈ s.edges.set k { e with preload := e.preload + g } := hf
      rcases List.mem_or_eq_of_mem_set hf with hf | rfl
      · exact c2 p hp f hf hid
      · exact c2 p hp e hmem hid

theorem Gen.numbered_ext {s t : State} (h : Numbered s) (he : t.edges = s.edges) (hc : t.cache = s.cache) : Numbered t := by
  refine ⟨?_, ?_, ?_⟩
  · rw [he]; exact h.key
  · rw [he]; exact h.id
  · rw [he, hc]; exact h.cache

theorem Gen.computeRV_turn {s0 s : State} (h0 : Sound s0) (hm : Marked s0 s) (hn : Numbered s) :
    ∃ t, computeRV s = some (true, t) ∧ Marked s0 t ∧ Numbered t ∧ t.edges = s.edges := by
  obtain ⟨t, N, ht, hc⟩ := computeRV_sound (sound_marked h0 hm)
  refine ⟨t, ht, ?_⟩
  rcases hc with rfl | rfl
  · exact ⟨hm, hn, rfl⟩
  · exact ⟨⟨(putNi_ni _ _).trans hm.tasks, hm.channels, hm.tokens⟩, numbered_ext hn rfl rfl, rfl⟩

theorem Gen.marking_spec {critical : State → Option (Option Nat)} {s0 : State} (h0 : Sound s0) (fuel : Nat) {s t : State}
    (hm : Marked s0 s) (hn : Numbered s) (h : marking critical fuel s = some t) : Marked s0 t ∧ critical t = some none := by
  induction fuel generalizing s with
  | zero => cases h
  | succ n ih =>
    obtain ⟨u, hu, hm', hn', -⟩ := computeRV_turn h0 hm hn
    unfold marking at h
    rw [hu] at h
    simp only [Option.bind_eq_bind, Option.bind_some, if_true] at h
    obtain ⟨c, hc, h⟩ := Option.bind_eq_some_iff.mp h
    cases c with
    | none =>
      have := Option.some.inj h
      subst this
      exact ⟨hm', hc⟩
    | some k =>
      simp only at h
      obtain ⟨e, he, h⟩ := Option.bind_eq_some_iff.mp h
      obtain ⟨g, s1, s2, -, t1, t2, t3, t4, -, -⟩ := turn h0 hm' hn' he
      rw [t1] at h
      simp only [Option.bind_some] at h
      rw [t2] at h
      exact ih t3 t4 h

theorem Gen.shape_numbered {r : Nat → Nat} {c : Config} {fuel : Nat} {s : State} {j : Nat}
    (h : (shape r c fuel).run 0 = some (s, j)) : Numbered s := by
  obtain ⟨vs, es, aV, aE, k, zs, k1, k2, k3, k4, k5, k6, k7⟩ := shape_some h
  simp only at k1
  subst k1
  refine ⟨fun i e he => ?_, fun i e he => (k7 i e he).1.id, by simp [mk]⟩
  obtain ⟨-, -, -, -, -, hk⟩ := k7 i e he
  exact hk

/-- **C64** A graph that the generator returns has the tasks and channels of `C45_graph`; initial tokens are a non-negative
multiple of the granularity on each channel, and the analysis finds a positive throughput (`critical` names no channel). -/
theorem C64_marking {r : Nat → Nat} {c : Config} {critical : State → Option (Option Nat)} {fuel turns : Nat} {t : State}
    (h : generate r c critical fuel turns = some t) (hw : c.maxWeight < 2 ^ 31) :
    ∃ s j, (shape r c fuel).run 0 = some (s, j) ∧ Marked s t ∧ critical t = some none := by
  obtain ⟨⟨s, j⟩, h1, h2⟩ := Option.bind_eq_some_iff.mp h
  have h0 := shape_sound h1 hw
  obtain ⟨a, b⟩ := marking_spec h0 turns (marked_refl h0) (shape_numbered h1) h2
  exact ⟨s, j, h1, a, b⟩

theorem Gen.sum_set_lt {α : Type} (f : α → Nat) (l : List α) (k : Nat) {x y : α} (h : l[k]? = some y) (hf : f x < f y) :
    ((l.set k x).map f).sum < (l.map f).sum := by
  induction l generalizing k with
  | nil => cases h
  | cons a l ih =>
    cases k with
    | zero =>
      simp only [List.getElem?_cons_zero, Option.some.injEq] at h
      subst h
      simp only [List.set_cons_zero, List.map_cons, List.sum_cons]
      omega
    | succ k =>
      have := ih k (by simpa using h)
      simp only [List.set_cons_succ, List.map_cons, List.sum_cons]
      omega

/-- The states in which the loop that starts from `s0` calls the analysis. -/
structure Gen.Analysed (s0 t : State) : Prop where
  marked : Marked s0 t
  numbered : Numbered t
  computed : ∃ s, Marked s0 s ∧ s.repDone = false ∧ computeRV s = some (true, t)

theorem Gen.marking_total {critical : State → Option (Option Nat)} {s0 : State} (h0 : Sound s0) (B : Int)
    (hB : ∀ t, Analysed s0 t → ∃ c, critical t = some c ∧ ∀ k, c = some k → ∃ e, edge t k = some e ∧ e.preload < B) (fuel : Nat)
    {s : State} (hm : Marked s0 s) (hn : Numbered s) (hr : s.repDone = false)
    (hf : (s.edges.map fun e => (B - e.preload).toNat).sum < fuel) :
    ∃ t, marking critical fuel s = some t ∧ Analysed s0 t := by
  induction fuel generalizing s with
  | zero => omega
  | succ n ih =>
    obtain ⟨u, hu, hm', hn', he'⟩ := computeRV_turn h0 hm hn
    have ha : Analysed s0 u := ⟨hm', hn', s, hm, hr, hu⟩
    unfold marking
    rw [hu]
    simp only [Option.bind_eq_bind, Option.bind_some, if_true]
    obtain ⟨c, hc, hb⟩ := hB u ha
    rw [hc, Option.bind_some]
    cases c with
    | none => exact ⟨u, rfl, ha⟩
    | some k =>
      simp only
      obtain ⟨e, he, hlt⟩ := hb k rfl
      obtain ⟨g, s1, s2, g0, t1, t2, t3, t4, t6, t5⟩ := turn h0 hm' hn' he
      rw [he]
      simp only [Option.bind_some]
      rw [t1]
      simp only [Option.bind_some]
      rw [t2]
      refine ih t3 t4 t6 ?_
      have := sum_set_lt (fun e : Edg => (B - e.preload).toNat) u.edges k (x := { e with preload := e.preload + g })
        (edge_pos hn' he) (by simp only; omega)
      rw [t5]
      rw [he'] at this ⊢
      omega

theorem Gen.shape_unsolved {r : Nat → Nat} {c : Config} {fuel : Nat} {s : State} {j : Nat}
    (h : (shape r c fuel).run 0 = some (s, j)) : s.repDone = false := by
  obtain ⟨vs, es, aV, aE, k, zs, k1, -⟩ := shape_some h
  simp only at k1
  subst k1
  rfl

/-- **C64** The loop that adds initial tokens ends for every analysis that answers, blames only channels, and no channel that
already has `B` tokens. That the K-periodic analysis is such an analysis is `C64_live_partial`. -/
theorem C64_terminates_partial {r : Nat → Nat} {c : Config} {critical : State → Option (Option Nat)} {fuel : Nat} {s : State}
    {j : Nat} (h : (shape r c fuel).run 0 = some (s, j)) (hw : c.maxWeight < 2 ^ 31) (B : Int)
    (hB : ∀ t, Marked s t → ∃ c, critical t = some c ∧ ∀ k, c = some k → ∃ e, edge t k = some e ∧ e.preload < B) :
    ∃ fuel', ∃ t, marking critical fuel' s = some t := by
  obtain ⟨t, ht, -⟩ := marking_total (shape_sound h hw) B (fun t ht => hB t ht.marked) _ (marked_refl (shape_sound h hw))
    (shape_numbered h) (shape_unsolved h) (Nat.lt_succ_self _)
  exact ⟨_, t, ht⟩

/-! ### Examples -/

/-- Up to 4 tasks and 5 channels. -/
def Gen.sample : Config := ⟨2, 2, 4, 5, 12, 9, 3, 2, true⟩

/-- A sequence of draws. -/
def Gen.sampleDraws (i : Nat) : Nat := 7 * i * i + 3 * i + i / 5 + 1

example : Gen.sample.Supported := by constructor <;> decide

/-- A generated graph: three tasks with initial phases, five channels. -/
example : ((shape sampleDraws sample 10).run 0).map (fun p => p.1.verts.map fun v => (v.id, v.name, v.phases, v.iphases)) = some
    [(1, "Node_1", 2, 2), (2, "Node_2", 2, 2), (3, "Node_3", 3, 2)] := by
  decide +kernel

example : ((shape sampleDraws sample 10).run 0).map (fun p => p.1.edges.map fun e => (e.src, e.tgt, e.ins, e.outs)) = some
    [(2, 1, [6, 1, 3], [5, 0]), (2, 0, [3, 7, 0], [3, 4]),
      (1, 2, [1, 2], [3, 3, 0]), (1, 0, [5, 0], [3, 4]), (0, 2, [5, 2], [7, 3, 0])] := by
  decide +kernel

example : ((shape sampleDraws sample 10).run 0).map (fun p => p.1.edges.map fun e => (e.iins, e.iouts)) = some
    [([7, 0], [1, 10]), ([3, 4], [1, 6]), ([9, 2], [5, 4]), ([1, 4], [2, 0]), ([1, 6], [9, 0])] := by
  decide +kernel

/-- An analysis that asks for 20 tokens on the first channel: its granularity is 1, so 20 turns. -/
def Gen.wants20 (s : State) : Option (Option Nat) :=
  match s.edges with
  | [] => some none
  | e :: _ => some (if e.preload < 20 then some e.key else none)

example : (generate sampleDraws sample wants20 10 30).map (fun s => s.edges.map fun e => e.preload) = some [20, 0, 0, 0, 0] := by
  decide +kernel

/-- The draws 0, 1, 2, … are varied. -/
example : Varied fun i => i := by
  intro n hn x i
  by_cases h : 1 + (i : Int) % n = x
  · refine ⟨i + 1, by omega, ?_⟩
    rw [← h]
    intro h2
    have h3 : ((i + 1 : Nat) : Int) % n = (i : Int) % n := by linarith
    have h4 := Int.emod_emod_of_dvd ((i : Int) + 1 - i) (dvd_refl n)
    have h5 : ((i : Int) + 1 - i) % n = 0 := by
      rw [Int.sub_emod]
      push_cast at h3
      rw [h3]
      simp
    rw [show (i : Int) + 1 - i = 1 by ring, Int.emod_eq_of_lt (by omega) (by omega)] at h5
    omega
  · exact ⟨i, le_refl _, h⟩

end Kiter
