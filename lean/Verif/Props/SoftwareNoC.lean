/-
Property C118: the modelling of transfers by SoftwareControlledNoCBufferless (`addPathNode`, `resolveSrcConflicts` in
software_noc.cpp).
-/
import Verif.Lemmas.SoftwareNoCServe
import Verif.Props.Communication

set_option autoImplicit false

namespace Kiter

open DF

/-! #### The chain of a channel -/

theorem DF.swPath_spec {s s' : State} (hi : Inv s) {e : Edg} (he : e ∈ s.edges) (hr : InRange e) {route : List Int}
    (hm : swPath s e.key route = some s') :
    (e.src = e.tgt → s'.verts = s.verts ∧ s'.edges = s.edges ∧ Inv s') ∧
    (e.src ≠ e.tgt → ∃ L,
      IsChain e s.verts.length (added true route) (if route = [] then 1 else e.ins.sum) L ∧
      s'.edges = (s.edges.filter fun f => f.key ≠ e.key) ++ L ∧
      s'.verts.length = s.verts.length + added true route ∧ Grown true s.verts s'.verts ∧
      Single s.verts e.src ∧ Single s.verts e.tgt ∧ Inv s') := by
  unfold swPath at hm
  dsimp only at hm
  rw [show edge (reset s) e.key = edge s e.key from rfl, edge_of_mem hi he] at hm
  simp only [Option.bind_eq_bind, Option.bind_some] at hm
  have hends := hi.ends e he
  obtain ⟨a, ha, hm⟩ := Option.bind_eq_some_iff.mp hm
  obtain ⟨b, hb, hm⟩ := Option.bind_eq_some_iff.mp hm
  have hab : a.id = b.id ↔ e.src = e.tgt := by
    constructor
    · intro h; exact hi.vid _ _ a b ha hb h
    · intro h
      have ha' : s.verts[e.src]? = some a := ha
      have hb' : s.verts[e.tgt]? = some b := hb
      rw [h, hb'] at ha'
      rw [Option.some.inj ha']
  by_cases h2 : e.src = e.tgt
  · rw [if_pos (hab.2 h2)] at hm
    have := Option.some.inj hm
    subst this
    exact ⟨fun _ => ⟨rfl, rfl, inv_reset hi⟩, fun h => absurd h2 h⟩
  · rw [if_neg (fun h => h2 (hab.1 h))] at hm
    obtain ⟨s1, k1, hm⟩ := Option.bind_eq_some_iff.mp hm
    obtain ⟨⟨s2, last⟩, k2, hm⟩ := Option.bind_eq_some_iff.mp hm
    obtain ⟨s3, k3, hm⟩ := Option.bind_eq_some_iff.mp hm
    obtain ⟨s6, k6, hm⟩ := Option.bind_eq_some_iff.mp hm
    obtain ⟨s7, k7, k8⟩ := Option.bind_eq_some_iff.mp hm
    refine ⟨fun h => absurd h h2, fun _ => ?_⟩
    have x1 := eff_removeEdge (inv_reset hi) k1
    have v1 : s1.verts = s.verts := x1.verts
    obtain ⟨L, g1, g2, g3, g4, g5, g6, x2⟩ := swLoop_spec a.id b.id route s1 e.src e.totIn s2 last x1.inv
      x1.writable (by rw [v1]; exact hends.1) k2
    obtain ⟨-, -, id, x3⟩ := eff_addEdge x2.inv k3
    obtain ⟨p6, x6⟩ := eff_setEdgeOut x3.inv x3.edges rfl k6
    obtain ⟨p7, x7⟩ := eff_setEdgeIn x6.inv x6.edges rfl k7
    have x8 := eff_setPreload x7.inv x7.edges rfl k8
    have hh : hops true route = added true route := hops_eq true route
    rw [hh] at g1 g3 g4
    rw [v1] at g2 g3 g4 g5 g6
    have hti : e.totIn = e.ins.sum := by
      rw [(hi.totals e he).1, intSum_eq, bmod_self hr.1 hr.2.1]
    have hto : e.totOut = e.outs.sum := by
      rw [(hi.totals e he).2, intSum_eq, bmod_self hr.2.2.1 hr.2.2.2]
    rw [hti] at g2
    have hadd : route = [] ↔ added true route = 0 := by
      unfold added
      cases route with
      | nil => simp
      | cons a l =>
        simp; omega
    -- the phases of the two ends
    have v2 : s3.verts = s2.verts := by rw [x3.verts]
    rw [v2] at p6
    have w6 : Keep s2.verts s6.verts := by
      rw [x6.verts, v2]
      exact Keep.modify p6
    have w7 : Keep s6.verts s7.verts := by
      rw [x7.verts]
      exact Keep.modify p7
    have w8 : Keep s2.verts s'.verts := by
      rw [x8.verts]
      exact w6.trans w7
    have gk : Grown true s.verts s'.verts := by
      refine ⟨by rw [w8.1]; exact g5.1, ?_, ?_⟩
      · intro i x hx
        obtain ⟨y, hy, h3⟩ := g5.2.1 i x hx
        obtain ⟨z, hz, h4⟩ := w8.2 i y hy
        refine ⟨z, hz, ?_⟩
        rcases h3 with rfl | ⟨hp, rfl⟩
        · exact h4
        · rcases h4 with rfl | ⟨-, rfl⟩ <;> exact Or.inr ⟨hp, rfl⟩
      · intro i y hil hy
        have hlt : i < s2.verts.length := by
          rw [← w8.1]; rw [List.getElem?_eq_some_iff] at hy; exact hy.1
        obtain ⟨z, hz, h4⟩ := w8.2 i _ (List.getElem?_eq_getElem hlt)
        rw [hy] at hz
        have := Option.some.inj hz
        subst this
        obtain ⟨q1, q2⟩ := g5.2.2 i _ hil (List.getElem?_eq_getElem hlt)
        rcases h4 with rfl | ⟨-, rfl⟩
        · exact ⟨q1, q2⟩
        · exact ⟨rfl, q2⟩
    have back : ∀ v, v < s.verts.length → Single s2.verts v → Single s.verts v := by
      rintro v hv ⟨y, hy, hp⟩
      obtain ⟨z, hz, h3⟩ := g5.2.1 v _ (List.getElem?_eq_getElem hv)
      rw [hz] at hy
      have := Option.some.inj hy
      subst this
      refine ⟨_, List.getElem?_eq_getElem hv, ?_⟩
      rcases h3 with h3 | ⟨h0, -⟩
      · rw [← h3]; exact hp
      · intro h1; omega
    have stgt : Single s.verts e.tgt := back _ hends.2 p6
    have ssrc : Single s.verts e.src := by
      by_cases hroute : route = []
      · have hl0 : last = e.src := by rw [g3, if_pos (hadd.1 hroute)]
        refine back _ hends.1 ?_
        have : Single s6.verts last := p7
        rw [hl0] at this
        exact Single.of_keep w6 this (lt_of_lt_of_le hends.1 g5.1)
      · exact g6 hroute
    have hedges : s'.edges = (s.edges.filter fun f => f.key ≠ e.key) ++
        (L ++ [⟨s2.nextKey, last, e.tgt, id, "", [1], [e.totOut], intSum [1],
          intSum [e.totOut], e.preload, [], []⟩]) := by
      rw [x8.edges, x2.edges, x1.edges, List.append_assoc]
      rfl
    refine ⟨_, ?_, hedges, by rw [w8.1, g4], gk, ssrc, stgt, x8.inv⟩
    have hcase : ∀ (i : Nat) (f : Edg), (L ++ [(⟨s2.nextKey, last, e.tgt, id, "", [1],
        [e.totOut], intSum [1], intSum [e.totOut], e.preload, [], []⟩ : Edg)])[i]? = some f →
        (i < added true route ∧ L[i]? = some f) ∨ (i = added true route ∧
          f = ⟨s2.nextKey, last, e.tgt, id, "", [1],
        [e.totOut], intSum [1], intSum [e.totOut], e.preload, [], []⟩) := by
      intro i f hf
      rcases Nat.lt_or_ge i L.length with hlt | hge
      · rw [List.getElem?_append_left hlt] at hf
        exact Or.inl ⟨by omega, hf⟩
      · rw [List.getElem?_append_right hge] at hf
        have : i - L.length = 0 := by
          by_contra hne
          rw [List.getElem?_eq_none (by simp; omega)] at hf
          cases hf
        rw [this] at hf
        exact Or.inr ⟨by omega, (Option.some.inj hf).symm⟩
    refine ⟨by simp [g1], ?_, ?_, ?_, ?_⟩
    · intro i f hf
      rcases hcase i f hf with ⟨hlt, hf⟩ | ⟨hieq, rfl⟩
      · obtain ⟨c1, c2, -⟩ := g2 i f hf
        exact ⟨c1, by rw [if_neg (by omega)]; exact c2⟩
      · refine ⟨?_, by rw [if_pos hieq]⟩
        show last = _
        rw [g3, hieq]
    · intro i f hf
      rcases hcase i f hf with ⟨hlt, hf⟩ | ⟨hieq, rfl⟩
      · obtain ⟨-, -, c3, c4, -⟩ := g2 i f hf
        have hroute : route ≠ [] := fun h => by rw [hadd] at h; omega
        exact ⟨by rw [if_neg hroute]; exact c3, by rw [if_neg (by omega)]; exact c4⟩
      · refine ⟨?_, by rw [if_pos hieq, hto]⟩
        by_cases hroute : route = []
        · rw [if_pos hroute]
          split <;> rfl
        · rw [if_neg hroute, if_neg (by rw [hadd] at hroute; omega)]
    · intro i f hf
      rcases hcase i f hf with ⟨hlt, hf⟩ | ⟨hieq, rfl⟩
      · obtain ⟨-, -, -, -, c5, -⟩ := g2 i f hf
        rw [if_neg (by omega)]; exact c5
      · rw [if_pos hieq]
    · intro f hf
      rcases List.mem_append.1 hf with hf | hf
      · obtain ⟨i, hi'⟩ := List.getElem?_of_mem hf
        obtain ⟨-, -, -, -, -, c6, c7⟩ := g2 i f hi'
        exact ⟨c6, c7⟩
      · rw [List.mem_singleton] at hf
        subst hf
        exact ⟨rfl, rfl⟩

theorem DF.swPath_balance {s s' : State} (hi : Inv s) {e : Edg} (he : e ∈ s.edges) (hr : InRange e)
    {route : List Int} (hroute : route ≠ []) (hm : swPath s e.key route = some s') :
    Inv s' ∧ s.verts.length ≤ s'.verts.length ∧ (∀ f ∈ s.edges, f ≠ e → f ∈ s'.edges) ∧
    (∀ q, Balanced s.edges q → ∃ q', (∀ v, v < s.verts.length → q' v = q v) ∧ Balanced s'.edges q') ∧
    (∀ q, Balanced s'.edges q → Balanced s.edges q) := by
  obtain ⟨h1, h2⟩ := swPath_spec hi he hr hm
  by_cases k2 : e.src = e.tgt
  · obtain ⟨k1, k2, k3⟩ := h1 k2
    refine ⟨k3, by rw [k1], fun f hf _ => by rw [k2]; exact hf, fun q hq => ⟨q, fun _ _ => rfl, by rw [k2]; exact hq⟩,
      fun q hq => by rw [k2] at hq; exact hq⟩
  · obtain ⟨L, g1, g2, g3, -, -, -, g4⟩ := h2 k2
    have hfirst : (if route = [] then (1 : Int) else e.ins.sum) = e.ins.sum := if_neg hroute
    have hends := hi.ends e he
    refine ⟨g4, by omega, ?_, ?_, ?_⟩
    · intro f hf hne
      rw [g2, List.mem_append, List.mem_filter]
      exact Or.inl ⟨hf, by simpa using fun h => hne (key_inj hi hf he h)⟩
    · intro q hq
      refine ⟨extend q s.verts.length (q e.src * e.ins.sum), ?_, ?_⟩
      · intro v hv
        simp [extend, hv]
      · intro f hf
        rw [g2, List.mem_append] at hf
        rcases hf with hf | hf
        · have hf' := List.mem_of_mem_filter hf
          have := hi.ends f hf'
          simp only [extend, this.1, this.2, if_true]
          exact hq f hf'
        · exact (chain_balance g1 hfirst q).2 hends.1 hends.2 (hq e he) f hf
    · intro q hq f hf
      by_cases hfe : f = e
      · subst hfe
        refine (chain_balance g1 hfirst q).1 fun g hg => hq g ?_
        rw [g2]
        exact List.mem_append_right _ hg
      · refine hq f ?_
        rw [g2, List.mem_append, List.mem_filter]
        exact Or.inl ⟨hf, by simpa using fun h => hfe (key_inj hi hf he h)⟩

/-! #### One sender for all the transfers of a task -/

/-- The channels produced by a task. -/
def DF.outputsOf (es : List Edg) (src : Nat) : List Edg := es.filter fun e => e.src = src

/-- What `resolveSrcConflicts` makes of the channels `old`: the task `src` has a single output channel `big` to the new task
`mid`, which has `n` phases and takes one token in each, and sends it on one of the channels `news`. `next e` is the channel
by which the tokens of the output `e` went on. -/
structure DF.OneSender (old : List Edg) (src mid : Nat) (next : Edg → Edg) (g n : Nat) (big : Edg) (news new : List Edg) :
    Prop where
  /-- The two channels of the first hop of each output are removed, all others kept. -/
  edges : new = (old.filter fun e => e.src ≠ src ∧ ∀ f ∈ old, f.src = src → e.key ≠ (next f).key) ++ big :: news
  ends : big.src = src ∧ big.tgt = mid
  /-- In an execution the task produces what it produced for all outputs together. -/
  produce : big.ins = [((outputsOf old src).map fun e => e.ins.sum).sum]
  consume : big.outs = List.replicate n 1
  tokens : big.preload = ((outputsOf old src).map fun e => e.preload).sum
  positive : 0 < g ∧ 0 < n
  /-- The sender has the least number of phases: an execution of `src` is `g` rounds of `n` phases, `g` the greatest common
  divisor of the production rates. -/
  rounds : (n : Int) * g = ((outputsOf old src).map fun e => e.ins.sum).sum
  greatest : ∀ d : Int, (∀ e ∈ outputsOf old src, d ∣ e.ins.sum) → d ∣ g
  length : news.length = (outputsOf old src).length
  /-- The channel to each destination, with as many tokens in `g` rounds as the output had in an execution. -/
  send : ∀ (i : Nat) (e h : Edg), (outputsOf old src)[i]? = some e → news[i]? = some h →
    h.src = mid ∧ h.tgt = (next e).tgt ∧ h.ins.length = n ∧ h.ins.sum * g = e.ins.sum ∧ h.outs = [1] ∧
      h.preload = (next e).preload
  /-- No phase sends to two destinations, and none sends nothing. -/
  phase : ∀ k, k < n → ∃ i, i < news.length ∧ ∀ (j : Nat) (h : Edg), news[j]? = some h →
    h.ins[k]? = some (if j = i then 1 else 0)

theorem DF.sum_tdiv {l : List Int} {g : Int} (hg : 0 < g) (h0 : ∀ x ∈ l, 0 ≤ x) (hd : ∀ x ∈ l, g ∣ x) :
    0 ≤ l.sum ∧ l.sum.tdiv g * g = l.sum ∧ (((l.map fun x => (x.tdiv g).toNat).sum : Nat) : Int) = l.sum.tdiv g ∧
    ∀ x ∈ l, ((x.tdiv g).toNat : Int) * g = x := by
  have h1 : ∀ x ∈ l, ((x.tdiv g).toNat : Int) * g = x := by
    intro x hx
    rw [Int.toNat_of_nonneg (Int.tdiv_nonneg (h0 x hx) hg.le)]
    exact Int.tdiv_mul_cancel (hd x hx)
  have hs : 0 ≤ l.sum := List.sum_nonneg h0
  have hds : g ∣ l.sum := List.dvd_sum hd
  refine ⟨hs, Int.tdiv_mul_cancel hds, ?_, h1⟩
  have key : (((l.map fun x => (x.tdiv g).toNat).sum : Nat) : Int) * g = l.sum := by
    clear hs hds h0 hd
    induction l with
    | nil => simp
    | cons a l ih =>
      have ha := h1 a (by simp)
      have := ih fun x hx => h1 x (List.mem_cons_of_mem _ hx)
      rw [List.map_cons, List.sum_cons, List.sum_cons]
      push_cast at this ⊢
      linarith
  have := Int.tdiv_mul_cancel hds
  exact mul_right_cancel₀ hg.ne' (key.trans this.symm)

/-- **C118** When a task with at least two outputs is given a sender, the graph is changed as `OneSender` says, whatever the
tasks of the original graph, rates and initial tokens; every task keeps its name and durations, and the sender has one phase
of duration 1 per token. The rates of the outputs are not negative. -/
theorem C118_one_sender {ops : List Op} {s s' : State} (h : calls empty ops = some s) {orig : List Int} {src : Nat}
    {next : Edg → Edg} (hr : ∀ e ∈ outputsOf s.edges src, InRange e ∧ 0 ≤ e.ins.sum)
    (hn : ∀ e ∈ outputsOf s.edges src, FirstHop s.edges e (next e)) (h2 : 2 ≤ (outputsOf s.edges src).length)
    (hm : resolveSrc orig s src = some s') :
    ∃ (g n : Nat) (big : Edg) (news : List Edg),
      OneSender s.edges src s.verts.length next g n big news s'.edges ∧
      SameTasks s.verts s'.verts ∧ s'.verts.length = s.verts.length + 1 ∧
      ∃ x, s'.verts[s.verts.length]? = some x ∧ x.phases = n ∧ x.durs = List.replicate n 1 := by
  have hi := inv_calls inv_empty h
  set O := outputsOf s.edges src with hO
  have hmemO : ∀ e, e ∈ O ↔ e ∈ s.edges ∧ e.src = src := by
    intro e; rw [hO, outputsOf, List.mem_filter]; simp
  have hnd : s.edges.Nodup := List.Nodup.of_map _ hi.keys
  have hOnd : O.Nodup := hnd.filter _
  have htgt : ∀ e ∈ O, e.tgt ≠ src := by
    intro e he heq
    have f := hn e he
    have all : ∀ x ∈ O, x = next e := fun x hx => f.output x ((hmemO x).1 hx).1 (((hmemO x).1 hx).2.trans heq.symm)
    match hO' : O with
    | [] => simp at h2
    | [_] => simp at h2
    | a :: b :: l =>
      have e1 := all a (by simp)
      have e2 := all b (by simp)
      simp [e1, e2] at hOnd
  unfold resolveSrc at hm
  obtain ⟨srcs, k1, hm⟩ := Option.bind_eq_some_iff.mp hm
  have hout : outEdges s src = O := by
    rw [hO, outputsOf, outEdges]
    apply List.filter_congr
    intro x _
    rw [Bool.eq_iff_iff]
    simp
  have hsrcs : srcs = O := by
    unfold srcEdges at k1
    rw [hout] at k1
    split at k1
    · cases k1
    · rw [← Option.some.inj k1, List.filter_eq_self]
      intro x hx
      simpa using htgt x hx
  subst hsrcs
  dsimp only at hm
  obtain ⟨g, k2, hm⟩ := Option.bind_eq_some_iff.mp hm
  have hrtr : rtrEdges s O = O.map next := by
    unfold rtrEdges
    rw [List.map_eq_flatMap]
    apply List.flatMap_congr
    intro e he
    have f := hn e he
    have : outEdges s e.tgt = [next e] :=
      filter_unique hi f.mem' (by simp [f.meet]) fun x hx hp => f.output x hx (by simpa using hp)
    rw [this]
    simp [Ne.symm f.away]
  rw [hrtr, if_neg (by simp), if_neg (by omega)] at hm
  split at hm
  · cases hm
  rename_i hg
  rw [not_not] at hg
  split at hm
  · cases hm
  rename_i hflow
  rw [not_not] at hflow
  obtain ⟨x, k3, hm⟩ := Option.bind_eq_some_iff.mp hm
  obtain ⟨s1, k4, k5⟩ := Option.bind_eq_some_iff.mp hm
  have hsv : src < s.verts.length := by
    rw [List.getElem?_eq_some_iff] at k3; exact k3.1
  -- the totals
  have htot : ∀ e ∈ O, e.totIn = e.ins.sum := by
    intro e he
    have r := (hr e he).1
    rw [(hi.totals e ((hmemO e).1 he).1).1, intSum_eq, bmod_self r.1 r.2.1]
  have hmap : O.map Edg.totIn = O.map fun e => e.ins.sum := List.map_congr_left htot
  obtain ⟨-, d1, d2⟩ := flowGcd_spec O 0 g k2
  have hnonneg : ∀ y ∈ O.map Edg.totIn, 0 ≤ y := by
    intro y hy
    obtain ⟨e, he, rfl⟩ := List.mem_map.1 hy
    rw [htot e he]; exact (hr e he).2
  have hdvd : ∀ y ∈ O.map Edg.totIn, g ∣ y := by
    intro y hy
    obtain ⟨e, he, rfl⟩ := List.mem_map.1 hy
    exact d1 e he
  obtain ⟨t0, t1, t2, t3⟩ := sum_tdiv hg hnonneg hdvd
  set flow := (O.map Edg.totIn).sum.tdiv g with hfl
  set ns := O.map fun (e : Edg) => (e.totIn.tdiv g).toNat with hns
  have hnsum : ns.sum = flow.toNat := by
    rw [List.map_map] at t2
    have : (ns.sum : Int) = flow := by
      rw [← t2]; rfl
    omega
  obtain ⟨big, b1, b2, b3, b4, b5, b6, b7, b8, x1, vl, st, y, y1, -, y2, y3⟩ := eff_serveTask hi hsv hflow k4
  -- the first hops after the sender is added
  have hends := fun e he => hi.ends e he
  have fh : ∀ e ∈ O, FirstHop s1.edges e (next e) := by
    intro e he
    have f := hn e he
    refine ⟨?_, ?_, f.meet, ?_, ?_, f.away⟩
    · rw [x1.edges]; exact List.mem_append_left _ f.mem
    · rw [x1.edges]; exact List.mem_append_left _ f.mem'
    · intro z hz ht
      rw [x1.edges, List.mem_append, List.mem_singleton] at hz
      rcases hz with hz | rfl
      · exact f.input z hz ht
      · have := (hends e f.mem).2
        omega
    · intro z hz ht
      rw [x1.edges, List.mem_append, List.mem_singleton] at hz
      rcases hz with hz | rfl
      · exact f.output z hz ht
      · exact absurd (b1.symm.trans ht).symm (htgt e he)
  have hcross : ∀ e ∈ O, ∀ e' ∈ O, (next e).tgt ≠ e'.tgt := by
    intro e he e' he' heq
    have f := hn e he
    have := (hn e' he').input (next e) f.mem' heq
    have h3 := ((hmemO e').1 he').2
    rw [← this, f.meet] at h3
    exact htgt e he h3
  have hpair : O.Pairwise fun e e' => e.tgt ≠ e'.tgt := by
    refine List.Pairwise.imp_of_mem ?_ hOnd
    intro a b ha hb hne heq
    exact hne ((hn b hb).input a (hn a ha).mem heq)
  have hmapsnd : O.map next = (O.map fun e => (e, next e)).map Prod.snd := by rw [List.map_map]; rfl
  rw [hmapsnd] at k5
  obtain ⟨news, n1, n2, x2, st2, sl, sm⟩ := serveAll_spec s.verts.length ns (O.map fun e => (e, next e)) 0 s1 s' x1.inv
    x1.writable (by
      intro p hp
      obtain ⟨e, he, rfl⟩ := List.mem_map.1 hp
      have f := hn e he
      exact ⟨fh e he, (hends e f.mem).2.ne, (hends _ f.mem').2.ne⟩)
    (by
      intro p hp p' hp'
      obtain ⟨e, he, rfl⟩ := List.mem_map.1 hp
      obtain ⟨e', he', rfl⟩ := List.mem_map.1 hp'
      exact hcross e he e' he')
    (by rw [List.pairwise_map]; exact hpair) k5
  have hsend : ∀ (i : Nat) (e z : Edg), O[i]? = some e → news[i]? = some z → z.src = s.verts.length ∧
      z.tgt = (next e).tgt ∧ z.ins = tokenVec ns i ∧ z.outs = [1] ∧ z.preload = (next e).preload := by
    intro i e z he hz
    obtain ⟨c1, c2, c3, c4, c5, -⟩ := n2 i (e, next e) z (by rw [List.getElem?_map, he]; rfl) hz
    rw [Nat.zero_add] at c3
    exact ⟨c1, c2, c3, c4, c5⟩
  have hlen : news.length = O.length := by rw [n1, List.length_map]
  have hgn : ((g.toNat : Nat) : Int) = g := Int.toNat_of_nonneg hg.le
  have hfn : ((flow.toNat : Nat) : Int) = flow := Int.toNat_of_nonneg hflow.le
  refine ⟨g.toNat, flow.toNat, big, news, ⟨?_, ⟨b1, b2⟩, ?_, b4, b5, by omega, ?_, ?_, hlen, ?_, ?_⟩, st.trans st2,
    by rw [sl, vl], y, sm y y1 (by rw [y2, hnsum, hfn]), by rw [y2, hfn], y3⟩
  · rw [x2.edges, x1.edges, List.filter_append]
    have hb : ([big].filter fun x => decide (∀ p ∈ O.map (fun e => (e, next e)), x.key ≠ p.1.key ∧ x.key ≠ p.2.key))
        = [big] := by
      rw [List.filter_eq_self]
      intro z hz
      rw [List.mem_singleton] at hz
      subst hz
      rw [decide_eq_true_eq]
      intro p hp
      obtain ⟨e, he, rfl⟩ := List.mem_map.1 hp
      have f := hn e he
      have l1 := hi.keyLt _ f.mem
      have l2 := hi.keyLt _ f.mem'
      rw [b8]
      exact ⟨l1.ne', l2.ne'⟩
    rw [hb, List.append_assoc]
    congr 1
    apply List.filter_congr
    intro z hz
    rw [Bool.eq_iff_iff]
    simp only [decide_eq_true_eq, List.mem_map]
    constructor
    · intro hall
      refine ⟨fun hzs => ?_, fun f hf hfs => ?_⟩
      · exact (hall _ ⟨z, (hmemO z).2 ⟨hz, hzs⟩, rfl⟩).1 rfl
      · exact (hall _ ⟨f, (hmemO f).2 ⟨hf, hfs⟩, rfl⟩).2
    · rintro ⟨a1, a2⟩ _ ⟨e, he, rfl⟩
      refine ⟨fun hk => ?_, a2 e ((hmemO e).1 he).1 ((hmemO e).1 he).2⟩
      rw [key_inj hi hz ((hmemO e).1 he).1 hk] at a1
      exact a1 ((hmemO e).1 he).2
  · rw [b3, t1, hmap]
  · rw [hgn, hfn, t1, hmap]
  · intro d hd
    rw [hgn]
    exact d2 d (dvd_zero d) fun e he => by rw [htot e he]; exact hd e he
  · intro i e z he hz
    obtain ⟨c1, c2, c3, c4, c5⟩ := hsend i e z he hz
    refine ⟨c1, c2, by rw [c3, tokenVec_length, hnsum], ?_, c4, c5⟩
    have hel := List.mem_of_getElem? he
    rw [c3, tokenVec_sum, hns, List.getElem?_map, he, hgn, ← htot e hel]
    exact t3 _ (List.mem_map.2 ⟨e, hel, rfl⟩)
  · intro k hk
    obtain ⟨i, hi', hph⟩ := tokenVec_phase ns k (by rw [hnsum]; exact hk)
    refine ⟨i, by rw [hlen]; simpa [hns] using hi', fun j z hz => ?_⟩
    have hj : j < O.length := by
      rw [← hlen]; exact (List.getElem?_eq_some_iff.1 hz).1
    obtain ⟨-, -, c3, -⟩ := hsend j O[j] z (List.getElem?_eq_getElem hj) hz
    rw [c3]
    exact hph j

/-- **C118** A channel between two different tasks is replaced, along a route with at least one link, by a chain with its
rates at the two ends, 1 elsewhere, and its initial tokens on the last channel; all other channels and the tasks are kept. -/
theorem C118_chain {ops : List Op} {s s' : State} (h : calls empty ops = some s) {e : Edg} (he : e ∈ s.edges)
    (hr : InRange e) (hst : e.src ≠ e.tgt) {route : List Int} (hroute : route ≠ [])
    (hm : swPath s e.key route = some s') :
    ∃ L, IsChain e s.verts.length (added true route) e.ins.sum L ∧
      s'.edges = (s.edges.filter fun f => f.key ≠ e.key) ++ L ∧
      s'.verts.length = s.verts.length + added true route ∧ Grown true s.verts s'.verts := by
  obtain ⟨L, h1, h2, h3, h4, -⟩ := (swPath_spec (inv_calls inv_empty h) he hr hm).2 hst
  rw [if_neg hroute] at h1
  exact ⟨L, h1, h2, h3, h4⟩

/-- **C118** The chain keeps the consistency of the graph and the repetitions of its tasks. -/
theorem C118_chain_consistent {ops : List Op} {s s' : State} (h : calls empty ops = some s) {e : Edg} (he : e ∈ s.edges)
    (hr : InRange e) {route : List Int} (hroute : route ≠ []) (hm : swPath s e.key route = some s') (q : Nat → Int) :
    Balanced s.edges q ↔ ∃ q', (∀ v, v < s.verts.length → q' v = q v) ∧ Balanced s'.edges q' := by
  have hi := inv_calls inv_empty h
  obtain ⟨-, -, -, h1, h2⟩ := swPath_balance hi he hr hroute hm
  refine ⟨h1 q, ?_⟩
  rintro ⟨q', a1, a2⟩ f hf
  have := h2 q' a2 f hf
  have hends := hi.ends f hf
  rwa [a1 _ hends.1, a1 _ hends.2] at this

/-- The hops have the rate 1, as those of a chain with at least two links. -/
def DF.UnitHop (e f : Edg) : Prop := e.outs.sum = 1 ∧ f.ins.sum = 1 ∧ f.outs.sum = 1

/-- **C118 (partial)** The sender keeps the consistency of the graph and the repetitions of its tasks, except the tasks of
the first hops, which are no longer connected: `q` solves the balance equations before iff some solution after agrees with
it on the other tasks. What is missing: only hops of rate 1 (`C118_rate_lost` shows that others lose their rate). -/
theorem C118_sender_consistent_partial {ops : List Op} {s s' : State} (h : calls empty ops = some s) {orig : List Int}
    {src : Nat} {next : Edg → Edg} (hr : ∀ e ∈ outputsOf s.edges src, InRange e ∧ 0 ≤ e.ins.sum)
    (hn : ∀ e ∈ outputsOf s.edges src, FirstHop s.edges e (next e) ∧ UnitHop e (next e))
    (h2 : 2 ≤ (outputsOf s.edges src).length) (hm : resolveSrc orig s src = some s') :
    (∀ q, Balanced s.edges q → ∃ q', (∀ v, v < s.verts.length → q' v = q v) ∧ Balanced s'.edges q') ∧
    (∀ q', Balanced s'.edges q' → ∃ q, (∀ v, (∀ e ∈ outputsOf s.edges src, v ≠ e.tgt) → q v = q' v) ∧
      Balanced s.edges q) := by
  have hi := inv_calls inv_empty h
  obtain ⟨g, n, big, news, os, -⟩ := C118_one_sender h hr (fun e he => (hn e he).1) h2 hm
  have hmemO : ∀ e, e ∈ outputsOf s.edges src ↔ e ∈ s.edges ∧ e.src = src := by
    intro e; rw [outputsOf, List.mem_filter]; simp
  have hkeep : ∀ e ∈ s.edges, e.src ≠ src → (∀ f ∈ outputsOf s.edges src, e ≠ next f) → e ∈ s'.edges := by
    intro e he h1 h2
    rw [os.edges, List.mem_append, List.mem_filter]
    refine Or.inl ⟨he, ?_⟩
    rw [decide_eq_true_eq]
    exact ⟨h1, fun f hf hfs hk => h2 f ((hmemO f).2 ⟨hf, hfs⟩)
      (key_inj hi he (hn f ((hmemO f).2 ⟨hf, hfs⟩)).1.mem' hk)⟩
  have hnews : ∀ z ∈ news, ∃ (i : Nat) (e : Edg), (outputsOf s.edges src)[i]? = some e ∧ news[i]? = some z := by
    intro z hz
    obtain ⟨i, hi'⟩ := List.getElem?_of_mem hz
    have hlt : i < (outputsOf s.edges src).length := by
      rw [← os.length]; exact (List.getElem?_eq_some_iff.1 hi').1
    exact ⟨i, _, List.getElem?_eq_getElem hlt, hi'⟩
  have hbig : big.ins.sum = n * g := by rw [os.produce, List.sum_singleton, os.rounds]
  have hbigo : big.outs.sum = n := by rw [os.consume, List.sum_replicate]; simp
  have hgpos : (0 : Int) < g := by exact_mod_cast os.positive.1
  have hnpos : (0 : Int) < n := by exact_mod_cast os.positive.2
  constructor
  · intro q hq
    refine ⟨fun v => if v = s.verts.length then q src * g else q v, fun v hv => if_neg hv.ne, ?_⟩
    have hsv : src < s.verts.length := by
      obtain ⟨e, he⟩ := List.exists_mem_of_length_pos (show 0 < (outputsOf s.edges src).length by omega)
      obtain ⟨he1, he2⟩ := (hmemO e).1 he
      rw [← he2]; exact (hi.ends e he1).1
    intro z hz
    rw [os.edges, List.mem_append, List.mem_cons] at hz
    rcases hz with hz | rfl | hz
    · have hz' := List.mem_of_mem_filter hz
      have hends := hi.ends z hz'
      simp only [if_neg hends.1.ne, if_neg hends.2.ne]
      exact hq z hz'
    · rw [os.ends.1, os.ends.2, hbig, hbigo]
      simp only [if_neg hsv.ne, if_true]
      ring
    · obtain ⟨i, e, he, hz'⟩ := hnews z hz
      obtain ⟨c1, c2, -, c4, c5, -⟩ := os.send i e z he hz'
      have heO := List.mem_of_getElem? he
      obtain ⟨f, u1, u2, u3⟩ := hn e heO
      have b1 := hq e f.mem
      have b2 := hq (next e) f.mem'
      rw [((hmemO e).1 heO).2, u1] at b1
      rw [f.meet, u2, u3] at b2
      have hends := hi.ends _ f.mem'
      rw [c1, c2, c5]
      simp only [if_true, if_neg hends.2.ne, List.sum_singleton]
      rw [← c4] at b1
      linarith
  · intro q' hq
    have hmid : q' s.verts.length = q' src * g := by
      have := hq big (by rw [os.edges]; simp)
      rw [os.ends.1, os.ends.2, hbig, hbigo] at this
      have h3 : q' s.verts.length * n = (q' src * g) * n := by linarith
      exact mul_right_cancel₀ hnpos.ne' h3
    have htgt : ∀ e ∈ outputsOf s.edges src, ∀ e' ∈ outputsOf s.edges src, (next e).tgt ≠ e'.tgt ∧ e.tgt ≠ src := by
      -- a first hop that leads back to the source would be its only output
      have hsrc : ∀ e ∈ outputsOf s.edges src, e.tgt ≠ src := by
        intro e he heq
        have f := (hn e he).1
        have all : ∀ x ∈ outputsOf s.edges src, x = next e := fun x hx =>
          f.output x ((hmemO x).1 hx).1 (((hmemO x).1 hx).2.trans heq.symm)
        have hnd : (outputsOf s.edges src).Nodup := (List.Nodup.of_map _ hi.keys).filter _
        generalize outputsOf s.edges src = O at h2 all hnd
        match O with
        | [] => simp at h2
        | [_] => simp at h2
        | a :: b :: l =>
          have e1 := all a (by simp)
          have e2 := all b (by simp)
          simp [e1, e2] at hnd
      intro e he e' he'
      refine ⟨fun heq => ?_, hsrc e he⟩
      have f := (hn e he).1
      have := (hn e' he').1.input (next e) f.mem' heq
      have h3 := ((hmemO e').1 he').2
      rw [← this, f.meet] at h3
      exact hsrc e he h3
    classical
    refine ⟨fun v => if hv : ∃ e ∈ outputsOf s.edges src, v = e.tgt then q' src * (Classical.choose hv).ins.sum else q' v,
      fun v hv => dif_neg (by rintro ⟨e, he, rfl⟩; exact hv e he rfl), ?_⟩
    have hval : ∀ e (he : e ∈ outputsOf s.edges src) (hv : ∃ e' ∈ outputsOf s.edges src, e.tgt = e'.tgt),
        Classical.choose hv = e := by
      intro e he hv
      obtain ⟨m, hm'⟩ := Classical.choose_spec hv
      exact ((hn _ he).1.input _ (hn _ m).1.mem hm'.symm)
    have hnot : ∀ v, (∀ e ∈ outputsOf s.edges src, v ≠ e.tgt) → ¬ ∃ e ∈ outputsOf s.edges src, v = e.tgt := by
      rintro v hv ⟨e, he, rfl⟩; exact hv e he rfl
    intro z hz
    by_cases hzs : z.src = src
    · have hzO := (hmemO z).2 ⟨hz, hzs⟩
      have hv : ∃ e' ∈ outputsOf s.edges src, z.tgt = e'.tgt := ⟨z, hzO, rfl⟩
      dsimp only
      rw [hzs, dif_neg (hnot src fun e he => (htgt e he e he).2.symm), dif_pos hv, hval z hzO hv, (hn z hzO).2.1]
      ring
    · by_cases hzn : ∃ f ∈ outputsOf s.edges src, z = next f
      · obtain ⟨e, he, rfl⟩ := hzn
        obtain ⟨f, u1, u2, u3⟩ := hn e he
        have hv : ∃ e' ∈ outputsOf s.edges src, e.tgt = e'.tgt := ⟨e, he, rfl⟩
        dsimp only
        rw [f.meet, dif_pos hv, hval e he hv, dif_neg (hnot _ fun e' he' => (htgt e he e' he').1), u2, u3]
        obtain ⟨i, hi'⟩ := List.getElem?_of_mem he
        have hlt : i < news.length := by
          rw [os.length]; exact (List.getElem?_eq_some_iff.1 hi').1
        obtain ⟨c1, c2, -, c4, c5, -⟩ := os.send i e news[i] hi' (List.getElem?_eq_getElem hlt)
        have := hq news[i] (by rw [os.edges]; simp)
        rw [c1, c2, c5, hmid, List.sum_singleton] at this
        rw [← c4]
        linarith
      · have hz' := hq z (hkeep z hz hzs fun f hf h => hzn ⟨f, hf, h⟩)
        dsimp only
        rw [dif_neg, dif_neg]
        · exact hz'
        · rintro ⟨e, he, heq⟩
          have := (hn e he).1.input z hz heq
          rw [this] at hzs
          exact hzs ((hmemO e).1 he).2
        · rintro ⟨e, he, heq⟩
          exact hzn ⟨e, he, (hn e he).1.output z hz heq⟩

/-! #### What a destination can receive -/

/-- The tokens a task with the production rates `l` in its phases has sent after `x` phases. -/
def DF.sentAfter (l : List Int) (x : Nat) : Int := ((List.range x).map fun k => l.getD (k % l.length) 0).sum

theorem DF.sentAfter_add (l : List Int) (x y : Nat) :
    sentAfter l (x * l.length + y) = sentAfter l (x * l.length) + sentAfter l y := by
  induction y with
  | zero => simp [sentAfter]
  | succ y ih =>
    have step : ∀ z, sentAfter l (z + 1) = sentAfter l z + l.getD (z % l.length) 0 := by
      intro z; simp [sentAfter, List.range_succ]
    rw [← Nat.add_assoc, step, step, ih]
    have : (x * l.length + y) % l.length = y % l.length := by
      rw [Nat.add_comm, Nat.add_mul_mod_self_right]
    rw [this]; ring

theorem DF.sentAfter_round (l : List Int) : sentAfter l l.length = l.sum := by
  unfold sentAfter
  congr 1
  apply List.ext_getElem
  · simp
  · intro i h1 h2
    simp [Nat.mod_eq_of_lt h2, List.getElem?_eq_getElem h2]

theorem DF.sentAfter_rounds (l : List Int) (x : Nat) : sentAfter l (x * l.length) = x * l.sum := by
  induction x with
  | zero => simp [sentAfter]
  | succ x ih =>
    rw [Nat.succ_mul, sentAfter_add, ih, sentAfter_round]
    push_cast; ring

theorem DF.sentAfter_mono {l : List Int} (h0 : ∀ x ∈ l, 0 ≤ x) {x y : Nat} (h : x ≤ y) : sentAfter l x ≤ sentAfter l y := by
  induction y, h using Nat.le_induction with
  | base => exact le_refl _
  | succ y _ ih =>
    refine ih.trans ?_
    have : sentAfter l (y + 1) = sentAfter l y + l.getD (y % l.length) 0 := by simp [sentAfter, List.range_succ]
    rw [this]
    have : 0 ≤ l.getD (y % l.length) 0 := by
      rw [List.getD_eq_getElem?_getD]
      cases hc : l[y % l.length]? with
      | none => simp
      | some a => exact h0 a (List.mem_of_getElem? hc)
    linarith

/-- **C118** The sender gives each destination what is meant for it: it can begin its phase `x` only when the source
has produced `x` tokens on `big` (which holds no initial token); so after `k` executions of the source no destination has
received more than the `k * e.ins.sum` tokens of its own output `e`, and when the sender has sent everything it has received
exactly these. -/
theorem C118_delivery {old : List Edg} {src mid : Nat} {next : Edg → Edg} {g n : Nat} {big : Edg} {news new : List Edg}
    (os : OneSender old src mid next g n big news new) {i : Nat} {e h : Edg}
    (he : (outputsOf old src)[i]? = some e) (hh : news[i]? = some h) (k x : Nat)
    (hx : (x : Int) ≤ k * big.ins.sum) :
    sentAfter h.ins x ≤ k * e.ins.sum ∧ ((x : Int) = k * big.ins.sum → sentAfter h.ins x = k * e.ins.sum) := by
  obtain ⟨-, -, c3, c4, -⟩ := os.send i e h he hh
  have hb : big.ins.sum = ((n * g : Nat) : Int) := by
    rw [os.produce, List.sum_singleton, ← os.rounds]; push_cast; ring
  rw [hb] at hx ⊢
  have hnonneg : ∀ y ∈ h.ins, 0 ≤ y := by
    intro y hy
    obtain ⟨j, hj⟩ := List.getElem?_of_mem hy
    have hlt : j < n := by rw [← c3]; exact (List.getElem?_eq_some_iff.1 hj).1
    obtain ⟨i', -, hp⟩ := os.phase j hlt
    have := hp i h hh
    rw [hj] at this
    have := Option.some.inj this
    split at this <;> omega
  have key : sentAfter h.ins (k * (n * g)) = k * e.ins.sum := by
    have := sentAfter_rounds h.ins (k * g)
    rw [c3] at this
    rw [show k * (n * g) = k * g * n by ring, this, ← c4]
    push_cast; ring
  have hxn : x ≤ k * (n * g) := by exact_mod_cast hx
  refine ⟨(sentAfter_mono hnonneg hxn).trans key.le, fun heq => ?_⟩
  have : x = k * (n * g) := by exact_mod_cast heq
  rw [this, key]

/-! #### Examples -/

namespace SenderExample

/-- Task a sends 4 tokens to b and 6 to c; both channels have initial tokens. -/
def ops : List Op := [.addVertexName "a", .addVertexName "b", .addVertexName "c", .setPhases 0 1, .setPhases 1 1,
  .setPhases 2 1, .addEdge 0 1, .setEdgeIn 0 [4], .setEdgeOut 0 [2], .setPreload 0 5,
  .addEdge 0 2, .setEdgeIn 1 [6], .setEdgeOut 1 [3], .setPreload 1 6]

/-- The same graph after the routes 10, 11 and 10, 12, 13 are modelled, made by calls of the interface. -/
def ops2 : List Op := [.addVertexName "a", .addVertexName "b", .addVertexName "c",
  .addVertexName "l1", .addVertexName "c1", .addVertexName "l2", .addVertexName "m1", .addVertexName "d1",
  .addEdge 0 3, .setEdgeIn 0 [4], .setEdgeOut 0 [1], .addEdge 3 4, .setEdgeIn 1 [1], .setEdgeOut 1 [1],
  .addEdge 4 5, .setEdgeIn 2 [1], .setEdgeOut 2 [1], .addEdge 5 1, .setEdgeIn 3 [1], .setEdgeOut 3 [2], .setPreload 3 5,
  .addEdge 0 6, .setEdgeIn 4 [6], .setEdgeOut 4 [1], .addEdge 6 7, .setEdgeIn 5 [1], .setEdgeOut 5 [1],
  .addEdge 7 2, .setEdgeIn 6 [1], .setEdgeOut 6 [3], .setPreload 6 6]

def view (s : State) : List (Nat × Nat × List Int × List Int) := s.edges.map fun (e : Edg) => (e.src, e.tgt, e.ins, e.outs)

end SenderExample

open SenderExample in
/-- The chain of a route of two links. -/
example : ((calls empty ops).bind fun s => (swPath s 0 [10, 11]).map view) =
    some [(0, 2, [6], [3]), (0, 3, [4], [1]), (3, 4, [1], [1]), (4, 5, [1], [1]), (5, 1, [1], [2])] := by decide +kernel

open SenderExample in
/-- The sender: five phases, two for b and three for c, twice in each execution of a. -/
example : ((calls empty ops2).bind fun s => (resolveSrc [1, 2, 3] s 0).map view) =
    some [(4, 5, [1], [1]), (5, 1, [1], [2]), (7, 2, [1], [3]), (0, 8, [10], [1, 1, 1, 1, 1]),
      (8, 4, [1, 1, 0, 0, 0], [1]), (8, 7, [0, 0, 1, 1, 1], [1])] := by decide +kernel

namespace SenderExample

def nextOf (e : Edg) : Edg := if e.key = 0 then ⟨1, 3, 4, 2, "", [1], [1], 1, 1, 0, [], []⟩
  else ⟨5, 6, 7, 6, "", [1], [1], 1, 1, 0, [], []⟩

def after : State := (calls empty ops2).getD empty

theorem after_eq : calls empty ops2 = some after := by
  unfold after
  cases h : calls empty ops2 with
  | some s => rfl
  | none => exact absurd h (by decide +kernel)

instance (es : List Edg) (e f : Edg) : Decidable (FirstHop es e f) :=
  decidable_of_iff (e ∈ es ∧ f ∈ es ∧ f.src = e.tgt ∧ (∀ x ∈ es, x.tgt = e.tgt → x = e) ∧
    (∀ x ∈ es, x.src = e.tgt → x = f) ∧ f.tgt ≠ e.tgt)
    ⟨fun ⟨a, b, c, d, e, f⟩ => ⟨a, b, c, d, e, f⟩, fun ⟨a, b, c, d, e, f⟩ => ⟨a, b, c, d, e, f⟩⟩

end SenderExample

open SenderExample in
/-- The hypotheses of `C118_one_sender` and `C118_sender_consistent_partial` hold of this graph. -/
example : ∃ s', calls empty ops2 = some after ∧
    (∀ e ∈ outputsOf after.edges 0, InRange e ∧ 0 ≤ e.ins.sum) ∧
    (∀ e ∈ outputsOf after.edges 0, FirstHop after.edges e (nextOf e) ∧ UnitHop e (nextOf e)) ∧
    2 ≤ (outputsOf after.edges 0).length ∧ resolveSrc [1, 2, 3] after 0 = some s' := by
  have h : (resolveSrc [1, 2, 3] after 0).isSome = true := by decide +kernel
  obtain ⟨s', hs'⟩ := Option.isSome_iff_exists.1 h
  refine ⟨s', after_eq, ?_, ?_, by decide +kernel, hs'⟩
  · unfold InRange; decide +kernel
  · unfold UnitHop; decide +kernel

/-! #### What fails -/

/-- **C118** Two channels between the same two tasks cannot both be routed over a first link: the tasks made for the link
would have the same name, and the program ends with an error. -/
theorem C118_parallel : ∃ (ops : List Op) (s s1 : State), calls empty ops = some s ∧ s.edges.length = 2 ∧
    swPath s 0 [10, 11] = some s1 ∧ swPath s1 1 [10, 12] = none := by
  have h : ((calls empty [.addVertexName "a", .addVertexName "b", .addEdge 0 1, .setEdgeIn 0 [1], .setEdgeOut 0 [1],
      .addEdge 0 1, .setEdgeIn 1 [2], .setEdgeOut 1 [2]]).bind fun s =>
      if s.edges.length = 2 then (swPath s 0 [10, 11]).bind fun s1 => if (swPath s1 1 [10, 12]).isNone then some () else none
      else none) = some () := by
    decide +kernel
  obtain ⟨s, h1, h2⟩ := Option.bind_eq_some_iff.1 h
  split at h2
  · rename_i hl
    obtain ⟨s1, h3, h4⟩ := Option.bind_eq_some_iff.1 h2
    split at h4
    · rename_i hn
      exact ⟨_, s, s1, h1, hl, h3, by simpa using hn⟩
    · cases h4
  · cases h2

/-- **C118** A task with a channel to itself, which no route replaces, can be given no sender: the program ends, reporting
success (`exit(0)`). -/
theorem C118_self_loop {s : State} {orig : List Int} {src : Nat} {x : Vtx} (hx : s.verts[src]? = some x)
    (ho : x.id ∈ orig) {e : Edg} (he : e ∈ s.edges) (h1 : e.src = src) (h2 : e.tgt = src) :
    resolveSrc orig s src = none := by
  have : srcEdges orig s src = none := by
    unfold srcEdges
    rw [if_pos]
    rw [List.any_eq_true]
    refine ⟨e, ?_, ?_⟩
    · rw [outEdges, List.mem_filter]
      exact ⟨he, by simpa using h1⟩
    · unfold isOriginal
      rw [h2, hx]
      simpa using ho
  unfold resolveSrc
  rw [this]
  rfl

/-- `addPathNode` keeps such a channel, so the case is reached. -/
example : ∃ s s' : State, calls empty [.addVertexName "a", .addEdge 0 0, .setEdgeIn 0 [1], .setEdgeOut 0 [1],
    .setPreload 0 1] = some s ∧ swPath s 0 [10] = some s' ∧ resolveSrc [1] s' 0 = none := by
  have h : ((calls empty [.addVertexName "a", .addEdge 0 0, .setEdgeIn 0 [1], .setEdgeOut 0 [1], .setPreload 0 1]).bind
      fun s => (swPath s 0 [10]).bind fun s' => if (resolveSrc [1] s' 0).isNone then some () else none) = some () := by
    decide +kernel
  obtain ⟨s, h1, h2⟩ := Option.bind_eq_some_iff.1 h
  obtain ⟨s', h3, h4⟩ := Option.bind_eq_some_iff.1 h2
  split at h4
  · rename_i hn
    exact ⟨s, s', h1, h3, by simpa using hn⟩
  · cases h4

/-- **C118** A route of one link loses the consumption rate: task b, which took 2 tokens in an execution, takes 1 after the
sender is added, so the repetitions change. -/
theorem C118_rate_lost : ∃ (ops : List Op) (s s1 s2 s3 : State), calls empty ops = some s ∧ swPath s 0 [10] = some s1 ∧
    swPath s1 1 [11, 12] = some s2 ∧ resolveSrc [1, 2, 3] s2 0 = some s3 ∧
    (s.edges.map fun e => (e.tgt, e.outs)) = [(1, [2]), (2, [1])] ∧
    ((s3.edges.filter fun e => e.tgt = 1).map fun e => e.outs) = [[1]] := by
  have h : ((calls empty [.addVertexName "a", .addVertexName "b", .addVertexName "c", .addEdge 0 1, .setEdgeIn 0 [2],
      .setEdgeOut 0 [2], .addEdge 0 2, .setEdgeIn 1 [1], .setEdgeOut 1 [1]]).bind fun s =>
      (swPath s 0 [10]).bind fun s1 => (swPath s1 1 [11, 12]).bind fun s2 => (resolveSrc [1, 2, 3] s2 0).bind fun s3 =>
      if (s.edges.map fun (e : Edg) => (e.tgt, e.outs)) = [(1, [2]), (2, [1])] ∧
        ((s3.edges.filter fun (e : Edg) => e.tgt = 1).map fun (e : Edg) => e.outs) = [[1]] then some () else none)
      = some () := by
    decide +kernel
  obtain ⟨s, h1, h2⟩ := Option.bind_eq_some_iff.1 h
  obtain ⟨s1, h3, h4⟩ := Option.bind_eq_some_iff.1 h2
  obtain ⟨s2, h5, h6⟩ := Option.bind_eq_some_iff.1 h4
  obtain ⟨s3, h7, h8⟩ := Option.bind_eq_some_iff.1 h6
  split at h8
  · rename_i hc
    exact ⟨_, s, s1, s2, s3, h1, h3, h5, h7, hc.1, hc.2⟩
  · cases h8

end Kiter
