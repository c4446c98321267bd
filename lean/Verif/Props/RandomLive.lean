/-
C64: the loop of the random generator that adds initial tokens ends, and leaves a graph with a valid infinite schedule.
-/
import Verif.Model.RandomLive
import Verif.Lemmas.RandomLive
import Verif.Props.RandomGenerator

set_option autoImplicit false

namespace Kiter

open DF Gen

/-! ### The repetition vector does not depend on the initial tokens -/

theorem Rep.compute_cast {V V' E E' : ℕ} (hV : V = V') (hE : E = E') (g : Rep.Graph V E) (g' : Rep.Graph V' E')
    (h1 : ∀ i, (g.src i : ℕ) = g'.src (i.cast hE)) (h2 : ∀ i, (g.tgt i : ℕ) = g'.tgt (i.cast hE))
    (h3 : ∀ i, g.prod i = g'.prod (i.cast hE)) (h4 : ∀ i, g.cons i = g'.cons (i.cast hE))
    (h5 : ∀ v, g.phases v = g'.phases (v.cast hV)) {N : Fin V → Int} {N' : Fin V' → Int}
    (hN : Rep.compute g = some (some N)) (hN' : Rep.compute g' = some (some N')) : ∀ v, N v = N' (v.cast hV) := by
  subst hV hE
  have : g = g' := by
    obtain ⟨a, b, c, d, e⟩ := g
    obtain ⟨a', b', c', d', e'⟩ := g'
    simp only [Rep.Graph.mk.injEq]
    exact ⟨funext fun i => Fin.ext (h1 i), funext fun i => Fin.ext (h2 i), funext h3, funext h4, funext h5⟩
  subst this
  rw [hN] at hN'
  intro v
  have := Option.some.inj (Option.some.inj hN')
  rw [this]; rfl

theorem Gen.computeRV_eq {s t : State} (h : Sound s) (hr : s.repDone = false) (ht : computeRV s = some (true, t)) :
    ∃ g : Rep.Graph (s.verts.map fun v : Vtx => v.phases).length s.edges.length, Rep.OK g ∧
      (∀ i, (g.src i : Nat) = s.edges[i].src ∧ (g.tgt i : Nat) = s.edges[i].tgt ∧ g.prod i = s.edges[i].ins ∧
        g.cons i = s.edges[i].outs) ∧
      (∀ v, g.phases v = ((s.verts.map fun v : Vtx => v.phases)[v]).toNat) ∧
      ∃ N, Rep.compute g = some (some N) ∧ t = { s with readonly := true, repDone := true, verts := putNi s.verts N } := by
  obtain ⟨g, h1, h2, h3, h4, N, hN⟩ := sound_rep h
  refine ⟨g, h2, h3, h4, N, hN, ?_⟩
  unfold computeRV at ht
  rw [if_neg (by simp [hr]), h1] at ht
  simp only [Option.bind_eq_bind, Option.bind_some] at ht
  rw [hN] at ht
  simp only [Option.bind_some, Option.some.injEq, Prod.mk.injEq, true_and] at ht
  exact ht.symm

theorem Gen.marked_edge {s t : State} (hm : Marked s t) (i : ℕ) (h1 : i < s.edges.length) (h2 : i < t.edges.length) :
    ∃ (g : Int) (n : ℕ), computeFineGCD s.edges[i] = some g ∧ t.edges[i] = { s.edges[i] with preload := s.edges[i].preload + n * g } := by
  obtain ⟨g, n, a, b⟩ := hm.tokens i _ (List.getElem?_eq_getElem h1)
  rw [List.getElem?_eq_getElem h2] at b
  exact ⟨g, n, a, Option.some.inj b⟩

theorem Gen.marked_vert {s t : State} (hm : Marked s t) (i : ℕ) (h1 : i < s.verts.length) (h2 : i < t.verts.length) :
    t.verts[i] = { s.verts[i] with ni := t.verts[i].ni } := by
  have h := congrArg (fun l => l[i]?) hm.tasks
  simp only [List.getElem?_map, List.getElem?_eq_getElem h1, List.getElem?_eq_getElem h2, Option.map_some, Option.some.injEq] at h
  cases hx : t.verts[i]
  rw [hx] at h
  cases hy : s.verts[i]
  rw [hy] at h
  simp only [Vtx.mk.injEq] at h ⊢
  tauto

/-- The repetition counts are the same at every turn of the loop. -/
theorem Gen.same_counts {s0 s t : State} (h0 : Sound s0) (hm : Marked s0 s) (hr0 : s0.repDone = false) (hr : s.repDone = false)
    {t0 : State} (ht0 : computeRV s0 = some (true, t0)) (ht : computeRV s = some (true, t)) : t.verts = t0.verts := by
  obtain ⟨g0, -, a1, a2, N0, a3, rfl⟩ := computeRV_eq h0 hr0 ht0
  obtain ⟨g, -, b1, b2, N, b3, rfl⟩ := computeRV_eq (sound_marked h0 hm) hr ht
  have hl : s.verts.length = s0.verts.length := (map_ni hm.tasks).1
  have hV : (s.verts.map fun v : Vtx => v.phases).length = (s0.verts.map fun v : Vtx => v.phases).length := by simp [hl]
  have hE := hm.channels
  have hedge : ∀ i : Fin s.edges.length, ∃ p, s.edges[i] = { s0.edges[i.cast hE] with preload := p } := by
    intro i
    obtain ⟨g, n, -, h⟩ := marked_edge hm i (i.cast hE).2 i.2
    exact ⟨_, h⟩
  have hN := Rep.compute_cast hV hE g g0 (fun i => ?_) (fun i => ?_) (fun i => ?_) (fun i => ?_) (fun v => ?_) b3 a3
  · apply List.ext_getElem
    · simp [putNi, hl]
    · intro i h1 h2
      have i1 : i < s.verts.length := by simpa [putNi] using h1
      have i2 : i < s0.verts.length := by simpa [putNi] using h2
      have hv := marked_vert hm i i2 i1
      have hn := hN ⟨i, by simpa using i1⟩
      simp only [putNi, List.getElem_ofFn, List.get_eq_getElem, Fin.cast_mk] at hn ⊢
      rw [hv, hn]
  · obtain ⟨p, hp⟩ := hedge i
    rw [(b1 i).1, (a1 _).1, hp]
  · obtain ⟨p, hp⟩ := hedge i
    rw [(b1 i).2.1, (a1 _).2.1, hp]
  · obtain ⟨p, hp⟩ := hedge i
    rw [(b1 i).2.2.1, (a1 _).2.2.1, hp]
  · obtain ⟨p, hp⟩ := hedge i
    rw [(b1 i).2.2.2, (a1 _).2.2.2, hp]
  · rw [b2, a2]
    have i1 : (v : ℕ) < s.verts.length := by simpa using v.2
    have hv := marked_vert hm v (by omega) i1
    simp only [Fin.getElem_fin, List.getElem_map, Fin.val_cast]
    rw [hv]

/-! ### The graph that is analysed -/

/-- A graph without initial phases and with positive durations, whose tasks are numbered from 1 and have a channel if they
have several phases. -/
structure Gen.Plain (s : State) : Prop where
  ids : ∀ (i : ℕ) (x : Vtx), s.verts[i]? = some x → x.id = i + 1
  durs : ∀ x ∈ s.verts, (x.durs.length : Int) = x.phases ∧ (∀ d ∈ x.durs, 0 < d) ∧ x.idurs = []
  noInit : ∀ e ∈ s.edges, e.iins = [] ∧ e.iouts = []
  tokens : ∀ e ∈ s.edges, 0 ≤ e.preload
  attached : ∀ (i : ℕ) (x : Vtx), s.verts[i]? = some x → x.phases = 1 ∨ ∃ e ∈ s.edges, e.src = i ∨ e.tgt = i

theorem mapM_exists {α β : Type} (f : α → Option β) (l : List α) (h : ∀ x ∈ l, ∃ y, f x = some y) :
    ∃ r, l.mapM f = some r ∧ r.length = l.length ∧ (∀ (i : ℕ) (x : α), l[i]? = some x → ∃ y, r[i]? = some y ∧ f x = some y) ∧
      ∀ y ∈ r, ∃ x ∈ l, f x = some y := by
  induction l with
  | nil => exact ⟨[], rfl, rfl, by simp, by simp⟩
  | cons a l ih =>
    obtain ⟨r, h1, h2, h3, h4⟩ := ih fun x hx => h x (by simp [hx])
    obtain ⟨y, hy⟩ := h a (by simp)
    refine ⟨y :: r, by rw [List.mapM_cons, hy, h1]; rfl, by simp [h2], ?_, ?_⟩
    · intro i x hi
      cases i with
      | zero => simp only [List.getElem?_cons_zero, Option.some.injEq] at hi ⊢; subst hi; exact ⟨y, rfl, hy⟩
      | succ i => simpa using h3 i x (by simpa using hi)
    · intro z hz
      rcases List.mem_cons.mp hz with rfl | hz
      · exact ⟨a, by simp, hy⟩
      · obtain ⟨x, hx, hf⟩ := h4 z hz
        exact ⟨x, by simp [hx], hf⟩

/-- The graph that is analysed is one that the theorems on the periodic analyses cover. -/
theorem Gen.base_ok {s0 t : State} (h0 : Sound s0) (hp : Plain s0) (ha : Analysed s0 t) :
    ∃ B, baseOf t = some B ∧ BaseOK B ∧ B.tasks = t.verts.map taskOf ∧ (∀ x ∈ B.tasks, ∀ d ∈ x.durations, 0 < d) ∧
      (∀ c ∈ B.channels, c.1.id ≠ 0) ∧
      ∀ c ∈ B.channels, ∃ e ∈ t.edges, e.id = c.1.id ∧ e.preload = c.1.preload ∧ e.ins = c.1.inPhases ∧
        ∃ x, t.verts[e.src]? = some x ∧ c.2.1 = taskOf x := by
  obtain ⟨s, hm, hr, hc⟩ := ha.computed
  have hs := sound_marked h0 hm
  have hmt := ha.marked
  have hst := sound_marked h0 hmt
  obtain ⟨g, g1, g2, g3, N, g4, ht⟩ := computeRV_eq hs hr hc
  obtain ⟨n1, n2, n3⟩ := C12_balance_partial g1 g4
  have hte : t.edges = s.edges := by rw [ht]
  -- tasks
  have htv : ∀ (i : ℕ) (x : Vtx), t.verts[i]? = some x → ∃ y, s0.verts[i]? = some y ∧ x = { y with ni := x.ni } := by
    intro i x hx
    have hl : t.verts.length = s0.verts.length := (map_ni hmt.tasks).1
    obtain ⟨hi, rfl⟩ := List.getElem?_eq_some_iff.mp hx
    exact ⟨_, List.getElem?_eq_getElem (by omega), marked_vert hmt i (by omega) hi⟩
  have htn : ∀ (i : ℕ) (x : Vtx), t.verts[i]? = some x → ∃ hi : i < (s.verts.map fun v : Vtx => v.phases).length,
      x.ni = N ⟨i, hi⟩ ∧ (g.phases ⟨i, hi⟩ : Int) = x.phases := by
    intro i x hx
    rw [ht] at hx
    simp only [putNi, List.getElem?_ofFn] at hx
    split at hx
    · rename_i hi
      refine ⟨by simpa using hi, ?_⟩
      simp only [Option.some.injEq] at hx
      subst hx
      refine ⟨rfl, ?_⟩
      rw [g3]
      have := hs.phases s.verts[i] (List.getElem_mem _)
      simp only [Fin.getElem_fin, List.getElem_map, List.get_eq_getElem]
      omega
    · cases hx
  have hbasic : ∀ (i : ℕ) (x : Vtx), t.verts[i]? = some x → x.id = i + 1 ∧ (x.durs.length : Int) = x.phases ∧ (∀ d ∈ x.durs, 0 < d) ∧
      x.idurs = [] ∧ 0 < x.phases := by
    intro i x hx
    obtain ⟨y, hy, hxy⟩ := htv i x hx
    have h1 := hp.ids i y hy
    obtain ⟨h2, h3, h4⟩ := hp.durs y (List.mem_of_getElem? hy)
    have h5 := hst.phases x (List.mem_of_getElem? hx)
    rw [hxy] at h5 ⊢
    exact ⟨h1, h2, h3, h4, h5⟩
  have hni : ∀ (i : ℕ) (x : Vtx), t.verts[i]? = some x → 0 < x.ni ∧ x.phases ∣ x.ni := by
    intro i x hx
    obtain ⟨hi, h1, h2⟩ := htn i x hx
    refine ⟨by rw [h1]; exact n1 _, ?_⟩
    rw [h1, ← h2]
    apply n3
    obtain ⟨y, hy, hxy⟩ := htv i x hx
    rcases hp.attached i y hy with h | ⟨e, he, h⟩
    · left
      have : x.phases = 1 := by rw [hxy]; exact h
      omega
    · right
      obtain ⟨k, hk, rfl⟩ := List.mem_iff_getElem.mp he
      have hk' : k < s.edges.length := by rw [hm.channels]; exact hk
      obtain ⟨gr, n, hgr, hee⟩ := marked_edge hm k hk hk'
      refine ⟨⟨k, hk'⟩, ?_⟩
      rcases h with h | h
      · left
        apply Fin.ext
        rw [(g2 ⟨k, hk'⟩).1]
        show s.edges[k].src = i
        rw [hee]; exact h
      · right
        apply Fin.ext
        rw [(g2 ⟨k, hk'⟩).2.1]
        show s.edges[k].tgt = i
        rw [hee]; exact h
  have htask : ∀ (i : ℕ) (x : Vtx), t.verts[i]? = some x → Kiter.TaskOK (taskOf x) 1 ∧ ((taskOf x).durations.length : Int) ∣ (taskOf x).ni := by
    intro i x hx
    obtain ⟨h1, h2, h3, h4, h5⟩ := hbasic i x hx
    obtain ⟨h6, h7⟩ := hni i x hx
    refine ⟨⟨?_, h4, fun d hd => (h3 d hd).le, by simp [taskOf], h6, Nat.one_pos⟩, ?_⟩
    · show 0 < x.durs.length
      omega
    · show (x.durs.length : Int) ∣ x.ni
      rw [h2]; exact h7
  -- channels
  have hch : ∀ (k : ℕ) (e : Edg), t.edges[k]? = some e → ∃ c, channelOf t.verts e = some c ∧ c.1.id = k + 1 ∧ c.1.preload = e.preload ∧
      c.1.inPhases = e.ins ∧ (∃ x, t.verts[e.src]? = some x ∧ c.2.1 = taskOf x) ∧ (∃ x, t.verts[e.tgt]? = some x ∧ c.2.2 = taskOf x) ∧
      Kiter.ChannelOK c.1 c.2.1 c.2.2 := by
    intro k e he
    have hem := List.mem_of_getElem? he
    obtain ⟨a, ha1, ha2⟩ := hst.src e hem
    obtain ⟨b, hb1, hb2⟩ := hst.tgt e hem
    obtain ⟨gr, hg1, hg2⟩ := fineGCD_pos (hst.nonneg e hem) (hst.pos e hem).1
    have hkt := (List.getElem?_eq_some_iff.mp he).1
    have hks : k < s.edges.length := by rw [← hte]; exact hkt
    obtain ⟨gr', n, hf, hee⟩ := marked_edge hmt k (by rw [← hmt.channels]; exact hkt) hkt
    have he' : e = t.edges[k] := (List.getElem?_eq_some_iff.mp he).2.symm
    have he0 : s0.edges[k]'(by rw [← hmt.channels]; exact hkt) ∈ s0.edges := List.getElem_mem _
    obtain ⟨i1, i2⟩ := hp.noInit _ he0
    have hpre : 0 ≤ e.preload := by
      rw [he', hee]
      have h1 := hp.tokens _ he0
      obtain ⟨g'', hg'', hpos⟩ := fineGCD_pos (h0.nonneg _ he0) (h0.pos _ he0).1
      rw [hf] at hg''
      have := Option.some.inj hg''
      subst this
      show 0 ≤ _ + _
      positivity
    have hdv := (C11_computed hg1).1
    refine ⟨(⟨e.id, e.ins, e.outs, e.iins, e.iouts, e.preload, gr⟩, taskOf a, taskOf b), ?_, ha.numbered.id k e he, rfl, rfl,
      ⟨a, ha1, rfl⟩, ⟨b, hb1, rfl⟩, ?_⟩
    · unfold channelOf
      rw [ha1, Option.bind_some, hb1, Option.bind_some, hg1]; rfl
    · refine ⟨?_, ?_, ?_, ?_, fun r hr => hst.nonneg e hem r (Or.inl hr), fun r hr => hst.nonneg e hem r (Or.inr hr),
        (hst.pos e hem).1, (hst.pos e hem).2, hg2, fun r hr => hdv r (List.mem_append_left _ hr),
        fun r hr => hdv r (List.mem_append_right _ hr), hpre, ?_⟩
      · show e.iins = []
        rw [he', hee]; exact i1
      · show e.iouts = []
        rw [he', hee]; exact i2
      · show a.durs.length = e.ins.length
        have := (hbasic _ a ha1).2.1
        omega
      · show b.durs.length = e.outs.length
        have := (hbasic _ b hb1).2.1
        omega
      · show e.ins.sum * a.ni * (b.durs.length : Int) = e.outs.sum * b.ni * (a.durs.length : Int)
        obtain ⟨hi, ai1, ai2⟩ := htn _ a ha1
        obtain ⟨hj, bi1, bi2⟩ := htn _ b hb1
        have hbal := n2 ⟨k, hks⟩
        obtain ⟨q1, q2, q3, q4⟩ := g2 ⟨k, hks⟩
        have hse : s.edges[k] = e := by
          have : s.edges[k]? = some e := by rw [← hte]; exact he
          exact (List.getElem?_eq_some_iff.mp this).2
        have q1' : g.src ⟨k, hks⟩ = ⟨e.src, hi⟩ := Fin.ext (by rw [q1]; show s.edges[k].src = _; rw [hse])
        have q2' : g.tgt ⟨k, hks⟩ = ⟨e.tgt, hj⟩ := Fin.ext (by rw [q2]; show s.edges[k].tgt = _; rw [hse])
        have q3' : g.prod ⟨k, hks⟩ = e.ins := by rw [q3]; show s.edges[k].ins = _; rw [hse]
        have q4' : g.cons ⟨k, hks⟩ = e.outs := by rw [q4]; show s.edges[k].outs = _; rw [hse]
        rw [q1', q2', q3', q4', ai2, bi2, ← ai1, ← bi1] at hbal
        rw [(hbasic _ a ha1).2.1, (hbasic _ b hb1).2.1]
        exact hbal
  obtain ⟨cs, hcs, hlen, hget, hback⟩ := mapM_exists (channelOf t.verts) t.edges fun e he => by
    obtain ⟨k, hk⟩ := List.mem_iff_getElem?.mp he
    obtain ⟨c, hc, -⟩ := hch k e hk
    exact ⟨c, hc⟩
  have hcget : ∀ (k : ℕ) c, cs[k]? = some c → ∃ e, t.edges[k]? = some e ∧ channelOf t.verts e = some c := by
    intro k c hk
    have hlt := (List.getElem?_eq_some_iff.mp hk).1
    have he : t.edges[k]? = some (t.edges[k]'(by omega)) := List.getElem?_eq_getElem _
    obtain ⟨c', h1, h2⟩ := hget k _ he
    rw [hk] at h1
    obtain rfl := Option.some.inj h1
    exact ⟨_, he, h2⟩
  have hcid : ∀ (k : ℕ) c, cs[k]? = some c → c.1.id = k + 1 := by
    intro k c hk
    obtain ⟨e, he, hce⟩ := hcget k c hk
    obtain ⟨c', h1, h2, -⟩ := hch k e he
    rw [hce] at h1
    obtain rfl := Option.some.inj h1
    exact h2
  refine ⟨⟨t.verts.map taskOf, cs⟩, by unfold baseOf; rw [hcs]; rfl, ⟨?_, ?_, ?_, ?_, ?_⟩, rfl, ?_, ?_, ?_⟩
  · intro x hx y hy hxy
    obtain ⟨v, hv, rfl⟩ := List.mem_map.mp hx
    obtain ⟨w, hw, rfl⟩ := List.mem_map.mp hy
    obtain ⟨i, hi⟩ := List.mem_iff_getElem?.mp hv
    obtain ⟨j, hj⟩ := List.mem_iff_getElem?.mp hw
    have h1 := (hbasic i v hi).1
    have h2 := (hbasic j w hj).1
    have hxy : v.id = w.id := hxy
    have : i = j := by omega
    subst this
    rw [hi] at hj
    rw [Option.some.inj hj]
  · intro x hx
    obtain ⟨v, hv, rfl⟩ := List.mem_map.mp hx
    obtain ⟨i, hi⟩ := List.mem_iff_getElem?.mp hv
    exact (htask i v hi).1
  · intro x hx
    obtain ⟨v, hv, rfl⟩ := List.mem_map.mp hx
    obtain ⟨i, hi⟩ := List.mem_iff_getElem?.mp hv
    exact (htask i v hi).2
  · intro c hc
    obtain ⟨k, hk⟩ := List.mem_iff_getElem?.mp hc
    obtain ⟨e, he, hce⟩ := hcget k c hk
    obtain ⟨c', h1, -, -, -, ⟨x, hx, h3⟩, ⟨y, hy, h4⟩, h5⟩ := hch k e he
    rw [hce] at h1
    obtain rfl := Option.some.inj h1
    exact ⟨by rw [h3]; exact List.mem_map_of_mem (List.mem_of_getElem? hx),
      by rw [h4]; exact List.mem_map_of_mem (List.mem_of_getElem? hy), h5⟩
  · intro c hc d hd hcd
    obtain ⟨k, hk⟩ := List.mem_iff_getElem?.mp hc
    obtain ⟨l, hl⟩ := List.mem_iff_getElem?.mp hd
    have h1 := hcid k c hk
    have h2 := hcid l d hl
    have : k = l := by omega
    subst this
    rw [hk] at hl
    exact Option.some.inj hl
  · intro x hx d hd
    obtain ⟨v, hv, rfl⟩ := List.mem_map.mp hx
    obtain ⟨i, hi⟩ := List.mem_iff_getElem?.mp hv
    exact (hbasic i v hi).2.2.1 d hd
  · intro c hc
    obtain ⟨k, hk⟩ := List.mem_iff_getElem?.mp hc
    have := hcid k c hk
    omega
  · intro c hc
    obtain ⟨k, hk⟩ := List.mem_iff_getElem?.mp hc
    obtain ⟨e, he, hce⟩ := hcget k c hk
    obtain ⟨c', h1, h2, h3, h4, h5, -⟩ := hch k e he
    rw [hce] at h1
    obtain rfl := Option.some.inj h1
    exact ⟨e, List.mem_of_getElem? he, by rw [h2]; exact ha.numbered.id k e he, h3.symm, h4.symm, h5⟩

/-! ### The loop -/

/-- The solver answers, and correctly, on the event graphs of the graphs that the theorems cover. -/
def Gen.SolverFor (solve : List EvConstraint → Option (ℚ × List EvConstraint)) : Prop :=
  ∀ B : BaseGraph, BaseOK B → B.tasks ≠ [] → (∀ t ∈ B.tasks, ∀ d ∈ t.durations, 0 < d) →
    ∀ K cs, ((∀ i, 0 < K i) ∧ ∀ t ∈ B.tasks, K t.id ∣ reps t) →
      (∃ cs0, eventGraph (B.withK K) = some cs0 ∧ ∀ c, c ∈ cs ↔ c ∈ cs0) →
      ∃ th p, solve cs = some (th, p) ∧ CycleAnswer cs th p

/-- `*s.begin()` of a set that is not empty is one of its elements. -/
def Gen.Picks (first : List BChannel → Option BChannel) : Prop := ∀ l, l ≠ [] → ∃ c ∈ l, first l = some c

theorem list_bound {α : Type} (f : α → Int) (l : List α) : ∃ b, ∀ x ∈ l, f x < b := by
  induction l with
  | nil => exact ⟨0, by simp⟩
  | cons a l ih =>
    obtain ⟨b, hb⟩ := ih
    refine ⟨max b (f a + 1), fun x hx => ?_⟩
    rcases List.mem_cons.mp hx with rfl | hx
    · exact lt_of_lt_of_le (by omega) (le_max_right _ _)
    · exact (hb x hx).trans_le (le_max_left _ _)

theorem Gen.live {s0 : State} (h0 : Sound s0) (hp : Plain s0) (hn : Numbered s0) (hr0 : s0.repDone = false)
    {solve : List EvConstraint → Option (ℚ × List EvConstraint)} (hsolve : SolverFor solve)
    {first : List BChannel → Option BChannel} (hfirst : Picks first) :
    ∃ n, ∀ kfuel, n < kfuel → ∃ m, ∀ fuel, m < fuel →
      ∃ t B, marking (kCritical solve kfuel first) fuel s0 = some t ∧ Marked s0 t ∧ baseOf t = some B ∧ BaseOK B ∧
        ∃ Ω, 0 < Ω ∧ IsLeast (SustainablePeriods B) Ω := by
  obtain ⟨t0, ht0, -⟩ := computeRV_turn h0 (marked_refl h0) hn
  have hverts : ∀ t, Analysed s0 t → t.verts = t0.verts := by
    intro t ha
    obtain ⟨s, hm, hr, hc⟩ := ha.computed
    exact same_counts h0 hm hr0 hr ht0 hc
  -- numbers that are the same at every turn
  set L : ℕ := (allEvents ⟨t0.verts.map taskOf, []⟩).length with hL
  obtain ⟨Bd, hBd⟩ := list_bound (fun e : Edg => (L : Int) * (e.ins.sum * ((t0.verts[e.src]?).map Vtx.ni).getD 0)) s0.edges
  refine ⟨primeBound ⟨t0.verts.map taskOf, []⟩, fun kfuel hk => ?_⟩
  have hne : t0.verts ≠ [] := by
    intro h
    obtain ⟨t, N, hh, hc⟩ := computeRV_sound h0
    rw [ht0] at hh
    have ht : t0 = t := by
      have := Option.some.inj hh
      simp only [Prod.mk.injEq, true_and] at this
      exact this
    subst ht
    have hpos := h0.nonempty
    rcases hc with hc | hc
    · rw [hc] at h; rw [h] at hpos; simp at hpos
    · rw [hc] at h
      have := congrArg List.length h
      simp [putNi] at this
      rw [this] at hpos; simp at hpos
  have hkey : ∀ t, Analysed s0 t → ∃ B, baseOf t = some B ∧ BaseOK B ∧ ∃ k cc, ksched solve B kfuel = some (some (k, cc)) ∧
      (0 < k.throughput → ∃ Ω, 0 < Ω ∧ IsLeast (SustainablePeriods B) Ω) ∧
      (k.throughput ≤ 0 → ∃ c e, first cc = some c ∧ (t.edges.find? fun e => decide (e.id = c.1.id)) = some e ∧
        edge t e.key = some e ∧ e.preload < Bd) := by
    intro t ha
    obtain ⟨B, hB, hok, htasks, hpos, hid, hch⟩ := base_ok h0 hp ha
    have hv := hverts t ha
    have htk : B.tasks = t0.verts.map taskOf := by rw [htasks, hv]
    have hsolver := hsolve B hok (by rw [htk]; simpa using hne) hpos
    have hpb : primeBound B < kfuel := by
      have : primeBound B = primeBound ⟨t0.verts.map taskOf, []⟩ := by unfold primeBound; rw [htk]
      omega
    obtain ⟨k, cc, hks⟩ := ksched_total hok solve (fun K cs hK hcs => by
      obtain ⟨th, p, h, -⟩ := hsolver K cs hK hcs
      exact ⟨_, h⟩) hpb
    have hcorrect : ∀ K cs th p, KOk B K → GraphFor B K cs → solve cs = some (th, p) → CycleAnswer cs th p := by
      intro K cs th p hK hcs h
      obtain ⟨th', p', h1, h2⟩ := hsolver K cs hK hcs
      rw [h] at h1
      have := Option.some.inj h1
      simp only [Prod.mk.injEq] at this
      obtain ⟨rfl, rfl⟩ := this
      exact h2
    refine ⟨B, hB, hok, k, cc, hks, ?_, ?_⟩
    · intro hth
      have hki : kiter solve B kfuel = some (some k) := by
        rw [← ksched_eq, hks]; rfl
      exact ⟨_, by positivity, ((C52_kiter_verdict hok solve hcorrect kfuel k hki).1 hth).1⟩
    · intro hth
      obtain ⟨K, cs, p, hK, hcs, hp, rfl⟩ := ksched_critical hok solve hcorrect hks
      obtain ⟨c, hc, hfc⟩ := hfirst _ (critical_nonempty hok hK hcs hp hth)
      have hbound := critical_bound hok hid hK hcs hp hth hc
      obtain ⟨e, he, e1, e2, e3, x, hx, e4⟩ := hch c (criticalEdges_sub B p c hc)
      have huniq : ∀ f ∈ t.edges, f.id = e.id → f = e := by
        intro f hf hfe
        obtain ⟨i, hi⟩ := List.mem_iff_getElem?.mp hf
        obtain ⟨j, hj⟩ := List.mem_iff_getElem?.mp he
        have h1 := ha.numbered.id i f hi
        have h2 := ha.numbered.id j e hj
        have : i = j := by omega
        subst this
        rw [hi] at hj
        exact Option.some.inj hj
      obtain ⟨f, hf⟩ : ∃ f, (t.edges.find? fun e => decide (e.id = c.1.id)) = some f := by
        rw [← Option.isSome_iff_exists, List.find?_isSome]
        exact ⟨e, he, by simp [e1]⟩
      have hff : f = e := huniq f (List.mem_of_find?_eq_some hf) (by
        have := List.find?_some hf
        simp only [decide_eq_true_eq] at this
        rw [this, e1])
      subst hff
      refine ⟨c, f, hfc, hf, ?_, ?_⟩
      · obtain ⟨j, hj⟩ := List.mem_iff_getElem?.mp he
        have hkj := ha.numbered.key j f hj
        obtain ⟨f', hf'⟩ : ∃ f', edge t f.key = some f' := by
          unfold edge
          rw [← Option.isSome_iff_exists, List.find?_isSome]
          exact ⟨f, he, by simp⟩
        have := edge_pos ha.numbered hf'
        rw [hkj, hj] at this
        rw [hf', Option.some.inj this]
      · rw [e2]
        refine lt_of_le_of_lt hbound ?_
        obtain ⟨j, hj⟩ := List.mem_iff_getElem?.mp he
        have hlt := (List.getElem?_eq_some_iff.mp hj).1
        have hlt0 : j < s0.edges.length := by rw [← ha.marked.channels]; exact hlt
        obtain ⟨g, n, -, hfe⟩ := marked_edge ha.marked j hlt0 hlt
        have hfj : f = t.edges[j] := (List.getElem?_eq_some_iff.mp hj).2.symm
        have := hBd _ (List.getElem_mem hlt0)
        have s1 : s0.edges[j].ins = f.ins := by rw [hfj, hfe]
        have s2 : s0.edges[j].src = f.src := by rw [hfj, hfe]
        have hLB : (allEvents B).length = L := by rw [hL]; unfold allEvents; rw [htk]
        rw [s1, s2, ← hv, hx] at this
        rw [hLB, ← e3, e4]
        simpa [taskOf] using this
  refine ⟨(s0.edges.map fun e => (Bd - e.preload).toNat).sum, fun fuel hf => ?_⟩
  have hcrit : ∀ t, Analysed s0 t → ∃ c, kCritical solve kfuel first t = some c ∧
      ∀ k, c = some k → ∃ e, edge t k = some e ∧ e.preload < Bd := by
    intro t ha
    obtain ⟨B, hB, -, k, cc, hks, -, h2⟩ := hkey t ha
    unfold kCritical
    rw [hB, Option.bind_some, hks, Option.bind_some]
    simp only
    split
    · rename_i hth
      obtain ⟨c, e, f1, f2, f3, f4⟩ := h2 hth
      refine ⟨some e.key, by rw [f1, Option.bind_some, f2]; rfl, fun k hk => ?_⟩
      obtain rfl := Option.some.inj hk
      exact ⟨e, f3, f4⟩
    · exact ⟨none, rfl, fun k hk => by cases hk⟩
  obtain ⟨t, ht, ha⟩ := marking_total h0 Bd hcrit fuel (marked_refl h0) hn hr0 hf
  obtain ⟨-, hlast⟩ := marking_spec h0 fuel (marked_refl h0) hn ht
  obtain ⟨B, hB, hok, k, cc, hks, h1, h2⟩ := hkey t ha
  refine ⟨t, B, ht, ha.marked, hB, hok, h1 ?_⟩
  by_contra hth
  push Not at hth
  obtain ⟨c, e, f1, f2, -⟩ := h2 hth
  unfold kCritical at hlast
  rw [hB, Option.bind_some, hks, Option.bind_some] at hlast
  simp only [if_pos hth, f1, Option.bind_some, f2, Option.map_some, Option.some.injEq] at hlast
  cases hlast

theorem Gen.shape_plain {r : Nat → Nat} {c : Config} {fuel : Nat} {s : State} {j : Nat} (h : (shape r c fuel).run 0 = some (s, j))
    (hinit : c.maxInit = 0)
    (hatt : ∀ (i : ℕ) (x : Vtx), s.verts[i]? = some x → x.phases = 1 ∨ ∃ e ∈ s.edges, e.src = i ∨ e.tgt = i) : Plain s := by
  obtain ⟨-, -, h3, h4, -⟩ := C45_graph h
  have hip : ∀ (i : ℕ) (x : Vtx), s.verts[i]? = some x → x.iphases = 0 := by
    intro i x hx
    have h1 := (h3 i x hx).iphases1
    have h2 := (h3 i x hx).iphases2
    omega
  refine ⟨fun i x hx => (h3 i x hx).id, ?_, ?_, ?_, hatt⟩
  · intro x hx
    obtain ⟨i, hi⟩ := List.mem_iff_getElem?.mp hx
    have ht := h3 i x hi
    refine ⟨ht.dursLen, fun d hd => ?_, ?_⟩
    · obtain ⟨n, h1, -, rfl⟩ := ht.durs d hd
      exact_mod_cast (by omega : 0 < n)
    · have := ht.idursLen
      rw [hip i x hi] at this
      exact List.length_eq_zero_iff.mp (by omega)
  · intro e he
    obtain ⟨i, hi⟩ := List.mem_iff_getElem?.mp he
    obtain ⟨hc, -⟩ := h4 i e hi
    obtain ⟨x, hx, -, h1⟩ := hc.src
    obtain ⟨y, hy, -, h2⟩ := hc.tgt
    rw [hip _ x hx] at h1
    rw [hip _ y hy] at h2
    exact ⟨List.length_eq_zero_iff.mp (by omega), List.length_eq_zero_iff.mp (by omega)⟩
  · intro e he
    obtain ⟨i, hi⟩ := List.mem_iff_getElem?.mp he
    rw [(h4 i e hi).2]

/-- **C64** With the K-periodic analysis (and a cycle ratio solver that answers correctly), whichever of the critical channels is
taken first, the loop that adds initial tokens ends, and the graph that is returned is alive: a valid infinite schedule
sustains a period, and there is a best period. Partial: the tasks have no initial phases, and those with several phases have a
channel. -/
theorem C64_live_partial {r : Nat → Nat} {c : Config} {fuel : Nat} {s : State} {j : Nat}
    (h : (shape r c fuel).run 0 = some (s, j)) (hw : c.maxWeight < 2 ^ 31) (hinit : c.maxInit = 0)
    (hatt : ∀ (i : ℕ) (x : Vtx), s.verts[i]? = some x → x.phases = 1 ∨ ∃ e ∈ s.edges, e.src = i ∨ e.tgt = i)
    {solve : List EvConstraint → Option (ℚ × List EvConstraint)} (hsolve : SolverFor solve)
    {first : List BChannel → Option BChannel} (hfirst : Picks first) :
    ∃ n, ∀ kfuel, n < kfuel → ∃ m, ∀ turns, m < turns → ∃ t B, generate r c (kCritical solve kfuel first) fuel turns = some t ∧
      Marked s t ∧ baseOf t = some B ∧ BaseOK B ∧ ∃ Ω, 0 < Ω ∧ IsLeast (SustainablePeriods B) Ω := by
  obtain ⟨n, hn⟩ := live (shape_sound h hw) (shape_plain h hinit hatt) (shape_numbered h) (shape_unsolved h) hsolve hfirst
  refine ⟨n, fun kfuel hk => ?_⟩
  obtain ⟨m, hm⟩ := hn kfuel hk
  refine ⟨m, fun turns ht => ?_⟩
  obtain ⟨t, B, h1, h2⟩ := hm turns ht
  refine ⟨t, B, ?_, h2⟩
  unfold generate
  rw [show (shape r c fuel).run 0 = _ from h]
  exact h1

/-- **C64** For the default kind of configuration, with one phase per task and no initial phases, the generator ends and
returns a graph that is alive. -/
theorem C64_generates {r : Nat → Nat} (hr : Varied r) {c : Config} (hc : c.Supported) (hV : 1 ≤ c.minV) (hE : 1 ≤ c.minE)
    (hl : c.noSelfLoop = true → 2 ≤ c.minV) (hw : c.maxWeight < 2 ^ 31) (hinit : c.maxInit = 0) (hph : c.maxPhases = 1)
    {solve : List EvConstraint → Option (ℚ × List EvConstraint)} (hsolve : SolverFor solve)
    {first : List BChannel → Option BChannel} (hfirst : Picks first) :
    ∃ fuel0, ∀ fuel, fuel0 ≤ fuel → ∃ n, ∀ kfuel, n < kfuel → ∃ m, ∀ turns, m < turns →
      ∃ t B, generate r c (kCritical solve kfuel first) fuel turns = some t ∧ baseOf t = some B ∧ BaseOK B ∧
        ∃ Ω, 0 < Ω ∧ IsLeast (SustainablePeriods B) Ω := by
  obtain ⟨fuel0, h0⟩ := C45_total hr hc hV hE hl
  refine ⟨fuel0, fun fuel hf => ?_⟩
  obtain ⟨⟨s, j⟩, hs⟩ := h0 fuel hf
  obtain ⟨-, -, h3, -⟩ := C45_graph hs
  obtain ⟨n, hn⟩ := C64_live_partial hs hw hinit (fun i x hx => Or.inl (by
    have h1 := (h3 i x hx).phases1
    have h2 := (h3 i x hx).phases2
    omega)) hsolve hfirst
  refine ⟨n, fun kfuel hk => ?_⟩
  obtain ⟨m, hm⟩ := hn kfuel hk
  refine ⟨m, fun turns ht => ?_⟩
  obtain ⟨t, B, a1, -, a2⟩ := hm turns ht
  exact ⟨t, B, a1, a2⟩

/-! ### Examples -/

/-- Exhaustive search is such a solver. -/
theorem Gen.exhaustive_for : SolverFor exhaustive := by
  intro B hB hne hpos K cs hK hcs
  obtain ⟨h1, h2⟩ := exhaustive_event hB hpos hK hcs
  obtain ⟨⟨th, p⟩, hr⟩ := h2 hne
  exact ⟨th, p, hr, h1 th p hr⟩

theorem Gen.head_picks : Picks List.head? := by
  intro l hl
  cases l with
  | nil => exact absurd rfl hl
  | cons a l => exact ⟨a, by simp, rfl⟩

/-- Three tasks and four channels, with one phase and no initial phases as by default. -/
def Gen.ring : Config := ⟨3, 4, 3, 4, 4, 9, 1, 0, true⟩

/-- The theorem applies to this configuration. -/
example {r : Nat → Nat} (hr : Varied r) : ∃ fuel0, ∀ fuel, fuel0 ≤ fuel → ∃ n, ∀ kfuel, n < kfuel → ∃ m, ∀ turns, m < turns →
    ∃ t B, generate r ring (kCritical exhaustive kfuel List.head?) fuel turns = some t ∧ baseOf t = some B ∧ BaseOK B ∧
      ∃ Ω, 0 < Ω ∧ IsLeast (SustainablePeriods B) Ω :=
  C64_generates hr (by constructor <;> decide) (by decide) (by decide) (by decide) (by decide) (by decide) (by decide)
    exhaustive_for head_picks

/-- A run with the solver of the code: the shape has two circuits through the third task, and the loop adds 2 and 4 tokens. -/
example : ((shape sampleDraws ring 10).run 0).map (fun p => p.1.edges.map fun e => (e.src, e.tgt, e.ins, e.outs)) = some
    [(1, 2, [1], [2]), (0, 2, [2], [4]), (1, 0, [3], [3]), (2, 1, [4], [2])] := by
  decide +kernel

example : (generate sampleDraws ring (kCritical (Howard.solver (1 / 10 ^ 19) (10 ^ 9) endpoints) 20 List.head?) 10 100).map
    (fun t => t.edges.map fun e => e.preload) = some [2, 4, 0, 0] := by
  decide +kernel

end Kiter
