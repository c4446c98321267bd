/-
Property C41: modelling of communications (`addPathNode`, `ModelNoCConflictFreeCommunication`).
-/
import Verif.Props.Transform

set_option autoImplicit false

namespace Kiter

open DF

/-- The number of tasks a route adds: one per link, and one per router between two links. -/
def DF.added (routers : Bool) (route : List Int) : Nat := if routers then 2 * route.length - 1 else route.length

/-- What a route replaces the channel `e` by: `m` new tasks numbered from `V` and `m + 1` channels `L` through them. -/
structure DF.IsChain (e : Edg) (V m : Nat) (first : Int) (L : List Edg) : Prop where
  length : L.length = m + 1
  /-- The chain leads from the source through the new tasks to the target. -/
  ends : ∀ (i : Nat) (f : Edg), L[i]? = some f →
    f.src = (if i = 0 then e.src else V + i - 1) ∧ f.tgt = if i = m then e.tgt else V + i
  /-- The rates are 1 but at the two ends. -/
  rates : ∀ (i : Nat) (f : Edg), L[i]? = some f →
    f.ins = [if i = 0 then first else 1] ∧ f.outs = [if i = m then e.outs.sum else 1]
  /-- The initial tokens are on the last channel. -/
  tokens : ∀ (i : Nat) (f : Edg), L[i]? = some f → f.preload = if i = m then e.preload else 0
  init : ∀ f ∈ L, f.iins = [] ∧ f.iouts = []

/-- The range in which the stored totals of a channel are the sums of its rates (32 bits, see C10). -/
def DF.InRange (e : Edg) : Prop :=
  -2 ^ 31 ≤ e.ins.sum ∧ e.ins.sum < 2 ^ 31 ∧ -2 ^ 31 ≤ e.outs.sum ∧ e.outs.sum < 2 ^ 31

/-- What `addPathNode` does to a state that satisfies the invariants of the interface. -/
theorem DF.addPathNode_spec {s s' : State} (hi : Inv s) {e : Edg} (he : e ∈ s.edges) (hr : InRange e)
    {known : Int → Bool} {routers virt : Bool} {route : List Int}
    (hm : addPathNode known routers virt s e.key route = some s') :
    (((route = [] ∧ virt = true) ∨ e.src = e.tgt) → s'.verts = s.verts ∧ s'.edges = s.edges ∧ Inv s') ∧
    (¬ (route = [] ∧ virt = true) → e.src ≠ e.tgt → ∃ L,
      IsChain e s.verts.length (added routers route) (if route = [] then 1 else e.ins.sum) L ∧
      s'.edges = (s.edges.filter fun f => f.key ≠ e.key) ++ L ∧
      s'.verts.length = s.verts.length + added routers route ∧ Grown routers s.verts s'.verts ∧
      Single s.verts e.src ∧ Single s.verts e.tgt ∧ Inv s') := by
  unfold addPathNode at hm
  rw [edge_of_mem hi he] at hm
  simp only [Option.bind_eq_bind, Option.bind_some] at hm
  have hends := hi.ends e he
  by_cases h1 : route = [] ∧ virt = true
  · rw [if_pos h1] at hm
    have := Option.some.inj hm
    subst this
    exact ⟨fun _ => ⟨rfl, rfl, hi⟩, fun h => absurd h1 h⟩
  · rw [if_neg h1] at hm
    obtain ⟨a, ha, hm⟩ := Option.bind_eq_some_iff.mp hm
    obtain ⟨b, hb, hm⟩ := Option.bind_eq_some_iff.mp hm
    have hab : a.id = b.id ↔ e.src = e.tgt := by
      constructor
      · intro h; exact hi.vid _ _ a b ha hb h
      · intro h
        have ha' : s.verts[e.src]? = some a := ha
        have hb' : s.verts[e.tgt]? = some b := hb
        rw [h, hb'] at ha'
        rw [Option.some.inj ha']
    by_cases h2 : e.src = e.tgt
    · rw [if_pos (hab.2 h2)] at hm
      have := Option.some.inj hm
      subst this
      exact ⟨fun _ => ⟨rfl, rfl, inv_reset hi⟩, fun _ h => absurd h2 h⟩
    · rw [if_neg (fun h => h2 (hab.1 h))] at hm
      obtain ⟨s1, k1, hm⟩ := Option.bind_eq_some_iff.mp hm
      obtain ⟨⟨s2, last⟩, k2, hm⟩ := Option.bind_eq_some_iff.mp hm
      obtain ⟨s3, k3, hm⟩ := Option.bind_eq_some_iff.mp hm
      obtain ⟨e2, k4, hm⟩ := Option.bind_eq_some_iff.mp hm
      obtain ⟨s5, k5, hm⟩ := Option.bind_eq_some_iff.mp hm
      obtain ⟨s6, k6, hm⟩ := Option.bind_eq_some_iff.mp hm
      obtain ⟨s7, k7, k8⟩ := Option.bind_eq_some_iff.mp hm
      refine ⟨fun h => absurd h (by rintro (h | h); exacts [h1 h, h2 h]), fun _ _ => ?_⟩
      have x1 := eff_removeEdge (inv_reset hi) k1
      have v1 : s1.verts = s.verts := x1.verts
      obtain ⟨L, g1, g2, g3, g4, g5, g6, x2⟩ := pathLoop_spec known routers e.id route s1 e.src e.totIn s2 last x1.inv
        x1.writable (by rw [v1]; exact hends.1) k2
      obtain ⟨-, -, id, x3⟩ := eff_addEdge x2.inv k3
      have x5 := eff_setEdgeName x3.inv x3.edges rfl k5
      obtain ⟨p6, x6⟩ := eff_setEdgeOut x5.inv x5.edges rfl k6
      obtain ⟨p7, x7⟩ := eff_setEdgeIn x6.inv x6.edges rfl k7
      have x8 := eff_setPreload x7.inv x7.edges rfl k8
      have hh : hops routers route = added routers route := hops_eq routers route
      rw [hh] at g1 g3 g4
      rw [v1] at g2 g3 g4 g5 g6
      have hti : e.totIn = e.ins.sum := by
        rw [(hi.totals e he).1, intSum_eq, bmod_self hr.1 hr.2.1]
      have hto : e.totOut = e.outs.sum := by
        rw [(hi.totals e he).2, intSum_eq, bmod_self hr.2.2.1 hr.2.2.2]
      rw [hti] at g2
      have hadd : route = [] ↔ added routers route = 0 := by
        unfold added
        cases route with
        | nil => cases routers <;> simp
        | cons a l =>
          cases routers
          · simp
          · simp; omega
      -- the phases of the two ends
      have v2 : s5.verts = s2.verts := by rw [x5.verts, x3.verts]
      rw [v2] at p6
      have w6 : Keep s2.verts s6.verts := by
        rw [x6.verts, v2]
        exact Keep.modify p6
      have w7 : Keep s6.verts s7.verts := by
        rw [x7.verts]
        exact Keep.modify p7
      have w8 : Keep s2.verts s'.verts := by
        rw [x8.verts]
        exact w6.trans w7
      have gk : Grown routers s.verts s'.verts := by
        refine ⟨by rw [w8.1]; exact g5.1, ?_, ?_⟩
        · intro i x hx
          obtain ⟨y, hy, h3⟩ := g5.2.1 i x hx
          obtain ⟨z, hz, h4⟩ := w8.2 i y hy
          refine ⟨z, hz, ?_⟩
          rcases h3 with rfl | ⟨hp, rfl⟩
          · exact h4
          · rcases h4 with rfl | ⟨-, rfl⟩ <;> exact Or.inr ⟨hp, rfl⟩
        · intro i y hil hy
          have hlt : i < s2.verts.length := by
            rw [← w8.1]; rw [List.getElem?_eq_some_iff] at hy; exact hy.1
          obtain ⟨z, hz, h4⟩ := w8.2 i _ (List.getElem?_eq_getElem hlt)
          rw [hy] at hz
          have := Option.some.inj hz
          subst this
          obtain ⟨q1, q2⟩ := g5.2.2 i _ hil (List.getElem?_eq_getElem hlt)
          rcases h4 with rfl | ⟨-, rfl⟩
          · exact ⟨q1, q2⟩
          · exact ⟨rfl, q2⟩
      have back : ∀ v, v < s.verts.length → Single s2.verts v → Single s.verts v := by
        rintro v hv ⟨y, hy, hp⟩
        obtain ⟨z, hz, h3⟩ := g5.2.1 v _ (List.getElem?_eq_getElem hv)
        rw [hz] at hy
        have := Option.some.inj hy
        subst this
        refine ⟨_, List.getElem?_eq_getElem hv, ?_⟩
        rcases h3 with h3 | ⟨h0, -⟩
        · rw [← h3]; exact hp
        · intro h1; omega
      have stgt : Single s.verts e.tgt := back _ hends.2 p6
      have ssrc : Single s.verts e.src := by
        by_cases hroute : route = []
        · have hl0 : last = e.src := by rw [g3, if_pos (hadd.1 hroute)]
          refine back _ hends.1 ?_
          have : Single s6.verts last := p7
          rw [hl0] at this
          exact Single.of_keep w6 this (lt_of_lt_of_le hends.1 g5.1)
        · exact g6 hroute
      have hedges : s'.edges = (s.edges.filter fun f => f.key ≠ e.key) ++
          (L ++ [⟨s2.nextKey, last, e.tgt, id, "final_" ++ toString e2.id, [1], [e.totOut], intSum [1],
            intSum [e.totOut], e.preload, [], []⟩]) := by
        rw [x8.edges, x2.edges, x1.edges, List.append_assoc]
        rfl
      refine ⟨_, ?_, hedges, by rw [w8.1, g4], gk, ssrc, stgt, x8.inv⟩
      have hcase : ∀ (i : Nat) (f : Edg), (L ++ [(⟨s2.nextKey, last, e.tgt, id, "final_" ++ toString e2.id, [1],
          [e.totOut], intSum [1], intSum [e.totOut], e.preload, [], []⟩ : Edg)])[i]? = some f →
          (i < added routers route ∧ L[i]? = some f) ∨ (i = added routers route ∧
            f = ⟨s2.nextKey, last, e.tgt, id, "final_" ++ toString e2.id, [1],
          [e.totOut], intSum [1], intSum [e.totOut], e.preload, [], []⟩) := by
        intro i f hf
        rcases Nat.lt_or_ge i L.length with hlt | hge
        · rw [List.getElem?_append_left hlt] at hf
          exact Or.inl ⟨by omega, hf⟩
        · rw [List.getElem?_append_right hge] at hf
          have : i - L.length = 0 := by
            by_contra hne
            rw [List.getElem?_eq_none (by simp; omega)] at hf
            cases hf
          rw [this] at hf
          exact Or.inr ⟨by omega, (Option.some.inj hf).symm⟩
      refine ⟨by simp [g1], ?_, ?_, ?_, ?_⟩
      · intro i f hf
        rcases hcase i f hf with ⟨hlt, hf⟩ | ⟨hieq, rfl⟩
        · obtain ⟨c1, c2, -⟩ := g2 i f hf
          exact ⟨c1, by rw [if_neg (by omega)]; exact c2⟩
        · refine ⟨?_, by rw [if_pos hieq]⟩
          show last = _
          rw [g3, hieq]
      · intro i f hf
        rcases hcase i f hf with ⟨hlt, hf⟩ | ⟨hieq, rfl⟩
        · obtain ⟨-, -, c3, c4, -⟩ := g2 i f hf
          have hroute : route ≠ [] := fun h => by rw [hadd] at h; omega
          exact ⟨by rw [if_neg hroute]; exact c3, by rw [if_neg (by omega)]; exact c4⟩
        · refine ⟨?_, by rw [if_pos hieq, hto]⟩
          by_cases hroute : route = []
          · rw [if_pos hroute]
            split <;> rfl
          · rw [if_neg hroute, if_neg (by rw [hadd] at hroute; omega)]
      · intro i f hf
        rcases hcase i f hf with ⟨hlt, hf⟩ | ⟨hieq, rfl⟩
        · obtain ⟨-, -, -, -, c5, -⟩ := g2 i f hf
          rw [if_neg (by omega)]; exact c5
        · rw [if_pos hieq]
      · intro f hf
        rcases List.mem_append.1 hf with hf | hf
        · obtain ⟨i, hi'⟩ := List.getElem?_of_mem hf
          obtain ⟨-, -, -, -, -, c6, c7⟩ := g2 i f hi'
          exact ⟨c6, c7⟩
        · rw [List.mem_singleton] at hf
          subst hf
          exact ⟨rfl, rfl⟩

/-- C41.  When the channel `e` between two different tasks is replaced along a route with at least one link, the result
is a chain from its source to its target: it starts with the production of `e`, ends with the consumption of `e`, has
the rate 1 everywhere else, and has the initial tokens of `e`, all on the last channel.  Every other channel is as it
was, every task is as it was, and the new tasks have one phase, of duration 1 (a link) or 0 (a router). -/
theorem C41_chain {ops : List Op} {s s' : State} (h : calls empty ops = some s) {e : Edg} (he : e ∈ s.edges)
    (hr : InRange e) (hst : e.src ≠ e.tgt) {known : Int → Bool} {routers virt : Bool} {route : List Int}
    (hroute : route ≠ []) (hm : addPathNode known routers virt s e.key route = some s') :
    ∃ L, IsChain e s.verts.length (added routers route) e.ins.sum L ∧
      s'.edges = (s.edges.filter fun f => f.key ≠ e.key) ++ L ∧
      s'.verts.length = s.verts.length + added routers route ∧ Grown routers s.verts s'.verts := by
  obtain ⟨L, h1, h2, h3, h4, -⟩ := (addPathNode_spec (inv_calls inv_empty h) he hr hm).2 (fun h => hroute h.1) hst
  rw [if_neg hroute] at h1
  exact ⟨L, h1, h2, h3, h4⟩

/-- C41.  A channel from a task to itself stays, and so does a virtual channel without route. -/
theorem C41_kept {ops : List Op} {s s' : State} (h : calls empty ops = some s) {e : Edg} (he : e ∈ s.edges)
    (hr : InRange e) {known : Int → Bool} {routers virt : Bool} {route : List Int}
    (hk : (route = [] ∧ virt = true) ∨ e.src = e.tgt)
    (hm : addPathNode known routers virt s e.key route = some s') : s'.verts = s.verts ∧ s'.edges = s.edges := by
  obtain ⟨h1, h2, -⟩ := (addPathNode_spec (inv_calls inv_empty h) he hr hm).1 hk
  exact ⟨h1, h2⟩

/-- C41.  Only channels between tasks with one phase can be replaced: with more phases the program ends with an error. -/
theorem C41_single_phase {ops : List Op} {s : State} (h : calls empty ops = some s) {e : Edg} (he : e ∈ s.edges)
    (hr : InRange e) (hst : e.src ≠ e.tgt) {known : Int → Bool} {routers virt : Bool} {route : List Int}
    (hv : ¬ (route = [] ∧ virt = true)) {x y : Vtx} (hx : s.verts[e.src]? = some x) (hy : s.verts[e.tgt]? = some y)
    (hp : 1 < x.phases ∨ 1 < y.phases) : addPathNode known routers virt s e.key route = none := by
  by_contra hne
  obtain ⟨s', hm⟩ := Option.ne_none_iff_exists'.1 hne
  obtain ⟨L, -, -, -, -, ⟨x', hx', h1⟩, ⟨y', hy', h2⟩, -⟩ :=
    (addPathNode_spec (inv_calls inv_empty h) he hr hm).2 hv hst
  rw [hx] at hx'
  rw [hy] at hy'
  have := Option.some.inj hx'
  subst this
  have := Option.some.inj hy'
  subst this
  omega

/-- The tokens on a channel between tasks with one phase, after `n v` executions of each task `v`. -/
def DF.tokensAfter (n : Nat → Int) (e : Edg) : Int := e.preload + n e.src * e.ins.sum - n e.tgt * e.outs.sum

theorem DF.chain_zero {e : Edg} {V m : Nat} {first : Int} {L : List Edg} (hc : IsChain e V m first L) :
    ∀ i, i ≤ m → ∃ f, L[i]? = some f := by
  intro i hi
  exact ⟨_, List.getElem?_eq_getElem (by rw [hc.length]; omega)⟩

/-- Executions of the new tasks that go with those of the source. -/
def DF.extend (n : Nat → Int) (V : Nat) (x : Int) : Nat → Int := fun v => if v < V then n v else x

/-- C41.  A chain (with at least one new task) carries the tokens of the channel it replaces: in every state in which no
channel of the chain is short of tokens, the channel replaced would not be either; and every state of the old graph in
which that channel is not short of tokens comes from one of the chain. -/
theorem C41_tokens {e : Edg} {V m : Nat} {L : List Edg} (hc : IsChain e V m e.ins.sum L) (hm : 0 < m)
    (hs : e.src < V) (ht : e.tgt < V) :
    (∀ n, (∀ f ∈ L, 0 ≤ tokensAfter n f) → 0 ≤ tokensAfter n e) ∧
    (∀ n, 0 ≤ tokensAfter n e → ∀ f ∈ L, 0 ≤ tokensAfter (extend n V (n e.src * e.ins.sum)) f) := by
  constructor
  · intro n hn
    -- the number of executions of the new task i is at most the number of tokens produced
    have step : ∀ i, i < m → n (V + i) ≤ n e.src * e.ins.sum := by
      intro i
      induction i with
      | zero =>
        intro hi
        obtain ⟨f, hf⟩ := chain_zero hc 0 (by omega)
        have h0 := hn f (List.mem_of_getElem? hf)
        obtain ⟨e1, e2⟩ := hc.ends 0 f hf
        obtain ⟨r1, r2⟩ := hc.rates 0 f hf
        have t1 := hc.tokens 0 f hf
        unfold tokensAfter at h0
        rw [e1, e2, r1, r2, t1, if_neg (show (0 : Nat) ≠ m by omega), if_neg (show (0 : Nat) ≠ m by omega),
          if_neg (show (0 : Nat) ≠ m by omega)] at h0
        simp at h0 ⊢
        linarith
      | succ i ih =>
        intro hi
        obtain ⟨f, hf⟩ := chain_zero hc (i + 1) (by omega)
        have h0 := hn f (List.mem_of_getElem? hf)
        obtain ⟨e1, e2⟩ := hc.ends (i + 1) f hf
        obtain ⟨r1, r2⟩ := hc.rates (i + 1) f hf
        have t1 := hc.tokens (i + 1) f hf
        unfold tokensAfter at h0
        rw [e1, e2, r1, r2, t1, if_neg (show i + 1 ≠ m by omega), if_neg (show i + 1 ≠ m by omega),
          if_neg (show i + 1 ≠ m by omega), if_neg (by omega), if_neg (by omega)] at h0
        have h1 := ih (by omega)
        rw [show V + (i + 1) - 1 = V + i by omega] at h0
        simp at h0
        linarith
    obtain ⟨f, hf⟩ := chain_zero hc m (le_refl _)
    have h0 := hn f (List.mem_of_getElem? hf)
    obtain ⟨e1, e2⟩ := hc.ends m f hf
    obtain ⟨r1, r2⟩ := hc.rates m f hf
    have t1 := hc.tokens m f hf
    unfold tokensAfter at h0 ⊢
    rw [e1, e2, r1, r2, t1, if_pos rfl, if_pos rfl, if_pos rfl, if_neg (by omega), if_neg (by omega)] at h0
    have h1 := step (m - 1) (by omega)
    rw [show V + m - 1 = V + (m - 1) by omega] at h0
    simp at h0
    linarith
  · intro n hn f hf
    obtain ⟨i, hi⟩ := List.getElem?_of_mem hf
    have hil : i < m + 1 := by
      rw [List.getElem?_eq_some_iff] at hi
      rw [← hc.length]; exact hi.1
    obtain ⟨e1, e2⟩ := hc.ends i f hi
    obtain ⟨r1, r2⟩ := hc.rates i f hi
    have t1 := hc.tokens i f hi
    unfold tokensAfter extend at *
    rw [e1, e2, r1, r2, t1]
    by_cases h0 : i = 0
    · subst h0
      have : ¬ (0 : Nat) = m := by omega
      simp [this, hs]
    · have h3 : ¬ V + i - 1 < V := by omega
      by_cases h4 : i = m
      · subst h4
        simp only [h0, if_true, if_false, h3, ht, List.sum_singleton]
        linarith
      · have h5 : ¬ V + i < V := by omega
        simp [h0, h4, h3, h5]

/-! #### Consistency -/

theorem DF.chain_balance {e : Edg} {V m : Nat} {first : Int} {L : List Edg} (hc : IsChain e V m first L)
    (hf : first = e.ins.sum) (q : Nat → Int) :
    (Balanced L q → q e.src * e.ins.sum = q e.tgt * e.outs.sum) ∧
    (e.src < V → e.tgt < V → q e.src * e.ins.sum = q e.tgt * e.outs.sum →
      Balanced L (extend q V (q e.src * e.ins.sum))) := by
  subst hf
  constructor
  · intro hb
    have step : ∀ i, i < m → q (V + i) = q e.src * e.ins.sum := by
      intro i
      induction i with
      | zero =>
        intro hi
        obtain ⟨f, hf⟩ := chain_zero hc 0 (by omega)
        have h0 := hb f (List.mem_of_getElem? hf)
        obtain ⟨e1, e2⟩ := hc.ends 0 f hf
        obtain ⟨r1, r2⟩ := hc.rates 0 f hf
        rw [e1, e2, r1, r2, if_neg (show (0 : Nat) ≠ m by omega), if_neg (show (0 : Nat) ≠ m by omega)] at h0
        simp at h0 ⊢
        exact h0.symm
      | succ i ih =>
        intro hi
        obtain ⟨f, hf⟩ := chain_zero hc (i + 1) (by omega)
        have h0 := hb f (List.mem_of_getElem? hf)
        obtain ⟨e1, e2⟩ := hc.ends (i + 1) f hf
        obtain ⟨r1, r2⟩ := hc.rates (i + 1) f hf
        rw [e1, e2, r1, r2, if_neg (show i + 1 ≠ m by omega), if_neg (show i + 1 ≠ m by omega),
          if_neg (by omega), if_neg (by omega)] at h0
        rw [show V + (i + 1) - 1 = V + i by omega, ih (by omega)] at h0
        simp at h0
        exact h0.symm
    obtain ⟨f, hf⟩ := chain_zero hc m (le_refl _)
    have h0 := hb f (List.mem_of_getElem? hf)
    obtain ⟨e1, e2⟩ := hc.ends m f hf
    obtain ⟨r1, r2⟩ := hc.rates m f hf
    rw [e1, e2, r1, r2, if_pos rfl, if_pos rfl] at h0
    by_cases hm : m = 0
    · rw [if_pos hm, if_pos hm] at h0
      simpa using h0
    · rw [if_neg hm, if_neg hm, show V + m - 1 = V + (m - 1) by omega, step (m - 1) (by omega)] at h0
      simpa using h0
  · intro hs ht hq f hf
    obtain ⟨i, hi⟩ := List.getElem?_of_mem hf
    have hil : i < m + 1 := by
      rw [List.getElem?_eq_some_iff] at hi
      rw [← hc.length]; exact hi.1
    obtain ⟨e1, e2⟩ := hc.ends i f hi
    obtain ⟨r1, r2⟩ := hc.rates i f hi
    unfold extend at *
    rw [e1, e2, r1, r2]
    by_cases h0 : i = 0
    · subst h0
      by_cases h4 : 0 = m
      · simpa [h4.symm, hs, ht] using hq
      · simp [h4, hs]
    · have h3 : ¬ V + i - 1 < V := by omega
      by_cases h4 : i = m
      · subst h4
        simp only [h0, if_true, if_false, h3, ht, List.sum_singleton]
        linarith
      · have h5 : ¬ V + i < V := by omega
        simp [h0, h4, h3, h5]

/-- The channels for which the rates survive: they have a route, or are not replaced, or produce one token. -/
def DF.Routed (virt : Bool) (route : List Int) (e : Edg) : Prop :=
  route ≠ [] ∨ virt = true ∨ e.src = e.tgt ∨ e.ins.sum = 1

theorem DF.addPathNode_balance {s s' : State} (hi : Inv s) {e : Edg} (he : e ∈ s.edges) (hr : InRange e)
    {known : Int → Bool} {routers virt : Bool} {route : List Int} (hc : Routed virt route e)
    (hm : addPathNode known routers virt s e.key route = some s') :
    Inv s' ∧ s.verts.length ≤ s'.verts.length ∧ (∀ f ∈ s.edges, f ≠ e → f ∈ s'.edges) ∧
    (∀ q, Balanced s.edges q → ∃ q', (∀ v, v < s.verts.length → q' v = q v) ∧ Balanced s'.edges q') ∧
    (∀ q, Balanced s'.edges q → Balanced s.edges q) := by
  obtain ⟨h1, h2⟩ := addPathNode_spec hi he hr hm
  by_cases hk : (route = [] ∧ virt = true) ∨ e.src = e.tgt
  · obtain ⟨k1, k2, k3⟩ := h1 hk
    refine ⟨k3, by rw [k1], fun f hf _ => by rw [k2]; exact hf, fun q hq => ⟨q, fun _ _ => rfl, by rw [k2]; exact hq⟩,
      fun q hq => by rw [k2] at hq; exact hq⟩
  · have k1 : ¬ (route = [] ∧ virt = true) := fun h => hk (Or.inl h)
    have k2 : e.src ≠ e.tgt := fun h => hk (Or.inr h)
    obtain ⟨L, g1, g2, g3, -, -, -, g4⟩ := h2 k1 k2
    have hfirst : (if route = [] then (1 : Int) else e.ins.sum) = e.ins.sum := by
      by_cases hroute : route = []
      · rw [if_pos hroute]
        rcases hc with hc | hc | hc | hc
        · exact absurd hroute hc
        · exact absurd ⟨hroute, hc⟩ k1
        · exact absurd hc k2
        · exact hc.symm
      · rw [if_neg hroute]
    have hends := hi.ends e he
    refine ⟨g4, by omega, ?_, ?_, ?_⟩
    · intro f hf hne
      rw [g2, List.mem_append, List.mem_filter]
      exact Or.inl ⟨hf, by simpa using fun h => hne (key_inj hi hf he h)⟩
    · intro q hq
      refine ⟨extend q s.verts.length (q e.src * e.ins.sum), ?_, ?_⟩
      · intro v hv
        simp [extend, hv]
      · intro f hf
        rw [g2, List.mem_append] at hf
        rcases hf with hf | hf
        · have hf' := List.mem_of_mem_filter hf
          have := hi.ends f hf'
          simp only [extend, this.1, this.2, if_true]
          exact hq f hf'
        · exact (chain_balance g1 hfirst q).2 hends.1 hends.2 (hq e he) f hf
    · intro q hq f hf
      by_cases hfe : f = e
      · subst hfe
        refine (chain_balance g1 hfirst q).1 fun g hg => hq g ?_
        rw [g2]
        exact List.mem_append_right _ hg
      · refine hq f ?_
        rw [g2, List.mem_append, List.mem_filter]
        exact Or.inl ⟨hf, by simpa using fun h => hfe (key_inj hi hf he h)⟩

theorem DF.edgeById_of_mem {s : State} (hi : Inv s) {e : Edg} (he : e ∈ s.edges) : edgeById s e.id = some e.key := by
  unfold edgeById
  cases h : s.edges.find? fun x => x.id == e.id with
  | none =>
    rw [List.find?_eq_none] at h
    exact absurd (h e he) (by simp)
  | some f =>
    have h1 := List.mem_of_find?_eq_some h
    have h2 := List.find?_some h
    rw [Option.map_some]
    congr 1
    exact hi.eid f h1 e he (by simpa using h2)

theorem DF.model_fold (known : Int → Bool) (virt : Int → Bool) (route : Int → List Int) : ∀ (l : List Int) (s s' : State),
    Inv s → l.Nodup →
    (∀ id ∈ l, ∃ e ∈ s.edges, e.id = id ∧ InRange e ∧ Routed (virt e.id) (route e.id) e) →
    l.foldlM (fun (s : State) (id : Int) => do
      let k ← edgeById s id
      addPathNode known true (virt id) s k (route id)) s = some s' →
    s.verts.length ≤ s'.verts.length ∧
    (∀ q, Balanced s.edges q → ∃ q', (∀ v, v < s.verts.length → q' v = q v) ∧ Balanced s'.edges q') ∧
    (∀ q, Balanced s'.edges q → Balanced s.edges q) := by
  intro l
  induction l with
  | nil =>
    intro s s' hi _ _ hm
    have := Option.some.inj hm
    subst this
    exact ⟨le_refl _, fun q hq => ⟨q, fun _ _ => rfl, hq⟩, fun q hq => hq⟩
  | cons id l ih =>
    intro s s' hi hn hl hm
    rw [List.foldlM_cons] at hm
    obtain ⟨e, he, rfl, hr, hc⟩ := hl id (by simp)
    obtain ⟨s1, h1, hm2⟩ := Option.bind_eq_some_iff.mp hm
    rw [edgeById_of_mem hi he] at h1
    obtain ⟨g1, g2, g3, g4, g5⟩ := addPathNode_balance hi he hr hc h1
    rw [List.nodup_cons] at hn
    obtain ⟨k1, k2, k3⟩ := ih s1 s' g1 hn.2 (by
      intro id hid
      obtain ⟨f, hf, rfl, h2, h3⟩ := hl id (List.mem_cons_of_mem _ hid)
      exact ⟨f, g3 f hf (fun h => hn.1 (h ▸ hid)), rfl, h2, h3⟩) hm2
    refine ⟨by omega, ?_, fun q hq => g5 q (k3 q hq)⟩
    intro q hq
    obtain ⟨q1, a1, a2⟩ := g4 q hq
    obtain ⟨q2, b1, b2⟩ := k2 q1 a2
    exact ⟨q2, fun v hv => by rw [b1 v (by omega), a1 v hv], b2⟩

/-- C41.  Modelling the communications of a whole graph keeps it consistent, with the same repetitions: the solutions of
the balance equations of the old graph are the restrictions of those of the new graph.  Every channel must have a route,
unless it is virtual, a loop, or produces one token. -/
theorem C41_consistent_partial {ops : List Op} {s s' : State} (h : calls empty ops = some s) {known virt : Int → Bool}
    {route : Int → List Int} (hr : ∀ e ∈ s.edges, InRange e ∧ Routed (virt e.id) (route e.id) e)
    (hm : modelCommunications known virt route s = some s') (q : Nat → Int) :
    Balanced s.edges q ↔ ∃ q', (∀ v, v < s.verts.length → q' v = q v) ∧ Balanced s'.edges q' := by
  have hi := inv_calls inv_empty h
  unfold modelCommunications at hm
  obtain ⟨s1, h1, hm⟩ := Option.bind_eq_some_iff.mp hm
  have := Option.some.inj hm
  subst this
  have hn : (s.edges.map fun e => e.id).Nodup := by
    refine List.Nodup.map_on ?_ (List.Nodup.of_map _ hi.keys)
    intro e he f hf hid
    exact key_inj hi he hf (hi.eid e he f hf hid)
  obtain ⟨-, k2, k3⟩ := model_fold known virt route _ s s1 hi hn (by
    intro id hid
    obtain ⟨e, he, rfl⟩ := List.mem_map.1 hid
    exact ⟨e, he, rfl, (hr e he).1, (hr e he).2⟩) h1
  constructor
  · exact k2 q
  · rintro ⟨q', a1, a2⟩ e he
    have := k3 q' a2 e he
    have hends := hi.ends e he
    rwa [a1 _ hends.1, a1 _ hends.2] at this

/-- Two tasks in a cycle: `a` produces 3 and `b` consumes 2, with tokens. -/
def DF.cycleOps : List Op :=
  [.addVertexName "a", .addVertexName "b", .setPhases 0 1, .setPhases 1 1,
    .addEdge 0 1, .setEdgeIn 0 [3], .setEdgeOut 0 [2], .setPreload 0 5,
    .addEdge 1 0, .setEdgeIn 1 [2], .setEdgeOut 1 [3], .setPreload 1 6]

/-- A route with two links and a router for the first channel, of one link for the second. -/
example : ∃ s s', calls empty cycleOps = some s ∧
    modelCommunications (fun _ => true) (fun _ => false) (fun id => if id = 1 then [10, 11] else [12]) s = some s' ∧
    s'.edges.map (fun e => (e.src, e.tgt, e.ins, e.outs, e.preload)) =
      [(0, 2, [3], [1], 0), (2, 3, [1], [1], 0), (3, 4, [1], [1], 0), (4, 1, [1], [2], 5),
        (1, 5, [2], [1], 0), (5, 0, [1], [3], 6)] ∧
    s'.verts.map (fun v => (v.name, v.durs)) = [("a", []), ("b", []), ("link-1_10", [1]), ("router-1_10_11", [0]),
      ("link-1_11", [1]), ("link-2_12", [1])] := by
  refine ⟨_, _, rfl, rfl, by decide +kernel, by decide +kernel⟩

/-- C41 is false for a channel without route that is not virtual: its production rate is replaced by 1.  Here the graph
was consistent and no longer is. -/
theorem C41_no_route_counterexample : ∃ s s', calls empty cycleOps = some s ∧
    modelCommunications (fun _ => true) (fun _ => false) (fun id => if id = 1 then [] else [12]) s = some s' ∧
    Balanced s.edges (fun v => if v = 0 then 2 else 3) ∧
    ∀ q, Balanced s'.edges q → q 0 = 0 ∧ q 1 = 0 := by
  refine ⟨_, _, rfl, rfl, ?_, ?_⟩
  · unfold Balanced
    decide +kernel
  · intro q hq
    have h1 := hq (one 2 0 1 3 "final_3" 1 2 5) (by decide +kernel)
    have h2 := hq (one 3 1 2 4 "artificial_4" 2 1 0) (by decide +kernel)
    have h3 := hq (one 4 2 0 5 "final_5" 1 3 6) (by decide +kernel)
    simp [one] at h1 h2 h3
    omega

end Kiter
