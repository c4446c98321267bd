import Verif.Spec.Howard
import Verif.Spec.Throughput
import Mathlib.Tactic.Linarith
import Mathlib.Tactic.Ring
import Mathlib.Data.List.Nodup
import Mathlib.Data.List.Chain

set_option autoImplicit false

namespace Kiter
namespace Howard

theorem mem_out {G : EGraph} {v : Event} {e : EvConstraint} : e ∈ G.out v ↔ e ∈ G.cs ∧ e.src = v := by
  simp [EGraph.out]

theorem cmp_iff (c : Cfg) (a b : ℚ) : c.cmp a b = true ↔ c.mult * b < c.mult * a := by
  unfold Cfg.cmp Cfg.mult
  cases c.isMin <;> simp

theorem pick_mem (c : Cfg) (l : List EvConstraint) : (l = [] ∧ pick c l = none) ∨ ∃ e ∈ l, pick c l = some e := by
  cases l with
  | nil => left; exact ⟨rfl, rfl⟩
  | cons e l =>
    right
    have : ∀ (l : List EvConstraint) (b : EvConstraint),
        l.foldl (fun b x => if c.cmp b.w x.w then x else b) b ∈ b :: l := by
      intro l
      induction l with
      | nil => intro b; simp
      | cons x l ih =>
        intro b
        simp only [List.foldl_cons]
        split
        · have := ih x; exact List.mem_cons_of_mem _ this
        · have := ih b
          rcases List.mem_cons.mp this with h | h
          · rw [h]; simp
          · simp [h]
    exact ⟨_, this l e, rfl⟩

/-- What the policy graph satisfies once the vertices `l` are processed. -/
structure Inv (G : EGraph) (l : List Event) (st : St) : Prop where
  bad : ∀ v, st.bad v = true → v ∈ l ∧ G.out v = []
  good : ∀ v ∈ l, st.bad v = false → ∃ e, st.policy v = some e ∧ e ∈ G.cs ∧ e.src = v
  sink : ∀ v, st.bad v = true → ∃ s, st.sink = some s
  sinkBad : ∀ s, st.sink = some s → st.bad s = true
  inel : ∀ u x, x ∈ st.inel u ↔ x ∈ l ∧ st.succ x = some u
  inelNodup : ∀ u, (st.inel u).Nodup

theorem Inv.congr {G : EGraph} {l : List Event} {st st' : St} (h : Inv G l st) (h1 : st'.policy = st.policy)
    (h2 : st'.inel = st.inel) (h3 : st'.bad = st.bad) (h4 : st'.sink = st.sink) : Inv G l st' := by
  have hs : ∀ x, st'.succ x = st.succ x := fun x => by unfold St.succ; rw [h1, h3, h4]
  constructor
  · intro v; rw [h3]; exact h.bad v
  · intro v hv; rw [h3, h1]; exact h.good v hv
  · intro v; rw [h3, h4]; exact h.sink v
  · intro s; rw [h4, h3]; exact h.sinkBad s
  · intro u x; rw [h2, hs]; exact h.inel u x
  · intro u; rw [h2]; exact h.inelNodup u

theorem succ_bad {st : St} {x : Event} (h : st.bad x = true) : st.succ x = st.sink := by simp [St.succ, h]
theorem succ_good {st : St} {x : Event} (h : st.bad x = false) : st.succ x = (st.policy x).map fun e => e.dst := by
  simp [St.succ, h]

theorem constructVertex_inv (c : Cfg) {G : EGraph} {l : List Event} {st : St} (h : Inv G l st) {v : Event} (hv : v ∉ l) :
    Inv G (l ++ [v]) (constructVertex c G st v) := by
  have hbv : st.bad v = false := by
    cases hb : st.bad v with
    | false => rfl
    | true => exact absurd (h.bad v hb).1 hv
  have hne : ∀ x ∈ l, x ≠ v := fun x hx e => hv (e ▸ hx)
  rcases pick_mem c (G.out v) with ⟨ho, hp⟩ | ⟨e, he, hp⟩
  · -- no outgoing edge
    set s := st.sink.getD v with hs
    have e1 : constructVertex c G st v = { st with sink := some s, bad := Function.update st.bad v true, inel := Function.update st.inel s (st.inel s ++ [v]) } := by
      unfold constructVertex; rw [hp]
    rw [e1]
    have hsucc : ∀ x ∈ l, St.succ { st with sink := some s, bad := Function.update st.bad v true, inel := Function.update st.inel s (st.inel s ++ [v]) } x = st.succ x := by
      intro x hx
      unfold St.succ
      simp only [Function.update_of_ne (hne x hx)]
      cases hb : st.bad x with
      | false => rfl
      | true =>
        obtain ⟨s', hs'⟩ := h.sink x hb
        simp only [if_true]
        rw [hs, hs']; rfl
    have hsv : St.succ { st with sink := some s, bad := Function.update st.bad v true, inel := Function.update st.inel s (st.inel s ++ [v]) } v = some s := by
      unfold St.succ; simp
    constructor
    · intro x hx
      dsimp only at hx
      by_cases hxv : x = v
      · rw [hxv]; exact ⟨by simp, ho⟩
      · rw [Function.update_of_ne hxv] at hx
        exact ⟨by simp [(h.bad x hx).1], (h.bad x hx).2⟩
    · intro x hx hb
      dsimp only at hb ⊢
      by_cases hxv : x = v
      · rw [hxv] at hb; simp at hb
      · rw [Function.update_of_ne hxv] at hb
        exact h.good x (by simpa [hxv] using hx) hb
    · intro x _; exact ⟨s, rfl⟩
    · intro s' hs'
      simp only [Option.some.injEq] at hs'
      dsimp only
      rw [← hs']
      by_cases hsv' : s = v
      · rw [hsv']; simp
      · rw [Function.update_of_ne hsv']
        apply h.sinkBad
        rw [hs]
        cases hk : st.sink with
        | none => rw [hs, hk] at hsv'; simp at hsv'
        | some k => rfl
    · intro u x
      dsimp only
      by_cases hxv : x = v
      · have hnotin : ∀ u, v ∉ st.inel u := fun u hc => hv ((h.inel u v).mp hc).1
        rw [hxv, hsv]
        by_cases hus : u = s
        · rw [hus]; simp
        · rw [Function.update_of_ne hus]
          simp only [hnotin u, false_iff]
          intro hc; exact hus (by simpa using hc.2.symm)
      · have : x ∈ l ++ [v] ↔ x ∈ l := by simp [hxv]
        rw [this]
        by_cases hus : u = s
        · rw [hus, Function.update_self, List.mem_append, List.mem_singleton]
          simp only [hxv, or_false]
          rw [h.inel]
          constructor
          · rintro ⟨a, b⟩; exact ⟨a, by rw [hsucc x a]; exact b⟩
          · rintro ⟨a, b⟩; exact ⟨a, by rw [hsucc x a] at b; exact b⟩
        · rw [Function.update_of_ne hus, h.inel]
          constructor
          · rintro ⟨a, b⟩; exact ⟨a, by rw [hsucc x a]; exact b⟩
          · rintro ⟨a, b⟩; exact ⟨a, by rw [hsucc x a] at b; exact b⟩
    · intro u
      dsimp only
      by_cases hus : u = s
      · rw [hus, Function.update_self]
        refine List.Nodup.append (h.inelNodup s) (by simp) ?_
        intro a ha hb
        simp only [List.mem_singleton] at hb
        exact hv (hb ▸ ((h.inel s a).mp ha).1)
      · rw [Function.update_of_ne hus]; exact h.inelNodup u
  · obtain ⟨hecs, hesrc⟩ := mem_out.mp he
    have e1 : constructVertex c G st v = { st with inel := Function.update st.inel e.dst (st.inel e.dst ++ [v]), policy := Function.update st.policy v (some e) } := by
      unfold constructVertex; rw [hp]
    rw [e1]
    have hsucc : ∀ x ∈ l, St.succ { st with inel := Function.update st.inel e.dst (st.inel e.dst ++ [v]), policy := Function.update st.policy v (some e) } x = st.succ x := by
      intro x hx
      unfold St.succ
      simp only [Function.update_of_ne (hne x hx)]
    have hsv : St.succ { st with inel := Function.update st.inel e.dst (st.inel e.dst ++ [v]), policy := Function.update st.policy v (some e) } v = some e.dst := by
      unfold St.succ; simp [hbv]
    constructor
    · intro x hx; exact ⟨by simp [(h.bad x hx).1], (h.bad x hx).2⟩
    · intro x hx hb
      dsimp only at hb ⊢
      by_cases hxv : x = v
      · rw [hxv, Function.update_self]; exact ⟨e, rfl, hecs, hesrc⟩
      · rw [Function.update_of_ne hxv]
        exact h.good x (by simpa [hxv] using hx) hb
    · exact h.sink
    · exact h.sinkBad
    · intro u x
      dsimp only
      by_cases hxv : x = v
      · have hnotin : ∀ u, v ∉ st.inel u := fun u hc => hv ((h.inel u v).mp hc).1
        rw [hxv, hsv]
        by_cases hus : u = e.dst
        · rw [hus]; simp
        · rw [Function.update_of_ne hus]
          simp only [hnotin u, false_iff]
          intro hc; exact hus (by simpa using hc.2.symm)
      · have : x ∈ l ++ [v] ↔ x ∈ l := by simp [hxv]
        rw [this]
        by_cases hus : u = e.dst
        · rw [hus, Function.update_self, List.mem_append, List.mem_singleton]
          simp only [hxv, or_false]
          rw [h.inel]
          constructor
          · rintro ⟨a, b⟩; exact ⟨a, by rw [hsucc x a]; exact b⟩
          · rintro ⟨a, b⟩; exact ⟨a, by rw [hsucc x a] at b; exact b⟩
        · rw [Function.update_of_ne hus, h.inel]
          constructor
          · rintro ⟨a, b⟩; exact ⟨a, by rw [hsucc x a]; exact b⟩
          · rintro ⟨a, b⟩; exact ⟨a, by rw [hsucc x a] at b; exact b⟩
    · intro u
      dsimp only
      by_cases hus : u = e.dst
      · rw [hus, Function.update_self]
        refine List.Nodup.append (h.inelNodup _) (by simp) ?_
        intro a ha hb
        simp only [List.mem_singleton] at hb
        exact hv (hb ▸ ((h.inel _ a).mp ha).1)
      · rw [Function.update_of_ne hus]; exact h.inelNodup u

theorem constructVertex_keep (c : Cfg) (G : EGraph) (st : St) (v : Event) :
    (constructVertex c G st v).bound = st.bound ∧ (constructVertex c G st v).cr = st.cr ∧ (constructVertex c G st v).cc = st.cc := by
  unfold constructVertex; split <;> exact ⟨rfl, rfl, rfl⟩

theorem construct_inv (c : Cfg) {G : EGraph} (hG : WF G) (b : ℚ) :
    Inv G G.vs (construct c G b) ∧ (construct c G b).bound = b ∧ (construct c G b).cc = [] := by
  unfold construct
  suffices ∀ (l' l : List Event) (st : St), Inv G l st → (l ++ l').Nodup →
      Inv G (l ++ l') (l'.foldl (constructVertex c G) st) ∧ (l'.foldl (constructVertex c G) st).bound = st.bound ∧
        (l'.foldl (constructVertex c G) st).cc = st.cc by
    have h := this G.vs [] { dm := fun _ => 0, policy := fun _ => none, inel := fun _ => [], bad := fun _ => false, sink := none, bound := b, cr := b, cc := [] } (by constructor <;> simp) (by simpa using hG.nodup)
    simpa using h
  intro l'
  induction l' with
  | nil => intro l st h _; simp [h]
  | cons v l' ih =>
    intro l st h hnd
    have hv : v ∉ l := by
      intro hc
      have := List.nodup_append.mp hnd
      exact this.2.2 v hc v (by simp) rfl
    have h1 := constructVertex_inv c h hv
    have hk := constructVertex_keep c G st v
    have := ih (l ++ [v]) (constructVertex c G st v) h1 (by simpa using hnd)
    rw [List.append_assoc, List.singleton_append] at this
    simp only [List.foldl_cons]
    rw [hk.1, hk.2.2] at this
    exact this

/-! ### Walking in the policy graph -/

theorem succ_total {G : EGraph} (hG : WF G) {st : St} (h : Inv G G.vs st) {v : Event} (hv : v ∈ G.vs) :
    ∃ u ∈ G.vs, st.succ v = some u := by
  cases hb : st.bad v with
  | false =>
    obtain ⟨e, he, hcs, _⟩ := h.good v hv hb
    exact ⟨e.dst, (hG.ends e hcs).2, by rw [succ_good hb, he]; rfl⟩
  | true =>
    obtain ⟨s, hs⟩ := h.sink v hb
    exact ⟨s, (h.bad s (h.sinkBad s hs)).1, by rw [succ_bad hb, hs]⟩

/-- `k` steps in the policy graph. -/
def stepN (st : St) : ℕ → Event → Option Event
  | 0, v => some v
  | k + 1, v => (st.succ v).bind (stepN st k)

theorem stepN_add (st : St) (a b : ℕ) (v : Event) : stepN st (a + b) v = (stepN st a v).bind (stepN st b) := by
  induction a generalizing v with
  | zero => simp [stepN]
  | succ a ih =>
    rw [show a + 1 + b = (a + b) + 1 by omega]
    simp only [stepN]
    cases st.succ v with
    | none => rfl
    | some u => simp only [Option.bind_some]; exact ih u

theorem chain_step (st : St) (l : List Event) : ∀ v, List.IsChain (fun a b => st.succ b = some a) (v :: l) →
    ∀ x ∈ v :: l, ∃ k ≤ l.length, stepN st k x = some v := by
  induction l with
  | nil => intro v _ x hx; simp only [List.mem_singleton] at hx; exact ⟨0, by simp, by rw [hx]; rfl⟩
  | cons y l ih =>
    intro v h x hx
    rw [List.isChain_cons_cons] at h
    rcases List.mem_cons.mp hx with rfl | hx
    · exact ⟨0, by simp, rfl⟩
    · obtain ⟨k, hk, hs⟩ := ih y h.2 x hx
      refine ⟨k + 1, by simp only [List.length_cons]; omega, ?_⟩
      rw [stepN_add, hs]
      simp [stepN, h.1]

theorem nodup_length_le {l m : List Event} (hl : l.Nodup) (h : ∀ x ∈ l, x ∈ m) : l.length ≤ m.length :=
  (List.subperm_of_subset hl h).length_le

/-- `find_cycle_vertex` ends on a vertex of a cycle of the policy graph. -/
theorem findCycle_spec {G : EGraph} (hG : WF G) {st : St} (h : Inv G G.vs st) (n : ℕ) : ∀ (black : List Event) (v : Event),
    (v :: black).Nodup → (∀ x ∈ v :: black, x ∈ G.vs) → List.IsChain (fun a b => st.succ b = some a) (v :: black) →
    G.vs.length < n + black.length + 1 →
    ∃ g ∈ G.vs, findCycle st n black v = some g ∧ ∃ k < G.vs.length, stepN st (k + 1) g = some g := by
  induction n with
  | zero =>
    intro black v h1 h2 _ h4
    have := nodup_length_le h1 h2
    simp only [List.length_cons] at this; omega
  | succ n ih =>
    intro black v h1 h2 h3 h4
    obtain ⟨u, hu, hs⟩ := succ_total hG h (h2 v (by simp))
    have e : findCycle st (n + 1) black v = if u ∈ v :: black then some u else findCycle st n (v :: black) u := by
      conv_lhs => unfold findCycle
      rw [hs]; rfl
    rw [e]
    by_cases hm : u ∈ v :: black
    · rw [if_pos hm]
      obtain ⟨k, hk, hkv⟩ := chain_step st black v h3 u hm
      refine ⟨u, hu, rfl, k, ?_, ?_⟩
      · have := nodup_length_le h1 h2
        simp only [List.length_cons] at this; omega
      · rw [stepN_add, hkv]; simp [stepN, hs]
    · rw [if_neg hm]
      refine ih (v :: black) u ?_ ?_ ?_ ?_
      · exact List.nodup_cons.mpr ⟨hm, h1⟩
      · intro x hx
        rcases List.mem_cons.mp hx with rfl | hx
        · exact hu
        · exact h2 x hx
      · exact List.isChain_cons_cons.mpr ⟨hs, h3⟩
      · simp only [List.length_cons]; omega

theorem sink_stays {G : EGraph} {st : St} (h : Inv G G.vs st) {s : Event} (hs : st.sink = some s) (k : ℕ) :
    stepN st k s = some s := by
  induction k with
  | zero => rfl
  | succ k ih => simp [stepN, succ_bad (h.sinkBad s hs), hs, ih]

/-- The edges read by `cycle_ratio` form a walk back to the vertex. -/
theorem cycleEdges_spec {G : EGraph} (hG : WF G) {st : St} (h : Inv G G.vs st) {sv : Event} (hsv : st.sink ≠ some sv) (k : ℕ) :
    ∀ (n : ℕ) (v : Event), v ∈ G.vs → k < n → stepN st (k + 1) v = some sv →
    ∃ l, cycleEdges st sv n v = some l ∧ l ≠ [] ∧ IsWalk G.cs v l sv := by
  induction k with
  | zero =>
    intro n v hv hn hk
    cases n with
    | zero => omega
    | succ n =>
      have hb : st.bad v = false := by
        cases hb : st.bad v with
        | false => rfl
        | true =>
          obtain ⟨s, hs⟩ := h.sink v hb
          simp only [stepN, succ_bad hb, hs, Option.bind_some, Option.some.injEq] at hk
          exact absurd (hk ▸ hs) hsv
      obtain ⟨e, he, hcs, hsrc⟩ := h.good v hv hb
      simp only [stepN, succ_good hb, he, Option.map_some, Option.bind_some, Option.some.injEq] at hk
      exact ⟨[e], by unfold cycleEdges; rw [he]; simp [hk], by simp, ⟨hcs, hsrc, hk⟩⟩
  | succ k ih =>
    intro n v hv hn hk
    cases n with
    | zero => omega
    | succ n =>
      have hb : st.bad v = false := by
        cases hb : st.bad v with
        | false => rfl
        | true =>
          obtain ⟨s, hs⟩ := h.sink v hb
          rw [stepN, succ_bad hb, hs, Option.bind_some, sink_stays h hs] at hk
          simp only [Option.some.injEq] at hk
          exact absurd (hk ▸ hs) hsv
      obtain ⟨e, he, hcs, hsrc⟩ := h.good v hv hb
      rw [stepN, succ_good hb, he, Option.map_some, Option.bind_some] at hk
      by_cases hd : e.dst = sv
      · exact ⟨[e], by unfold cycleEdges; rw [he]; simp [hd], by simp, ⟨hcs, hsrc, hd⟩⟩
      · obtain ⟨l, h1, h2, h3⟩ := ih n e.dst (hG.ends e hcs).2 (by omega) hk
        refine ⟨e :: l, ?_, by simp, ⟨hcs, hsrc, h3⟩⟩
        unfold cycleEdges; rw [he]; simp [hd, h1]

theorem cycleEdges_length {st : St} {sv : Event} {n : ℕ} : ∀ {v : Event} {l : List EvConstraint},
    cycleEdges st sv n v = some l → l.length ≤ n := by
  induction n with
  | zero => intro v l h; simp [cycleEdges] at h
  | succ n ih =>
    intro v l h
    unfold cycleEdges at h
    cases he : st.policy v with
    | none => rw [he] at h; simp at h
    | some e =>
      rw [he] at h
      simp only [Option.bind_eq_bind, Option.bind_some] at h
      split at h
      · cases h; simp
      · cases hl : cycleEdges st sv n e.dst with
        | none => rw [hl] at h; simp at h
        | some l' =>
          rw [hl] at h
          simp only [Option.bind_some, Option.some.injEq] at h
          rw [← h]; simpa using ih hl

theorem visit_total {G : EGraph} {st : St} (h : Inv G G.vs st) (cr : ℚ) (v : Event) (ch : List Event) :
    ∀ (dm : Event → ℚ), (∀ x ∈ ch, x ∈ G.vs) → ∃ dm', ch.foldlM (visitDist st cr v) dm = some dm' := by
  induction ch with
  | nil => intro dm _; exact ⟨dm, rfl⟩
  | cons x ch ih =>
    intro dm hx
    have : ∃ d1, visitDist st cr v dm x = some d1 := by
      unfold visitDist
      cases hb : st.bad x with
      | true => exact ⟨_, rfl⟩
      | false =>
        obtain ⟨e, he, _⟩ := h.good x (hx x (by simp)) hb
        rw [he]; exact ⟨_, rfl⟩
    obtain ⟨d1, hd1⟩ := this
    obtain ⟨d2, hd2⟩ := ih d1 (fun y hy => hx y (by simp [hy]))
    exact ⟨d2, by rw [List.foldlM_cons, hd1]; exact hd2⟩

/-- `mcr_bfv` ends: every vertex enters the queue at most once. -/
theorem bfv_total {G : EGraph} {st : St} (h : Inv G G.vs st) (sv : Event) (cr : ℚ) (n : ℕ) :
    ∀ (q done : List Event) (dm : Event → ℚ) (black : List Event), (done ++ q).Nodup → (∀ x ∈ done ++ q, x ∈ G.vs) →
    (∀ x ∈ done ++ q, x = sv ∨ ∃ y ∈ done, st.succ x = some y) → G.vs.length ≤ n + done.length →
    ∃ r, bfv st sv cr n q dm black = some r := by
  induction n with
  | zero =>
    intro q done dm black h1 h2 _ h4
    cases q with
    | nil => exact ⟨(dm, black), by unfold bfv; rfl⟩
    | cons v q =>
      have := nodup_length_le h1 h2
      simp only [List.length_append, List.length_cons] at this; omega
  | succ n ih =>
    intro q done dm black h1 h2 h3 h4
    cases q with
    | nil => exact ⟨(dm, black), by unfold bfv; rfl⟩
    | cons v q =>
      set ch := (st.inel v).filter fun x => x ≠ sv with hch
      have hin : ∀ x ∈ ch, x ∈ G.vs ∧ st.succ x = some v ∧ x ≠ sv := by
        intro x hx
        rw [hch, List.mem_filter] at hx
        have := (h.inel v x).mp hx.1
        exact ⟨this.1, this.2, by simpa using hx.2⟩
      obtain ⟨d1, hd1⟩ := visit_total h cr v ch dm (fun x hx => (hin x hx).1)
      have hvd : v ∉ done := by
        intro hc
        have := List.nodup_append.mp h1
        exact this.2.2 v hc v (by simp) rfl
      have hnew : ∀ x ∈ ch, x ∉ done ++ v :: q := by
        intro x hx hc
        rcases h3 x hc with e | ⟨y, hy, e⟩
        · exact (hin x hx).2.2 e
        · rw [(hin x hx).2.1] at e
          simp only [Option.some.injEq] at e
          exact hvd (e ▸ hy)
      obtain ⟨r, hr⟩ := ih (q ++ ch) (done ++ [v]) d1 (ch ++ black) (by
          have : done ++ [v] ++ (q ++ ch) = (done ++ v :: q) ++ ch := by simp
          rw [this]
          refine List.Nodup.append h1 ((h.inelNodup v).filter _) ?_
          intro a ha hb; exact hnew a hb ha) (by
          intro x hx
          have : x ∈ done ++ v :: q ∨ x ∈ ch := by
            simp only [List.mem_append, List.mem_cons, List.not_mem_nil, or_false] at hx ⊢; tauto
          rcases this with h | h
          · exact h2 x h
          · exact (hin x h).1) (by
          intro x hx
          have : x ∈ done ++ v :: q ∨ x ∈ ch := by
            simp only [List.mem_append, List.mem_cons, List.not_mem_nil, or_false] at hx ⊢; tauto
          rcases this with h | h
          · rcases h3 x h with e | ⟨y, hy, e⟩
            · exact Or.inl e
            · exact Or.inr ⟨y, by simp [hy], e⟩
          · exact Or.inr ⟨v, by simp, (hin x h).2.1⟩) (by simp only [List.length_append, List.length_singleton]; omega)
      refine ⟨r, ?_⟩
      unfold bfv
      simp only [← hch, hd1, Option.bind_eq_bind, Option.bind_some]
      exact hr

/-! ### The critical circuit -/

/-- The stored circuit explains the value `v`: either nothing better than the initial bound `b` was found, or the
circuit is a closed walk of ratio `v`. -/
def Explains (G : EGraph) (b v : ℚ) (cc : List EvConstraint) : Prop :=
  (cc = [] ∧ v = b) ∨ (cc ≠ [] ∧ totalD cc ≠ 0 ∧ v = totalW cc / totalD cc ∧ (∃ u, IsWalk G.cs u cc u) ∧
    cc.length ≤ G.vs.length + 1)

/-- Invariant of `policy_mcr`. -/
structure PInv (c : Cfg) (G : EGraph) (b : ℚ) (s : St × List Event × ℚ) : Prop where
  inv : Inv G G.vs s.1
  cr : s.1.cr = s.2.2
  le : c.mult * s.2.2 ≤ c.mult * s.1.bound
  expl : Explains G b s.2.2 s.1.cc

theorem policyStep_spec (c : Cfg) {G : EGraph} (hG : WF G) (hz : NoNullCircuit G) {b : ℚ} {s : St × List Event × ℚ}
    (h : PInv c G b s) {v : Event} (hv : v ∈ G.vs) :
    ∃ s', policyStep c G s v = some s' ∧ PInv c G b s' ∧ s'.1.bound = s.1.bound := by
  unfold policyStep
  by_cases hm : v ∈ s.2.1
  · rw [if_pos hm]; exact ⟨s, rfl, h, rfl⟩
  rw [if_neg hm]
  obtain ⟨g, hg, hfc, k, hk, hkg⟩ := findCycle_spec hG h.inv (G.vs.length + 1) [] v (by simp) (by simpa using hv) (by simp) (by simp only [List.length_nil]; omega)
  by_cases hs : s.1.sink = some g
  · have hr : cycleRatio c s.1 (G.vs.length + 1) g = some (s.1.bound, s.1) := by unfold cycleRatio; rw [if_pos hs]
    obtain ⟨r, hb⟩ := bfv_total h.inv g s.1.bound (G.vs.length + 1) [g] [] s.1.dm (g :: s.2.1) (by simp) (by simpa using hg) (by simp) (by simp)
    have hc : c.cmp s.2.2 s.1.bound = false := by
      cases hc : c.cmp s.2.2 s.1.bound with
      | false => rfl
      | true => rw [cmp_iff] at hc; have := h.le; linarith
    refine ⟨({ s.1 with dm := r.1 }, r.2, s.2.2), ?_, ⟨h.inv.congr rfl rfl rfl rfl, h.cr, h.le, h.expl⟩, rfl⟩
    simp only [hfc, hr, hb, hc, Option.bind_eq_bind, Option.bind_some]; rfl
  · obtain ⟨l, hl, hne, hw⟩ := cycleEdges_spec hG h.inv hs k (G.vs.length + 1) g hg (by omega) hkg
    have hD : totalD l ≠ 0 := hz l ⟨hne, g, hw⟩
    have hr : cycleRatio c s.1 (G.vs.length + 1) g =
        some (totalW l / totalD l, if c.cmp s.1.cr (totalW l / totalD l) then { s.1 with cr := totalW l / totalD l, cc := l } else s.1) := by
      unfold cycleRatio; rw [if_neg hs, hl]
      simp only [Option.bind_eq_bind, Option.bind_some]
      rw [if_neg (show ¬ (l.map fun e => e.d).sum = 0 from hD)]; rfl
    set st1 := if c.cmp s.1.cr (totalW l / totalD l) then { s.1 with cr := totalW l / totalD l, cc := l } else s.1 with hst1
    have hinv1 : Inv G G.vs st1 := by
      rw [hst1]; split
      · exact h.inv.congr rfl rfl rfl rfl
      · exact h.inv
    have hb1 : st1.bound = s.1.bound := by rw [hst1]; split <;> rfl
    obtain ⟨r, hb⟩ := bfv_total hinv1 g (totalW l / totalD l) (G.vs.length + 1) [g] [] st1.dm (g :: s.2.1) (by simp) (by simpa using hg) (by simp) (by simp)
    refine ⟨({ st1 with dm := r.1 }, r.2, if c.cmp s.2.2 (totalW l / totalD l) then totalW l / totalD l else s.2.2), ?_, ⟨hinv1.congr rfl rfl rfl rfl, ?_, ?_, ?_⟩, hb1⟩
    · simp only [hfc, hr, hb, Option.bind_eq_bind, Option.bind_some]
    · dsimp only; rw [hst1, h.cr]; split
      · rfl
      · exact h.cr
    · dsimp only; rw [hb1]; split
      · rename_i hc; rw [cmp_iff] at hc; have := h.le; linarith
      · exact h.le
    · dsimp only; rw [hst1, h.cr]; split
      · exact Or.inr ⟨hne, hD, rfl, ⟨g, hw⟩, cycleEdges_length hl⟩
      · exact h.expl

theorem policyMcr_spec (c : Cfg) {G : EGraph} (hG : WF G) (hz : NoNullCircuit G) {b : ℚ} {st : St}
    (hi : Inv G G.vs st) (he : Explains G b st.bound st.cc) :
    ∃ r, policyMcr c G st = some r ∧ Inv G G.vs r.1 ∧ Explains G b r.2 r.1.cc ∧ c.mult * r.2 ≤ c.mult * st.bound ∧ r.1.bound = st.bound := by
  unfold policyMcr
  suffices ∀ (l : List Event) (s : St × List Event × ℚ), (∀ x ∈ l, x ∈ G.vs) → PInv c G b s →
      ∃ s', l.foldlM (policyStep c G) s = some s' ∧ PInv c G b s' ∧ s'.1.bound = s.1.bound by
    obtain ⟨s', h1, h2, h3⟩ := this G.vs ({ st with cr := st.bound }, [], st.bound) (fun _ h => h)
      ⟨hi.congr rfl rfl rfl rfl, rfl, le_refl _, he⟩
    refine ⟨(s'.1, s'.2.2), ?_, h2.inv, h2.expl, ?_, h3⟩
    · rw [h1]; rfl
    · have := h2.le; rw [h3] at this; exact this
  intro l
  induction l with
  | nil => intro s _ h; exact ⟨s, rfl, h, rfl⟩
  | cons v l ih =>
    intro s hl h
    obtain ⟨s1, e1, h1, b1⟩ := policyStep_spec c hG hz h (hl v (by simp))
    obtain ⟨s2, e2, h2, b2⟩ := ih s1 (fun x hx => hl x (by simp [hx])) h1
    exact ⟨s2, by rw [List.foldlM_cons, e1]; exact e2, h2, by rw [b2, b1]⟩

/-! ### Improvement of the policy -/

theorem improvePolicy_spec {G : EGraph} {st : St} (h : Inv G G.vs st) {v : Event} (hv : v ∈ G.vs)
    (hb : st.bad v = false) {e : EvConstraint} (he : e ∈ G.out v) :
    ∃ st', improvePolicy st v e = some st' ∧ Inv G G.vs st' ∧ st'.bound = st.bound ∧ st'.cr = st.cr ∧ st'.cc = st.cc ∧
      st'.dm = st.dm ∧ st'.bad = st.bad ∧ st'.sink = st.sink := by
  obtain ⟨hecs, hesrc⟩ := mem_out.mp he
  obtain ⟨old, ho, hocs, hosrc⟩ := h.good v hv hb
  have hmem : v ∈ st.inel old.dst := (h.inel _ _).mpr ⟨hv, by rw [succ_good hb, ho]; rfl⟩
  set inel' := Function.update st.inel old.dst ((st.inel old.dst).erase v) with hinel'
  have e1 : improvePolicy st v e = some { st with policy := Function.update st.policy v (some e), inel := Function.update inel' e.dst (inel' e.dst ++ [v]) } := by
    unfold improvePolicy
    rw [ho]
    simp only [Option.bind_eq_bind, Option.bind_some, if_pos hmem, hinel']
  refine ⟨_, e1, ?_, rfl, rfl, rfl, rfl, rfl, rfl⟩
  have hin' : ∀ u x, x ∈ inel' u ↔ x ∈ st.inel u ∧ x ≠ v := by
    intro u x
    rw [hinel']
    by_cases hu : u = old.dst
    · rw [hu, Function.update_self, (h.inelNodup old.dst).mem_erase_iff]; tauto
    · rw [Function.update_of_ne hu]
      constructor
      · intro hx
        refine ⟨hx, ?_⟩
        rintro rfl
        have := ((h.inel u x).mp hx).2
        rw [succ_good hb, ho] at this
        exact hu (by simpa using this.symm)
      · exact fun hx => hx.1
  have hnd' : ∀ u, (inel' u).Nodup := by
    intro u
    rw [hinel']
    by_cases hu : u = old.dst
    · rw [hu, Function.update_self]; exact (h.inelNodup _).erase _
    · rw [Function.update_of_ne hu]; exact h.inelNodup u
  have hsucc : ∀ x, x ≠ v → St.succ { st with policy := Function.update st.policy v (some e), inel := Function.update inel' e.dst (inel' e.dst ++ [v]) } x = st.succ x := by
    intro x hx; unfold St.succ; simp only [Function.update_of_ne hx]
  have hsv : St.succ { st with policy := Function.update st.policy v (some e), inel := Function.update inel' e.dst (inel' e.dst ++ [v]) } v = some e.dst := by
    unfold St.succ; simp [hb]
  constructor
  · exact h.bad
  · intro x hx hbx
    dsimp only at hbx ⊢
    by_cases hxv : x = v
    · rw [hxv, Function.update_self]; exact ⟨e, rfl, hecs, hesrc⟩
    · rw [Function.update_of_ne hxv]; exact h.good x hx hbx
  · exact h.sink
  · exact h.sinkBad
  · intro u x
    dsimp only
    by_cases hxv : x = v
    · rw [hxv, hsv]
      have hnv : ∀ u, v ∉ inel' u := fun u hc => ((hin' u v).mp hc).2 rfl
      by_cases hu : u = e.dst
      · rw [hu]; simp [hv]
      · rw [Function.update_of_ne hu]
        simp only [hnv u, false_iff]
        intro hc; exact hu (by simpa using hc.2.symm)
    · rw [hsucc x hxv]
      by_cases hu : u = e.dst
      · rw [hu, Function.update_self, List.mem_append, List.mem_singleton, hin', h.inel]; simp [hxv]
      · rw [Function.update_of_ne hu, hin', h.inel]; simp [hxv]
  · intro u
    dsimp only
    by_cases hu : u = e.dst
    · rw [hu, Function.update_self]
      refine List.Nodup.append (hnd' _) (by simp) ?_
      intro a ha hb'
      simp only [List.mem_singleton] at hb'
      exact ((hin' _ a).mp ha).2 hb'
    · rw [Function.update_of_ne hu]; exact hnd' u

/-- No outgoing edge of `v` improves its distance by more than the tolerance. -/
def Settled (c : Cfg) (cr : ℚ) (dm : Event → ℚ) (e : EvConstraint) : Prop :=
  c.mult * dm e.src ≤ c.mult * (e.w - e.d * cr + dm e.dst) + c.eps * improveRatio

theorem mult_sq (c : Cfg) : c.mult * c.mult = 1 := by unfold Cfg.mult; cases c.isMin <;> simp

/-- Effect of an improvement step: the policy stays consistent and, if nothing improved, distances of the vertices with
edges have not changed. -/
structure Imp (G : EGraph) (s s' : St × Bool) : Prop where
  inv : Inv G G.vs s'.1
  bound : s'.1.bound = s.1.bound
  cc : s'.1.cc = s.1.cc
  bad : s'.1.bad = s.1.bad
  same : s'.2 = false → s.2 = false ∧ ∀ v, s.1.bad v = false → s'.1.dm v = s.1.dm v

theorem Imp.trans {G : EGraph} {a b c : St × Bool} (h1 : Imp G a b) (h2 : Imp G b c) : Imp G a c :=
  ⟨h2.inv, h2.bound.trans h1.bound, h2.cc.trans h1.cc, h2.bad.trans h1.bad, fun h => by
    obtain ⟨hb, d2⟩ := h2.same h
    obtain ⟨ha, d1⟩ := h1.same hb
    exact ⟨ha, fun v hv => (d2 v (by rw [h1.bad]; exact hv)).trans (d1 v hv)⟩⟩

theorem tryEdge_spec (c : Cfg) {G : EGraph} (cr : ℚ) {s : St × Bool} (h : Inv G G.vs s.1) {v : Event} (hv : v ∈ G.vs)
    (hb : s.1.bad v = false) {e : EvConstraint} (he : e ∈ G.out v) :
    ∃ s', tryEdge c cr v s e = some s' ∧ Imp G s s' ∧ (s'.2 = false → Settled c cr s.1.dm e) := by
  have hsrc := (mem_out.mp he).2
  unfold tryEdge
  dsimp only
  by_cases hc : c.cmp (s.1.dm v - c.eps * c.mult * improveRatio) (e.w - e.d * cr + s.1.dm e.dst) = true
  · rw [if_pos hc]
    obtain ⟨st, e1, h1, h2, h3, h4, h5, h6, h7⟩ := improvePolicy_spec h hv hb he
    rw [e1]
    refine ⟨_, rfl, ⟨h1.congr rfl rfl rfl rfl, h2, h4, h6, by simp⟩, by simp⟩
  · rw [if_neg hc]
    refine ⟨s, rfl, ⟨h, rfl, rfl, rfl, fun hs => ⟨hs, fun _ _ => rfl⟩⟩, fun _ => ?_⟩
    rw [cmp_iff] at hc
    unfold Settled
    rw [hsrc]
    have := mult_sq c
    have e2 : c.mult * (s.1.dm v - c.eps * c.mult * improveRatio) = c.mult * s.1.dm v - c.eps * improveRatio := by
      rw [mul_sub, show c.mult * (c.eps * c.mult * improveRatio) = (c.mult * c.mult) * (c.eps * improveRatio) by ring, this]; ring
    rw [e2] at hc
    linarith [not_lt.mp hc]

theorem tryEdges_spec (c : Cfg) {G : EGraph} (cr : ℚ) {v : Event} (hv : v ∈ G.vs) (l : List EvConstraint) :
    ∀ s : St × Bool, Inv G G.vs s.1 → s.1.bad v = false → (∀ e ∈ l, e ∈ G.out v) →
    ∃ s', l.foldlM (tryEdge c cr v) s = some s' ∧ Imp G s s' ∧
      (s'.2 = false → ∀ e ∈ l, s.1.bad e.dst = false → Settled c cr s.1.dm e) := by
  induction l with
  | nil => intro s h hb _; exact ⟨s, rfl, ⟨h, rfl, rfl, rfl, fun hs => ⟨hs, fun _ _ => rfl⟩⟩, by simp⟩
  | cons e l ih =>
    intro s h hb hl
    obtain ⟨s1, e1, i1, p1⟩ := tryEdge_spec c cr h hv hb (hl e (by simp))
    obtain ⟨s2, e2, i2, p2⟩ := ih s1 i1.inv (by rw [i1.bad]; exact hb) (fun x hx => hl x (by simp [hx]))
    refine ⟨s2, by rw [List.foldlM_cons, e1]; exact e2, i1.trans i2, ?_⟩
    intro hs x hx hxb
    obtain ⟨hs1, -⟩ := i2.same hs
    rcases List.mem_cons.mp hx with rfl | hx
    · exact p1 hs1
    · have hsrc : x.src = v := (mem_out.mp (hl x (by simp [hx]))).2
      have := p2 hs x hx (by rw [i1.bad]; exact hxb)
      unfold Settled at this ⊢
      rw [hsrc] at this ⊢
      rw [(i1.same hs1).2 v hb, (i1.same hs1).2 x.dst hxb] at this
      exact this

theorem tryVertex_spec (c : Cfg) {G : EGraph} (cr : ℚ) {s : St × Bool} (h : Inv G G.vs s.1) {v : Event} (hv : v ∈ G.vs) :
    ∃ s', tryVertex c G cr s v = some s' ∧ Imp G s s' ∧
      (s'.2 = false → ∀ e ∈ G.out v, s.1.bad e.dst = false → Settled c cr s.1.dm e) := by
  unfold tryVertex
  cases hb : s.1.bad v with
  | true =>
    obtain ⟨k, hk⟩ := h.sink v hb
    have hout := (h.bad v hb).2
    simp only [if_true, hk, Option.bind_eq_bind, Option.bind_some]
    split
    · refine ⟨_, rfl, ⟨h.congr rfl rfl rfl hk.symm, rfl, rfl, rfl, fun hs => ⟨hs, fun u hu => ?_⟩⟩, by rw [hout]; simp⟩
      dsimp only
      rw [Function.update_of_ne]
      rintro rfl
      rw [hb] at hu; simp at hu
    · exact ⟨s, rfl, ⟨h, rfl, rfl, rfl, fun hs => ⟨hs, fun _ _ => rfl⟩⟩, by rw [hout]; simp⟩
  | false =>
    simp only [Bool.false_eq_true, if_false]
    exact tryEdges_spec c cr hv (G.out v) s h hb (fun _ he => he)

theorem tryImprove_spec (c : Cfg) {G : EGraph} (cr : ℚ) {st : St} (h : Inv G G.vs st) :
    ∃ s', tryImprove c G cr st = some s' ∧ Imp G (st, false) s' ∧
      (s'.2 = false → ∀ v ∈ G.vs, ∀ e ∈ G.out v, st.bad v = false → st.bad e.dst = false → Settled c cr st.dm e) := by
  unfold tryImprove
  suffices ∀ (l : List Event) (s : St × Bool), (∀ x ∈ l, x ∈ G.vs) → Inv G G.vs s.1 →
      ∃ s', l.foldlM (tryVertex c G cr) s = some s' ∧ Imp G s s' ∧
        (s'.2 = false → ∀ v ∈ l, ∀ e ∈ G.out v, s.1.bad v = false → s.1.bad e.dst = false → Settled c cr s.1.dm e) from
    this G.vs (st, false) (fun _ h => h) h
  intro l
  induction l with
  | nil => intro s _ h; exact ⟨s, rfl, ⟨h, rfl, rfl, rfl, fun hs => ⟨hs, fun _ _ => rfl⟩⟩, by simp⟩
  | cons v l ih =>
    intro s hl h
    obtain ⟨s1, e1, i1, p1⟩ := tryVertex_spec c cr h (hl v (by simp))
    obtain ⟨s2, e2, i2, p2⟩ := ih s1 (fun x hx => hl x (by simp [hx])) i1.inv
    refine ⟨s2, by rw [List.foldlM_cons, e1]; exact e2, i1.trans i2, ?_⟩
    intro hs u hu e he hbu hbe
    obtain ⟨hs1, -⟩ := i2.same hs
    rcases List.mem_cons.mp hu with rfl | hu
    · exact p1 hs1 e he hbe
    · have := p2 hs u hu e he (by rw [i1.bad]; exact hbu) (by rw [i1.bad]; exact hbe)
      have hsrc := (mem_out.mp he).2
      unfold Settled at this ⊢
      rw [hsrc] at this ⊢
      rw [(i1.same hs1).2 u hbu, (i1.same hs1).2 e.dst hbe] at this
      exact this

/-- Every closed walk is, up to the tolerance, no better than `cr`. -/
def Certified (c : Cfg) (G : EGraph) (cr : ℚ) : Prop :=
  ∀ u p, IsWalk G.cs u p u → 0 ≤ c.mult * (totalW p - cr * totalD p) + c.eps * improveRatio * p.length

theorem walk_settled (c : Cfg) {G : EGraph} {cr : ℚ} {dm : Event → ℚ} (p : List EvConstraint) : ∀ u v : Event,
    IsWalk G.cs u p v → (∀ e ∈ p, Settled c cr dm e) →
    c.mult * dm u ≤ c.mult * (totalW p - cr * totalD p) + c.mult * dm v + c.eps * improveRatio * p.length := by
  induction p with
  | nil => intro u v h _; simp only [IsWalk] at h; rw [h]; simp [totalW, totalD]
  | cons e p ih =>
    intro u v h hs
    obtain ⟨_, hsrc, hw⟩ := h
    have h1 := ih e.dst v hw (fun x hx => hs x (by simp [hx]))
    have h2 := hs e (by simp)
    unfold Settled at h2
    rw [hsrc] at h2
    simp only [totalW, totalD, List.map_cons, List.sum_cons, List.length_cons] at h1 ⊢
    push_cast at h1 ⊢
    have : c.mult * (e.w + (List.map (fun c => c.w) p).sum - cr * (e.d + (List.map (fun c => c.d) p).sum)) =
      c.mult * (e.w - e.d * cr) + c.mult * ((List.map (fun c => c.w) p).sum - cr * (List.map (fun c => c.d) p).sum) := by ring
    rw [this]
    have h3 : c.mult * (e.w - e.d * cr + dm e.dst) = c.mult * (e.w - e.d * cr) + c.mult * dm e.dst := by ring
    rw [h3] at h2
    linarith

theorem walk_srcs {cs : List EvConstraint} (p : List EvConstraint) : ∀ u v : Event, IsWalk cs u p v →
    ∀ e ∈ p, e ∈ cs ∧ (e.dst = v ∨ ∃ f ∈ p, f.src = e.dst) := by
  induction p with
  | nil => intro u v _ e he; simp at he
  | cons x p ih =>
    intro u v h e he
    obtain ⟨hcs, hsrc, hw⟩ := h
    rcases List.mem_cons.mp he with rfl | he
    · refine ⟨hcs, ?_⟩
      cases p with
      | nil => left; exact hw
      | cons y p => right; exact ⟨y, by simp, hw.2.1⟩
    · obtain ⟨h1, h2⟩ := ih x.dst v hw e he
      refine ⟨h1, ?_⟩
      rcases h2 with h2 | ⟨f, hf, h2⟩
      · exact Or.inl h2
      · exact Or.inr ⟨f, by simp [hf], h2⟩

theorem certified_of_settled (c : Cfg) {G : EGraph} (hG : WF G) {cr : ℚ} {st : St} (hi : Inv G G.vs st)
    (h : ∀ v ∈ G.vs, ∀ e ∈ G.out v, st.bad v = false → st.bad e.dst = false → Settled c cr st.dm e) : Certified c G cr := by
  intro u p hp
  cases p with
  | nil => simp [totalW, totalD]
  | cons x p =>
    have hgood : ∀ e ∈ G.cs, st.bad e.src = false := by
      intro e he
      cases hb : st.bad e.src with
      | false => rfl
      | true =>
        have := (hi.bad _ hb).2
        have hm : e ∈ G.out e.src := mem_out.mpr ⟨he, rfl⟩
        rw [this] at hm; simp at hm
    have hall : ∀ e ∈ x :: p, Settled c cr st.dm e := by
      intro e he
      obtain ⟨hcs, hd⟩ := walk_srcs _ _ _ hp e he
      refine h e.src (hG.ends e hcs).1 e (mem_out.mpr ⟨hcs, rfl⟩) (hgood e hcs) ?_
      rcases hd with hd | ⟨f, hf, hd⟩
      · rw [hd, ← hp.2.1]; exact hgood x hp.1
      · rw [← hd]; exact hgood f (walk_srcs _ _ _ hp f hf).1
    have := walk_settled c (x :: p) u u hp hall
    linarith

/-! ### The main loop -/

theorem loop_spec (c : Cfg) {G : EGraph} (hG : WF G) (hz : NoNullCircuit G) (b : ℚ) (n : ℕ) : ∀ st : St, Inv G G.vs st →
    Explains G b st.bound st.cc → c.mult * st.bound ≤ c.mult * b →
    ∃ r, loop c G (n + 1) st = some r ∧ Explains G b r.2.1 r.1.cc ∧ c.mult * r.2.1 ≤ c.mult * b ∧
      (r.2.2 = false → Certified c G r.2.1) := by
  induction n with
  | zero =>
    intro st hi he hb
    obtain ⟨r, e1, h1, h2, h3, h4⟩ := policyMcr_spec c hG hz hi he
    have h1' : Inv G G.vs { r.1 with bound := r.2 } := h1.congr rfl rfl rfl rfl
    obtain ⟨t, e2, i2, p2⟩ := tryImprove_spec c r.2 h1'
    refine ⟨(t.1, r.2, t.2), ?_, ?_, by linarith, fun ht => certified_of_settled c hG h1' (p2 ht)⟩
    · unfold loop
      simp only [e1, e2, Option.bind_eq_bind, Option.bind_some]
      simp
    · have := i2.cc; dsimp only at this ⊢; rw [this]; exact h2
  | succ n ih =>
    intro st hi he hb
    obtain ⟨r, e1, h1, h2, h3, h4⟩ := policyMcr_spec c hG hz hi he
    have h1' : Inv G G.vs { r.1 with bound := r.2 } := h1.congr rfl rfl rfl rfl
    obtain ⟨t, e2, i2, p2⟩ := tryImprove_spec c r.2 h1'
    have hcc : t.1.cc = r.1.cc := i2.cc
    have hbd : t.1.bound = r.2 := i2.bound
    cases ht : t.2 with
    | true =>
      obtain ⟨q, e3, p3⟩ := ih t.1 i2.inv (by rw [hcc, hbd]; exact h2) (by rw [hbd]; linarith)
      refine ⟨q, ?_, p3⟩
      conv_lhs => unfold loop
      simp only [e1, e2, Option.bind_eq_bind, Option.bind_some, ht]
      simpa using e3
    | false =>
      refine ⟨(t.1, r.2, t.2), ?_, ?_, by linarith, fun ht => certified_of_settled c hG h1' (p2 ht)⟩
      · unfold loop
        simp only [e1, e2, Option.bind_eq_bind, Option.bind_some, ht]
        simp
      · dsimp only; rw [hcc]; exact h2

end Howard
end Kiter
