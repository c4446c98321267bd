/-
C117: the strongly connected components of an event graph.
-/
import Verif.Lemmas.Tarjan

set_option autoImplicit false

namespace Kiter.Tarjan

theorem assignEvents_spec (scc : Nat → Nat) : ∀ (l : List (Event × Nat)) (m : Nat → Option Graph) (k : Nat),
    assignEvents scc l m k =
      if ∃ e ∈ l, scc e.2 = k then
        some ⟨((m k).getD ⟨[], []⟩).events ++ (l.filter fun e => scc e.2 = k).map Prod.fst, ((m k).getD ⟨[], []⟩).edges⟩
      else m k
  | [], m, k => by simp [assignEvents]
  | e :: l, m, k => by
    have ih := assignEvents_spec scc l
      (Function.update m (scc e.2) (some (addEvent ((m (scc e.2)).getD ⟨[], []⟩) e.1))) k
    have hu : assignEvents scc (e :: l) m = assignEvents scc l
      (Function.update m (scc e.2) (some (addEvent ((m (scc e.2)).getD ⟨[], []⟩) e.1))) := rfl
    rw [hu, ih]
    by_cases hk : scc e.2 = k
    · subst hk
      rw [Function.update_self, if_pos (⟨e, List.mem_cons_self, rfl⟩ : ∃ x ∈ e :: l, scc x.2 = scc e.2)]
      by_cases hl : ∃ x ∈ l, scc x.2 = scc e.2
      · rw [if_pos hl]
        simp [addEvent]
      · rw [if_neg hl]
        have : l.filter (fun x => decide (scc x.2 = scc e.2)) = [] := by
          rw [List.filter_eq_nil_iff]
          intro x hx hc
          exact hl ⟨x, hx, by simpa using hc⟩
        simp [addEvent, this]
    · rw [Function.update_of_ne (Ne.symm hk)]
      have h1 : (∃ x ∈ e :: l, scc x.2 = k) ↔ ∃ x ∈ l, scc x.2 = k := by
        constructor
        · rintro ⟨x, hx, he⟩
          rcases List.mem_cons.1 hx with rfl | hx
          · exact absurd he hk
          · exact ⟨x, hx, he⟩
        · rintro ⟨x, hx, he⟩; exact ⟨x, List.mem_cons_of_mem _ hx, he⟩
      by_cases hl : ∃ x ∈ l, scc x.2 = k
      · rw [if_pos hl, if_pos (h1.2 hl)]
        simp [hk]
      · rw [if_neg hl, if_neg fun hc => hl (h1.1 hc)]

theorem vertexOf_spec {g : Graph} {e : Event} (he : e ∈ g.events) :
    vertexOf g e < g.events.length ∧ g.events[vertexOf g e]? = some e := by
  have hr : e ∈ g.events.reverse := List.mem_reverse.2 he
  have h1 : g.events.reverse.idxOf e < g.events.reverse.length := List.idxOf_lt_length_of_mem hr
  have h2 : g.events.reverse[g.events.reverse.idxOf e]? = some e := by
    rw [List.getElem?_eq_getElem h1, List.getElem_idxOf]
  rw [List.length_reverse] at h1
  rw [List.getElem?_reverse h1] at h2
  unfold vertexOf
  exact ⟨by omega, h2⟩

theorem constraints_append (g : Graph) (a b : List Edge) : g.constraints (a ++ b) = g.constraints a ++ g.constraints b := by
  simp [Graph.constraints]

/-- What holds of the graph with key `k` once the constraints `es` have been assigned. -/
structure SubOK (g : Graph) (scc : Nat → Nat) (es : List Edge) (k : Nat) (sub : Graph) : Prop where
  events : sub.events = (g.events.zipIdx.filter fun e => scc e.2 = k).map Prod.fst
  ok : sub.OK
  constraints : sub.constraints sub.edges = g.constraints (es.filter fun e => scc e.src = k ∧ scc e.dst = k)

theorem mem_sub {g : Graph} {scc : Nat → Nat} {k v : Nat} {ev : Event} (hv : g.events[v]? = some ev) (hk : scc v = k) :
    ev ∈ (g.events.zipIdx.filter fun e => scc e.2 = k).map Prod.fst := by
  rw [List.mem_map]
  refine ⟨(ev, v), ?_, rfl⟩
  rw [List.mem_filter]
  exact ⟨List.mem_zipIdx_iff_getElem?.2 hv, by simpa using hk⟩

theorem assign_all (g : Graph) (hg : g.OK) (scc : Nat → Nat) : ∀ (post pre : List Edge) (m : Nat → Option Graph),
    g.edges = pre ++ post →
    (∀ k sub, m k = some sub → SubOK g scc pre k sub) → (∀ v, v < g.events.length → ∃ sub, m (scc v) = some sub) →
    (∀ k, (∃ sub, m k = some sub) → ∃ v, v < g.events.length ∧ scc v = k) →
    ∃ m', post.foldlM (assignOne g scc) m = some m' ∧ (∀ k sub, m' k = some sub → SubOK g scc g.edges k sub) ∧
      (∀ v, v < g.events.length → ∃ sub, m' (scc v) = some sub) ∧
      ∀ k, (∃ sub, m' k = some sub) → ∃ v, v < g.events.length ∧ scc v = k
  | [], pre, m, he, h1, h2, h3 => by
    rw [List.append_nil] at he
    subst he
    exact ⟨m, rfl, h1, h2, h3⟩
  | e :: post, pre, m, he, h1, h2, h3 => by
    have hmem : e ∈ g.edges := by rw [he]; simp
    obtain ⟨hs, hd⟩ := hg e hmem
    have he' : g.edges = (pre ++ [e]) ++ post := by rw [he]; simp
    rw [List.foldlM_cons]
    by_cases hsame : scc e.src = scc e.dst
    · obtain ⟨sub, hsub⟩ := h2 e.src hs
      have e1 : g.events[e.src]? = some g.events[e.src] := List.getElem?_eq_getElem hs
      have e2 : g.events[e.dst]? = some g.events[e.dst] := List.getElem?_eq_getElem hd
      have hc : constraintOf g e = some ⟨g.events[e.src], g.events[e.dst], e.w, e.d, e.channel⟩ := by
        unfold constraintOf; rw [e1, e2]; rfl
      have hone : assignOne g scc m e = some (Function.update m (scc e.src)
          (some (addConstraint sub ⟨g.events[e.src], g.events[e.dst], e.w, e.d, e.channel⟩))) := by
        unfold assignOne
        rw [if_pos hsame, hsub, hc]
        rfl
      rw [hone]
      have hS := h1 _ _ hsub
      have m1 : g.events[e.src] ∈ sub.events := by rw [hS.events]; exact mem_sub e1 rfl
      have m2 : g.events[e.dst] ∈ sub.events := by rw [hS.events]; exact mem_sub e2 hsame.symm
      refine assign_all g hg scc post (pre ++ [e]) _ he' ?_ ?_ ?_
      · intro k sub' hk
        by_cases hkk : k = scc e.src
        · subst hkk
          rw [Function.update_self] at hk
          cases hk
          refine ⟨hS.events, ?_, ?_⟩
          · intro x hx
            unfold addConstraint at hx
            rcases List.mem_append.1 hx with hx | hx
            · exact hS.ok x hx
            · rw [List.mem_singleton.1 hx]
              exact ⟨(vertexOf_spec m1).1, (vertexOf_spec m2).1⟩
          · rw [List.filter_append, constraints_append, ← hS.constraints]
            show Graph.constraints _ (sub.edges ++ [_]) = _
            rw [constraints_append]
            congr 1
            rw [List.filter_cons_of_pos (by simp [hsame])]
            unfold Graph.constraints
            simp only [List.map_cons, List.map_nil, List.filter_nil]
            show [(sub.events[vertexOf sub _]?, sub.events[vertexOf sub _]?, _, _, _)] = _
            rw [(vertexOf_spec m1).2, (vertexOf_spec m2).2, e1, e2]
        · rw [Function.update_of_ne hkk] at hk
          have hS' := h1 k sub' hk
          refine ⟨hS'.events, hS'.ok, ?_⟩
          rw [hS'.constraints, List.filter_append, List.filter_cons_of_neg (by simp; intro hc; exact absurd hc.symm hkk)]
          simp
      · intro v hv
        by_cases hkk : scc v = scc e.src
        · rw [hkk, Function.update_self]; exact ⟨_, rfl⟩
        · rw [Function.update_of_ne hkk]; exact h2 v hv
      · rintro k ⟨sub', hk⟩
        by_cases hkk : k = scc e.src
        · exact ⟨e.src, hs, hkk.symm⟩
        · rw [Function.update_of_ne hkk] at hk
          exact h3 k ⟨sub', hk⟩
    · have hone : assignOne g scc m e = some m := by unfold assignOne; rw [if_neg hsame]
      rw [hone]
      refine assign_all g hg scc post (pre ++ [e]) m he' ?_ h2 h3
      intro k sub hk
      have hS := h1 k sub hk
      refine ⟨hS.events, hS.ok, ?_⟩
      rw [hS.constraints, List.filter_append, List.filter_cons_of_neg (by simp; intro a b; exact hsame (a.trans b.symm))]
      simp

end Kiter.Tarjan

namespace Kiter

open Tarjan

/-- `StrongConnection` never fails, and splits an event graph into its strongly connected components: there is one graph per
label, two vertices have the same label exactly if each is reached from the other, and the graph with label `k` has exactly the
events of the vertices with this label, in order, and exactly the constraints between two of them, with their events, weight,
duration and channel. -/
theorem C117_components (g : Tarjan.Graph) (hg : g.OK) :
    ∃ (graphs : Nat → Option Tarjan.Graph) (label : Nat → Nat), strongConnection g = some graphs ∧
      (∀ u v, u < g.events.length → v < g.events.length → (label u = label v ↔ g.Together u v)) ∧
      (∀ k, (∃ sub, graphs k = some sub) ↔ ∃ v, v < g.events.length ∧ label v = k) ∧
      ∀ k sub, graphs k = some sub →
        sub.OK ∧ sub.events = (g.events.zipIdx.filter fun e => label e.2 = k).map Prod.fst ∧
        sub.constraints sub.edges = g.constraints (g.edges.filter fun e => label e.src = k ∧ label e.dst = k) := by
  obtain ⟨scc, hscc, hlab⟩ := components_spec g hg
  have hex : ∀ k, (∃ e ∈ g.events.zipIdx, scc e.2 = k) ↔ ∃ v, v < g.events.length ∧ scc v = k := by
    intro k
    constructor
    · rintro ⟨⟨ev, v⟩, he, hk⟩
      have := List.mem_zipIdx_iff_getElem?.1 he
      obtain ⟨h, _⟩ := List.getElem?_eq_some_iff.1 this
      exact ⟨v, h, hk⟩
    · rintro ⟨v, hv, hk⟩
      exact ⟨(g.events[v], v), List.mem_zipIdx_iff_getElem?.2 (List.getElem?_eq_getElem hv), hk⟩
  obtain ⟨m, hm, h1, h2, h3⟩ := assign_all g hg scc g.edges [] (assignEvents scc g.events.zipIdx fun _ => none) rfl
    (by
      intro k sub hk
      rw [assignEvents_spec] at hk
      split at hk
      · cases hk
        refine ⟨by simp, ?_, ?_⟩
        · intro e he; simp at he
        · simp [Graph.constraints]
      · cases hk)
    (by
      intro v hv
      rw [assignEvents_spec, if_pos ((hex _).2 ⟨v, hv, rfl⟩)]
      exact ⟨_, rfl⟩)
    (by
      rintro k ⟨sub, hk⟩
      rw [assignEvents_spec] at hk
      split at hk
      · rename_i h; exact (hex k).1 h
      · cases hk)
  refine ⟨m, scc, ?_, hlab, ?_, ?_⟩
  · unfold strongConnection
    rw [hscc]
    exact hm
  · intro k
    refine ⟨h3 k, ?_⟩
    rintro ⟨v, hv, rfl⟩
    exact h2 v hv
  · intro k sub hk
    exact ⟨(h1 k sub hk).ok, (h1 k sub hk).events, (h1 k sub hk).constraints⟩

/-- So the constraints that are kept are exactly those that lie on a circuit: for every constraint, its two ends have the same
label (and it is in the graph with this label) exactly if a path leads back from its target to its source. Cycle ratios can be
computed one component at a time. -/
theorem C117_circuits (g : Tarjan.Graph) (hg : g.OK) (label : Nat → Nat)
    (h : ∀ u v, u < g.events.length → v < g.events.length → (label u = label v ↔ g.Together u v)) (e : Tarjan.Edge)
    (he : e ∈ g.edges) : label e.src = label e.dst ↔ g.Path e.dst e.src := by
  rw [h _ _ (hg e he).1 (hg e he).2]
  exact ⟨fun hc => hc.2, fun hp => ⟨path_edge ⟨e, he, rfl, rfl⟩, hp⟩⟩

namespace TarjanExample

/-- Two components, 0 ↔ 1 (through 4) and 2 ↔ 3, an edge between them, a self-loop and two parallel edges. -/
def g : Tarjan.Graph :=
  ⟨[⟨1, 1, 1⟩, ⟨2, 1, 1⟩, ⟨3, 1, 1⟩, ⟨3, 2, 1⟩, ⟨4, 1, 1⟩],
    [⟨0, 2, 1, 1, 7⟩, ⟨0, 1, 2, 1, 8⟩, ⟨1, 4, 3, 1, 9⟩, ⟨4, 0, 4, 1, 10⟩, ⟨2, 3, 5, 1, 0⟩, ⟨3, 2, 6, 1, 0⟩, ⟨3, 3, 7, 1, 0⟩,
      ⟨2, 3, 8, 2, 0⟩]⟩

example : g.OK := by unfold Graph.OK; decide

example : ((strongConnection g).map fun m => (List.range 5).map m) = some [
    some ⟨[⟨1, 1, 1⟩, ⟨2, 1, 1⟩, ⟨4, 1, 1⟩], [⟨0, 1, 2, 1, 8⟩, ⟨1, 2, 3, 1, 9⟩, ⟨2, 0, 4, 1, 10⟩]⟩, none,
    some ⟨[⟨3, 1, 1⟩, ⟨3, 2, 1⟩], [⟨0, 1, 5, 1, 0⟩, ⟨1, 0, 6, 1, 0⟩, ⟨1, 1, 7, 1, 0⟩, ⟨0, 1, 8, 2, 0⟩]⟩, none, none] := by
  decide +kernel

end TarjanExample

end Kiter
