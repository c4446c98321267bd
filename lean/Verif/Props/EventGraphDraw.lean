import Verif.Spec.EventGraphDraw
import Verif.Model.DeGroote
import Mathlib.Data.List.Nodup
import Mathlib.Tactic.Linarith

set_option autoImplicit false

/-! # C128: the texts of an event graph show the event graph -/

namespace Kiter.EGDraw

/-! ### XML -/

theorem xmlArcs_some (g : Graph) : ∀ (l : List Arc) (n : ℕ) (r : List XArc), xmlArcs g n l = some r →
    r.length = l.length ∧ ∀ (i : ℕ) (a : Arc), l[i]? = some a → ∃ s t, g.events[a.src]? = some s ∧
      g.events[a.dst]? = some t ∧
      r[i]? = some ⟨n + i, a.src, a.dst, a.w, a.strict, a.d, decide (s.task = t.task), a.channel, s, t⟩ := by
  intro l
  induction l with
  | nil => intro n r h; simp only [xmlArcs, Option.some.injEq] at h; subst h; simp
  | cons b l ih =>
    intro n r h
    simp only [xmlArcs, xmlArc, bind, Option.bind, pure] at h
    cases hs : g.events[b.src]? with
    | none => simp [hs] at h
    | some s =>
      cases ht : g.events[b.dst]? with
      | none => simp [hs, ht] at h
      | some t =>
        simp only [hs, ht] at h
        cases hr : xmlArcs g (n + 1) l with
        | none => simp [hr] at h
        | some r' =>
          simp only [hr, Option.some.injEq] at h
          subst h
          obtain ⟨h1, h2⟩ := ih _ _ hr
          refine ⟨by simp [h1], ?_⟩
          intro i a ha
          cases i with
          | zero =>
            simp only [List.getElem?_cons_zero, Option.some.injEq] at ha
            subst ha
            exact ⟨s, t, hs, ht, by simp⟩
          | succ i =>
            obtain ⟨s', t', h3, h4, h5⟩ := h2 i a (by simpa using ha)
            refine ⟨s', t', h3, h4, ?_⟩
            rw [List.getElem?_cons_succ, h5]
            have : n + 1 + i = n + (i + 1) := by omega
            rw [this]

theorem xmlArcs_total (g : Graph) : ∀ (l : List Arc) (n : ℕ),
    (∀ a ∈ l, a.src < g.events.length ∧ a.dst < g.events.length) → (xmlArcs g n l).isSome = true := by
  intro l
  induction l with
  | nil => intro n _; simp [xmlArcs]
  | cons b l ih =>
    intro n h
    have hb := h b (by simp)
    have hl := ih (n + 1) (fun a ha => h a (by simp [ha]))
    obtain ⟨r, hr⟩ := Option.isSome_iff_exists.mp hl
    simp [xmlArcs, xmlArc, hr, hb.1, hb.2]

/-- C128, the XML text. A graph whose constraints join its events is printed. There is one element for each constraint,
in order, named by its position; it has the ends, the weight and the duration of the constraint, its comment has the id
of the channel and the two events, and it is marked `R` exactly when both events are of the same task. -/
theorem _root_.Kiter.C128_xml (g : Graph) (hg : ∀ a ∈ g.arcs, a.src < g.events.length ∧ a.dst < g.events.length) :
    ∃ r, printXML g = some r ∧ r.length = g.arcs.length ∧
      ∀ (i : ℕ) (a : Arc), g.arcs[i]? = some a → ∃ x s t, r[i]? = some x ∧
        g.events[a.src]? = some s ∧ g.events[a.dst]? = some t ∧
        x.name = i ∧ x.node1 = a.src ∧ x.node2 = a.dst ∧ x.weight = a.w ∧ x.time = a.d ∧ x.strict = a.strict ∧
        x.channel = a.channel ∧ x.source = s ∧ x.target = t ∧ (x.loop = true ↔ s.task = t.task) := by
  obtain ⟨r, hr⟩ := Option.isSome_iff_exists.mp (xmlArcs_total g g.arcs 0 hg)
  obtain ⟨h1, h2⟩ := xmlArcs_some g _ _ _ hr
  refine ⟨r, hr, h1, ?_⟩
  intro i a ha
  obtain ⟨s, t, h3, h4, h5⟩ := h2 i a ha
  exact ⟨_, s, t, h5, h3, h4, by simp, rfl, rfl, rfl, rfl, rfl, rfl, rfl, rfl, by simp⟩

/-- C128, the XML text says everything about the constraints: two graphs with the same text have the same constraints,
and the same events at the ends of the constraints. -/
theorem _root_.Kiter.C128_xml_faithful (g g' : Graph) (r : List XArc) (h : printXML g = some r)
    (h' : printXML g' = some r) : g.arcs = g'.arcs ∧
      ∀ a ∈ g.arcs, g.events[a.src]? = g'.events[a.src]? ∧ g.events[a.dst]? = g'.events[a.dst]? := by
  obtain ⟨h1, h2⟩ := xmlArcs_some g _ _ _ h
  obtain ⟨h3, h4⟩ := xmlArcs_some g' _ _ _ h'
  have key : ∀ i : ℕ, i < g.arcs.length → ∃ a, g.arcs[i]? = some a ∧ g'.arcs[i]? = some a ∧
      g.events[a.src]? = g'.events[a.src]? ∧ g.events[a.dst]? = g'.events[a.dst]? := by
    intro i hi
    have hi' : i < g'.arcs.length := by omega
    have e1 : g.arcs[i]? = some g.arcs[i] := by simp [hi]
    have e2 : g'.arcs[i]? = some g'.arcs[i] := by simp [hi']
    obtain ⟨s, t, a1, a2, a3⟩ := h2 i _ e1
    obtain ⟨s', t', b1, b2, b3⟩ := h4 i _ e2
    rw [a3] at b3
    simp only [Option.some.injEq, XArc.mk.injEq] at b3
    obtain ⟨-, c1, c2, c3, c4, c5, -, c6, c7, c8⟩ := b3
    have : g.arcs[i] = g'.arcs[i] := by
      cases hx : g.arcs[i]; cases hy : g'.arcs[i]
      simp_all
    refine ⟨_, e1, by rw [e2, this], ?_, ?_⟩
    · rw [a1, this, b1, c7]
    · rw [a2, this, b2, c8]
  refine ⟨?_, ?_⟩
  · apply List.ext_getElem?
    intro i
    by_cases hi : i < g.arcs.length
    · obtain ⟨a, k1, k2, -⟩ := key i hi
      rw [k1, k2]
    · rw [List.getElem?_eq_none (by omega), List.getElem?_eq_none (by omega)]
  · intro a ha
    obtain ⟨i, hi, rfl⟩ := List.mem_iff_getElem.mp ha
    obtain ⟨a, k1, -, k2⟩ := key i hi
    have : g.arcs[i] = a := by simpa [hi] using k1
    rw [this]
    exact k2

/-- C128, what the XML text leaves out: an event without constraint. -/
theorem _root_.Kiter.C128_xml_counterexample :
    let g : Graph := ⟨[⟨1, 1, 1⟩, ⟨2, 1, 1⟩], [⟨0, 0, 1, 2, false, 1⟩]⟩
    let g' : Graph := ⟨[⟨1, 1, 1⟩], [⟨0, 0, 1, 2, false, 1⟩]⟩
    g ≠ g' ∧ printXML g = printXML g' ∧ printXML g ≠ none := by
  decide +kernel

/-! ### Tikz -/

theorem letter_small (t : Int) (h0 : 0 ≤ t) (h : t < 192) : letter t = t.toNat + 64 := by
  unfold letter
  omega

/-- C128, the Tikz text has one node for each event, named by its number, with its phase and its execution. -/
theorem _root_.Kiter.C128_tikz_nodes (g : Graph) :
    (tikzNodes g).length = g.events.length ∧
      ∀ (i : ℕ) (e : Event), g.events[i]? = some e → ∃ n, (tikzNodes g)[i]? = some n ∧ n.name = i ∧
        n.x = e.task ∧ n.phase = e.phase ∧ n.exec = e.iter := by
  refine ⟨by simp [tikzNodes], ?_⟩
  intro i e he
  refine ⟨tikzNode (e, i), ?_, rfl, rfl, rfl, rfl⟩
  have : g.events.zipIdx[i]? = some (e, i) := by simp [List.getElem?_zipIdx, he]
  simp [tikzNodes, this]

/-- C128, the labels of the Tikz text. When the ids of the tasks are between 1 and 26, the letter is the capital letter
of that rank. -/
theorem _root_.Kiter.C128_tikz_letter (e : Event) (i : ℕ) (h1 : 1 ≤ e.task) (h2 : e.task ≤ 26) :
    (Char.ofNat (tikzNode (e, i)).letter) = ("ABCDEFGHIJKLMNOPQRSTUVWXYZ".toList.getD (e.task - 1).toNat ' ') := by
  obtain ⟨t, p, k⟩ := e
  dsimp only at h1 h2
  simp only [tikzNode]
  rw [letter_small _ (by omega) (by omega)]
  obtain ⟨n, rfl⟩ : ∃ n : ℕ, t = (n : Int) := ⟨t.toNat, by omega⟩
  have hn1 : 1 ≤ n := by omega
  have hn2 : n < 27 := by omega
  have key : ∀ n : ℕ, n < 27 → 1 ≤ n → Char.ofNat (n + 64) =
      "ABCDEFGHIJKLMNOPQRSTUVWXYZ".toList.getD (n - 1) ' ' := by decide +kernel
  have e1 : ((n : Int)).toNat = n := by omega
  have e2 : ((n : Int) - 1).toNat = n - 1 := by omega
  rw [e1, e2]
  exact key n hn2 hn1

/-- C128, the labels of the Tikz text tell the events apart when the ids of the tasks are under 192. -/
theorem _root_.Kiter.C128_tikz_labels (e e' : Event) (i i' : ℕ) (h0 : 0 ≤ e.task) (h : e.task < 192)
    (h0' : 0 ≤ e'.task) (h' : e'.task < 192) :
    ((tikzNode (e, i)).letter = (tikzNode (e', i')).letter ∧ (tikzNode (e, i)).phase = (tikzNode (e', i')).phase ∧
      (tikzNode (e, i)).exec = (tikzNode (e', i')).exec) ↔ e = e' := by
  obtain ⟨t, p, k⟩ := e
  obtain ⟨t', p', k'⟩ := e'
  dsimp only at h0 h h0' h'
  simp only [tikzNode, letter_small _ h0 h, letter_small _ h0' h', Event.mk.injEq]
  omega

/-- C128, the labels do not tell the tasks 1 and 257 apart. -/
theorem _root_.Kiter.C128_tikz_label_counterexample :
    (tikzNode (⟨1, 1, 1⟩, 0)).letter = (tikzNode (⟨257, 1, 1⟩, 1)).letter := by
  decide +kernel

/-- C128, two nodes of the Tikz text are at the same place exactly when they are of the same task. So all the events of
a task that has several phases or several executions are drawn on top of each other. -/
theorem _root_.Kiter.C128_tikz_place_counterexample (e e' : Event) (i i' : ℕ) :
    ((tikzNode (e, i)).x, (tikzNode (e, i)).y) = ((tikzNode (e', i')).x, (tikzNode (e', i')).y) ↔
      e.task = e'.task := by
  simp [tikzNode]

/-- C128, the edges of the Tikz text are the constraints. -/
theorem _root_.Kiter.C128_tikz_edges (g : Graph) (i : ℕ) :
    (tikzEdges g)[i]? = (g.arcs[i]?).map fun a => (a.src, a.dst, a.w, a.d) := by
  simp [tikzEdges]

/-! ### Graphviz -/

theorem nodesOf_edges (st : List Block) (l : List Arc) (l' : List Line) :
    nodesOf st (l.map dotEdge ++ l') = nodesOf st l' := by
  induction l with
  | nil => rfl
  | cons a l ih =>
    rw [← ih]
    cases st <;> simp [dotEdge, nodesOf]

theorem nodesOf_close (b : Block) (st : List Block) (l : List Line) :
    nodesOf (b :: st) (.close :: l) = nodesOf st l := by simp [nodesOf]

theorem nodesOf_cluster (st : List Block) (t : Int) (l : List Line) :
    nodesOf st (.cluster t :: l) = nodesOf (.task t :: st) l := by cases st <;> simp [nodesOf]

theorem nodesOf_node (st : List Block) (v : ℕ) (e : Event) (c : Char) (x y : Int) (l : List Line) :
    nodesOf st (.node v e c x y :: l) = (nodesOf st l).map fun r => (v, e, st) :: r := by cases st <;> simp [nodesOf]

/-- The open blocks for a value of `lastid`. -/
def stackOf (last : Int) : List Block := if last = 0 then [.whole] else [.task last, .whole]

theorem nodesOf_events (rest : List Line) : ∀ (l : List (Event × ℕ)) (last : Int), (∀ p ∈ l, p.1.task ≠ 0) →
    nodesOf (stackOf last) (dotEvents last l ++ rest) =
      (nodesOf [.whole] rest).map fun r => (l.map fun p => (p.2, p.1, [.task p.1.task, .whole])) ++ r := by
  intro l
  induction l with
  | nil =>
    intro last _
    by_cases h0 : last = 0
    · subst h0; simp [dotEvents, stackOf]
    · simp [dotEvents, stackOf, h0, nodesOf_close]
  | cons p l ih =>
    intro last h
    have hp := h p (by simp)
    have ih' := ih p.1.task (fun q hq => h q (by simp [hq]))
    have hst : stackOf p.1.task = [.task p.1.task, .whole] := by simp [stackOf, hp]
    rw [hst] at ih'
    by_cases hl : last = p.1.task
    · subst hl
      simp only [dotEvents, dotEvent, ne_eq, not_true_eq_false, if_false, List.nil_append, List.cons_append, hst,
        nodesOf_node, ih', Option.map_map, List.map_cons]
      rfl
    · by_cases h0 : last = 0
      · subst h0
        have h00 : (0 : Int) ≠ p.1.task := hl
        simp only [dotEvents, dotEvent, ne_eq, h00, not_false_eq_true, if_true, not_true_eq_false, if_false,
          List.nil_append, List.cons_append, nodesOf_node, nodesOf_cluster, stackOf, ih', Option.map_map, List.map_cons]
        rfl
      · simp only [dotEvents, dotEvent, ne_eq, hl, h0, not_false_eq_true, if_true, if_false,
          List.nil_append, List.cons_append, nodesOf_node, nodesOf_cluster, nodesOf_close, stackOf, ih',
          Option.map_map, List.map_cons]
        rfl

/-- C128, the Graphviz text. When no task has the id 0 the braces match, and every event is one node, in order, with its
label, inside the cluster of its task and in no other. -/
theorem _root_.Kiter.C128_dot_nodes (g : Graph) (h : ∀ e ∈ g.events, e.task ≠ 0) :
    nodesOf [] (printDOT g) = some (g.events.zipIdx.map fun p => (p.2, p.1, [.task p.1.task, .whole])) := by
  have h' : ∀ p ∈ g.events.zipIdx, p.1.task ≠ 0 := by
    intro p hp
    have := List.mem_zipIdx hp
    exact h _ (this.2.2 ▸ List.getElem_mem _)
  have := nodesOf_events (g.arcs.map dotEdge ++ [.close]) g.events.zipIdx 0 h'
  rw [nodesOf_edges] at this
  simp only [stackOf, if_true, nodesOf, Option.map_some, List.append_nil] at this
  simp only [printDOT, List.append_assoc, List.cons_append, List.nil_append, nodesOf]
  exact this

theorem edges_none : ∀ (l : List (Event × ℕ)) (last : Int), edgesOf (dotEvents last l) = [] := by
  intro l
  induction l with
  | nil => intro last; unfold dotEvents; split <;> simp [edgesOf]
  | cons p l ih =>
    intro last
    have := ih (dotEvent last p).1
    unfold edgesOf at this ⊢
    simp only [dotEvents, List.filterMap_append, this, List.append_nil]
    unfold dotEvent
    by_cases hl : last = p.1.task <;> by_cases h0 : last = 0 <;> simp [hl, h0]

/-- C128, the edges of the Graphviz text are the constraints of the graph. -/
theorem _root_.Kiter.C128_dot_edges (g : Graph) :
    edgesOf (printDOT g) = g.arcs.map fun a => (a.src, a.dst, a.w, a.d) := by
  have h1 := edges_none g.events.zipIdx 0
  have h2 : edgesOf (g.arcs.map dotEdge) = g.arcs.map fun a => (a.src, a.dst, a.w, a.d) := by
    induction g.arcs with
    | nil => rfl
    | cons a l ih => simp only [edgesOf] at ih; simp [edgesOf, dotEdge, ih]
  unfold edgesOf at h1 h2
  simp [edgesOf, printDOT, List.filterMap_append, h1, h2]

theorem places_events : ∀ (l : List (Event × ℕ)) (last : Int),
    placesOf (dotEvents last l) = l.map fun p => (p.1.task * 100, p.1.iter * 20) := by
  intro l
  induction l with
  | nil => intro last; unfold dotEvents; split <;> simp [placesOf]
  | cons p l ih =>
    intro last
    have := ih (dotEvent last p).1
    unfold placesOf at this ⊢
    simp only [dotEvents, List.filterMap_append, this, List.map_cons]
    unfold dotEvent
    by_cases hl : last = p.1.task
    · simp [hl]
    · by_cases h0 : last = 0
      · subst h0
        simp [hl]
      · simp [hl, h0]

theorem places_dot (g : Graph) :
    placesOf (printDOT g) = g.events.map fun e => (e.task * 100, e.iter * 20) := by
  have h1 := places_events g.events.zipIdx 0
  have h2 : placesOf (g.arcs.map dotEdge) = [] := by
    induction g.arcs with
    | nil => rfl
    | cons a l ih => simp only [placesOf] at ih; simp [placesOf, dotEdge, ih]
  have h3 : (g.events.zipIdx.map fun p => (p.1.task * 100, p.1.iter * 20)) =
      g.events.map fun e => (e.task * 100, e.iter * 20) := by
    have : (g.events.zipIdx.map fun p => (p.1.task * 100, p.1.iter * 20)) =
        (g.events.zipIdx.map Prod.fst).map fun e : Event => (e.task * 100, e.iter * 20) := by
      rw [List.map_map]; rfl
    rw [this, List.zipIdx_map_fst]
  rw [h3] at h1
  unfold placesOf at h1 h2
  simp [placesOf, printDOT, List.filterMap_append, h1, h2]

/-- C128, the places in the Graphviz text. When all the events are of phase 1 and different, which is so for the
expansion and for the graph of de Groote, no two nodes are at the same place. -/
theorem _root_.Kiter.C128_dot_places (g : Graph) (h : ∀ e ∈ g.events, e.phase = 1) (hd : g.events.Nodup) :
    (placesOf (printDOT g)).Nodup := by
  rw [places_dot]
  refine List.Nodup.map_on ?_ hd
  intro x hx y hy hxy
  have h1 := h x hx
  have h2 := h y hy
  obtain ⟨t, p, k⟩ := x
  obtain ⟨t', p', k'⟩ := y
  simp only [Prod.mk.injEq, Event.mk.injEq] at hxy h1 h2 ⊢
  omega

/-- C128, the places in the Graphviz text do not depend on the phase. -/
theorem _root_.Kiter.C128_dot_place_counterexample :
    ¬ (placesOf (printDOT ⟨[⟨1, 1, 1⟩, ⟨1, 2, 1⟩], []⟩)).Nodup := by
  decide +kernel

/-- C128, when the task with the id 0 comes after another task its cluster is opened and never closed: the braces of the
text do not match. When it comes first, its events are in no cluster. -/
theorem _root_.Kiter.C128_dot_zero_counterexample :
    nodesOf [] (printDOT ⟨[⟨1, 1, 1⟩, ⟨0, 1, 1⟩], []⟩) = none ∧
      nodesOf [] (printDOT ⟨[⟨0, 1, 1⟩, ⟨1, 1, 1⟩], []⟩) =
        some [(0, ⟨0, 1, 1⟩, [.whole]), (1, ⟨1, 1, 1⟩, [.task 1, .whole])] := by
  decide +kernel

/-- C128, the thick edges are meant to be those of the tree of a traversal. No traversal is done, so they are all those
that leave the first event, even when it makes an event have two thick entries or the edge is a loop. -/
theorem _root_.Kiter.C128_dot_thick_counterexample :
    thickOf (printDOT ⟨[⟨1, 1, 1⟩, ⟨2, 1, 1⟩], [⟨0, 0, 1, 1, false, 0⟩, ⟨0, 1, 0, 1, false, 1⟩, ⟨0, 1, 2, 1, false, 2⟩,
      ⟨1, 0, 1, 1, false, 3⟩]⟩) = [(0, 0), (0, 1), (0, 1)] := by
  decide +kernel

/-! ### Clusters -/

theorem clusters_block (t : Int) (rest : List (Event × ℕ)) : ∀ (b : List (Event × ℕ)),
    (∀ p ∈ b, p.1.task = t) → clustersOf (dotEvents t (b ++ rest)) = clustersOf (dotEvents t rest) := by
  intro b
  induction b with
  | nil => intro _; rfl
  | cons p b ih =>
    intro h
    have hp : p.1.task = t := h p (by simp)
    have := ih (fun q hq => h q (by simp [hq]))
    unfold clustersOf at this ⊢
    simp [dotEvents, dotEvent, hp, this]

theorem clusters_cons (last : Int) (p : Event × ℕ) (l : List (Event × ℕ)) (h : last ≠ p.1.task) :
    clustersOf (dotEvents last (p :: l)) = p.1.task :: clustersOf (dotEvents p.1.task l) := by
  unfold clustersOf
  by_cases h0 : last = 0
  · subst h0; simp [dotEvents, dotEvent, h]
  · simp [dotEvents, dotEvent, h, h0]

theorem clusters_blocks : ∀ (bs : List (Int × List (Event × ℕ))) (last : Int),
    (∀ b ∈ bs, b.1 ≠ 0 ∧ b.1 ≠ last ∧ b.2 ≠ [] ∧ ∀ p ∈ b.2, p.1.task = b.1) → (bs.map Prod.fst).Nodup →
    clustersOf (dotEvents last (bs.flatMap Prod.snd)) = bs.map Prod.fst := by
  intro bs
  induction bs with
  | nil => intro last _ _; simp only [List.flatMap_nil, dotEvents]; split <;> simp [clustersOf]
  | cons b bs ih =>
    intro last h hn
    obtain ⟨h1, h2, h3, h4⟩ := h b (by simp)
    obtain ⟨t, l⟩ := b
    dsimp only at h1 h2 h3 h4
    cases l with
    | nil => exact absurd rfl h3
    | cons p l =>
      have hp : p.1.task = t := h4 p (by simp)
      simp only [List.map_cons, List.nodup_cons] at hn
      simp only [List.flatMap_cons, List.cons_append, List.map_cons]
      rw [clusters_cons _ _ _ (by rw [hp]; exact fun e => h2 e.symm), hp,
        clusters_block t _ l (fun q hq => h4 q (by simp [hq]))]
      congr 1
      refine ih t ?_ hn.2
      intro c hc
      obtain ⟨c1, -, c3, c4⟩ := h c (by simp [hc])
      refine ⟨c1, ?_, c3, c4⟩
      intro e
      exact hn.1 (e ▸ List.mem_map_of_mem hc)

theorem clusters_dot (g : Graph) : clustersOf (printDOT g) = clustersOf (dotEvents 0 g.events.zipIdx) := by
  have h2 : clustersOf (g.arcs.map dotEdge) = [] := by
    induction g.arcs with
    | nil => rfl
    | cons a l ih => simp only [clustersOf] at ih; simp [clustersOf, dotEdge, ih]
  unfold clustersOf at h2
  simp [clustersOf, printDOT, List.filterMap_append, h2]

theorem split_blocks : ∀ (bs : List (Int × List Event)) (n : ℕ),
    (∀ b ∈ bs, b.1 ≠ 0 ∧ b.2 ≠ [] ∧ ∀ e ∈ b.2, e.task = b.1) →
    ∃ cs : List (Int × List (Event × ℕ)), (bs.flatMap Prod.snd).zipIdx n = cs.flatMap Prod.snd ∧
      cs.map Prod.fst = bs.map Prod.fst ∧ ∀ b ∈ cs, b.1 ≠ 0 ∧ b.2 ≠ [] ∧ ∀ p ∈ b.2, p.1.task = b.1 := by
  intro bs
  induction bs with
  | nil => intro n _; exact ⟨[], by simp⟩
  | cons b bs ih =>
    intro n h
    obtain ⟨cs, h1, h2, h3⟩ := ih (n + b.2.length) (fun c hc => h c (by simp [hc]))
    obtain ⟨k1, k2, k3⟩ := h b (by simp)
    refine ⟨(b.1, b.2.zipIdx n) :: cs, ?_, by simp [h2], ?_⟩
    · simp only [List.flatMap_cons, List.zipIdx_append, h1]
    · intro c hc
      rcases List.mem_cons.mp hc with rfl | hc
      · refine ⟨k1, ?_, ?_⟩
        · intro e
          exact k2 (List.zipIdx_eq_nil_iff.mp e)
        · intro p hp
          have := List.mem_zipIdx hp
          exact k3 _ (this.2.2 ▸ List.getElem_mem _)
      · exact h3 c hc

/-- C128, the clusters of the Graphviz text. In a graph made task after task, as the program makes them, every task has
exactly one cluster, in the order of the tasks. -/
theorem _root_.Kiter.C128_dot_clusters (bs : List (Int × List Event)) (arcs : List Arc)
    (h : ∀ b ∈ bs, b.1 ≠ 0 ∧ b.2 ≠ [] ∧ ∀ e ∈ b.2, e.task = b.1) (hn : (bs.map Prod.fst).Nodup) :
    clustersOf (printDOT ⟨bs.flatMap Prod.snd, arcs⟩) = bs.map Prod.fst := by
  rw [clusters_dot]
  obtain ⟨cs, h1, h2, h3⟩ := split_blocks bs 0 h
  dsimp only
  rw [h1, clusters_blocks cs 0 _ (by rw [h2]; exact hn), h2]
  intro b hb
  obtain ⟨k1, k2, k3⟩ := h3 b hb
  exact ⟨k1, k1, k2, k3⟩

/-- C128, the graph of de Groote: when the tasks have different ids, not 0, and are executed at least once, the text
that the command prints is well formed, has one cluster for each task in order, every event in the cluster of its task,
and no two events at the same place. -/
theorem _root_.Kiter.C128_dot_lcg (B : BaseGraph) (arcs : List Arc) (hid : ∀ t ∈ B.tasks, t.id ≠ 0)
    (hni : ∀ t ∈ B.tasks, 1 ≤ t.ni) (hn : (B.tasks.map KTask.id).Nodup) :
    nodesOf [] (printDOT ⟨lcgEvents B, arcs⟩) =
        some ((lcgEvents B).zipIdx.map fun p => (p.2, p.1, [.task p.1.task, .whole])) ∧
      clustersOf (printDOT ⟨lcgEvents B, arcs⟩) = B.tasks.map KTask.id ∧
      (placesOf (printDOT ⟨lcgEvents B, arcs⟩)).Nodup := by
  refine ⟨C128_dot_nodes _ ?_, ?_, C128_dot_places _ ?_ ?_⟩
  · intro e he
    simp only [lcgEvents, List.mem_flatMap, List.mem_map] at he
    obtain ⟨t, ht, k, -, rfl⟩ := he
    exact hid t ht
  · let ev : KTask → List Event := fun t =>
      (List.range t.ni.toNat).map fun (k : ℕ) => (⟨t.id, 1, (k : Int) + 1⟩ : Event)
    have e1 : lcgEvents B = (B.tasks.map fun t => (t.id, ev t)).flatMap Prod.snd := by
      simp [lcgEvents, ev, List.flatMap_map]
    have e2 : B.tasks.map KTask.id = (B.tasks.map fun t => (t.id, ev t)).map Prod.fst := by
      rw [List.map_map]; rfl
    rw [e1, e2]
    refine C128_dot_clusters _ arcs ?_ (by rw [← e2]; exact hn)
    intro b hb
    obtain ⟨t, ht, rfl⟩ := List.mem_map.mp hb
    refine ⟨hid t ht, ?_, ?_⟩
    · have := hni t ht
      simp only [ev, ne_eq, List.map_eq_nil_iff, List.range_eq_nil]
      omega
    · intro e he
      simp only [ev, List.mem_map] at he
      obtain ⟨k, -, rfl⟩ := he
      rfl
  · intro e he
    simp only [lcgEvents, List.mem_flatMap, List.mem_map] at he
    obtain ⟨t, ht, k, -, rfl⟩ := he
    rfl
  · unfold lcgEvents
    rw [List.nodup_flatMap]
    refine ⟨?_, ?_⟩
    · intro t _
      refine List.Nodup.map_on ?_ List.nodup_range
      intro a _ b _ hab
      simp only [Event.mk.injEq] at hab
      omega
    · have hp : B.tasks.Pairwise fun a b => a.id ≠ b.id := List.pairwise_map.mp hn
      refine hp.imp ?_
      intro a b hab x hx hy
      simp only [List.mem_map] at hx hy
      obtain ⟨_, -, rfl⟩ := hx
      obtain ⟨_, -, h⟩ := hy
      simp only [Event.mk.injEq] at h
      exact hab h.1.symm

end Kiter.EGDraw

namespace Kiter.EGDrawExample
open Kiter.EGDraw

/-- A graph with two tasks, the first executed twice, and a constraint of each kind. -/
def g : Graph := ⟨[⟨1, 1, 1⟩, ⟨1, 1, 2⟩, ⟨2, 1, 1⟩],
  [⟨0, 1, 0, 3, false, 0⟩, ⟨1, 0, 1, 3, false, 0⟩, ⟨1, 2, -1, 3, false, 7⟩]⟩

/-- The hypotheses of the theorems on the XML and the Graphviz texts hold for it. -/
example : (∀ a ∈ g.arcs, a.src < g.events.length ∧ a.dst < g.events.length) ∧ (∀ e ∈ g.events, e.task ≠ 0) ∧
    (∀ e ∈ g.events, e.phase = 1) ∧ g.events.Nodup := by decide +kernel

example : (printXML g).map (fun r => r.map fun x => (x.name, x.node1, x.node2, x.loop, x.channel)) =
    some [(0, 0, 1, true, 0), (1, 1, 0, true, 0), (2, 1, 2, false, 7)] := by decide +kernel

example : nodesOf [] (printDOT g) = some [(0, ⟨1, 1, 1⟩, [.task 1, .whole]), (1, ⟨1, 1, 2⟩, [.task 1, .whole]),
    (2, ⟨2, 1, 1⟩, [.task 2, .whole])] := by decide +kernel

example : clustersOf (printDOT g) = [1, 2] := by decide +kernel

/-- The same graph as blocks of tasks. -/
example : g.events = ([(1, [⟨1, 1, 1⟩, ⟨1, 1, 2⟩]), (2, [⟨2, 1, 1⟩])] : List (Int × List Event)).flatMap Prod.snd := by
  decide +kernel

/-- A graph with two tasks, executed once and twice, for the theorem on the graph of de Groote. -/
example : let B : BaseGraph := ⟨[⟨1, [1], [], 0, 1⟩, ⟨2, [3], [], 0, 2⟩], []⟩
    (∀ t ∈ B.tasks, t.id ≠ 0) ∧ (∀ t ∈ B.tasks, 1 ≤ t.ni) ∧ (B.tasks.map KTask.id).Nodup ∧
      lcgEvents B = [⟨1, 1, 1⟩, ⟨2, 1, 1⟩, ⟨2, 1, 2⟩] := by
  decide +kernel

end Kiter.EGDrawExample
