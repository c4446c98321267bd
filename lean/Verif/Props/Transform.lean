/-
Properties C41 (modelling of communications), C42 and C63 (`singleOutput`).
-/
import Verif.Lemmas.Transform
import Mathlib.Tactic.Linarith

set_option autoImplicit false

namespace Kiter

open DF

/-! ### C42 -/

/-- C42.  On every graph that calls of the interface can build, the transformation ends: from some number of turns on
the outcome no longer depends on the number of turns allowed. -/
theorem C42_terminates {ops : List Op} {s : State} (h : calls empty ops = some s) (name : Option String) :
    ∃ r, r ≠ Outcome.running ∧ ∀ fuel, s.edges.length < fuel → singleOutput fuel name s = r := by
  have hi := inv_calls inv_empty h
  cases name with
  | none => exact ⟨.done s, by simp, fun _ _ => rfl⟩
  | some n =>
    unfold singleOutput
    cases ht : vertexByName s n with
    | none => exact ⟨.failed, by simp, fun _ _ => by simp only [ht]⟩
    | some t =>
      have hl : t < s.verts.length := by
        obtain ⟨⟨a, ha, -⟩, -⟩ := findIdx_some ht
        rw [List.getElem?_eq_some_iff] at ha
        exact ha.1
      have hd : (outKeys s t).length ≤ s.edges.length := by
        unfold outKeys
        rw [List.length_map]
        exact List.length_filter_le _ _
      have hs := dupLoop_spec hl (s.edges.length + 1) 0 s (dupInv_refl hi t) (by omega)
      refine ⟨_, hs.1, fun fuel hf => ?_⟩
      obtain ⟨d, rfl⟩ : ∃ d, fuel = s.edges.length + 1 + d := ⟨fuel - (s.edges.length + 1), by omega⟩
      simp only [ht]
      clear hf
      induction d with
      | zero => rfl
      | succ d ih =>
        rw [← ih]
        exact (dupLoop_spec hl (s.edges.length + 1 + d) 0 s (dupInv_refl hi t) (by omega)).2.2

/-- The number of output and of input channels of a task. -/
def DF.outDeg (s : State) (v : Nat) : Nat := s.edges.countP fun e => decide (e.src = v)
def DF.inDeg (s : State) (v : Nat) : Nat := s.edges.countP fun e => decide (e.tgt = v)

theorem DF.outDeg_eq (s : State) (v : Nat) : (outKeys s v).length = outDeg s v := by
  unfold outKeys outDeg
  rw [List.length_map, List.countP_eq_length_filter]
  congr 1

/-- C42.  When it returns, the named task has at most one output, and it has one if it had one before.  The tasks added
(one for each output but the first) have two outputs, one input, one phase and duration 1.  Their input comes from the
named task or from a task added later, so that they form a tree below the named task.  Every other task has as many
inputs as before, and its outputs are the same channels as before. -/
theorem C42_result {ops : List Op} {s s' : State} (h : calls empty ops = some s) {fuel : Nat} {n : String} {t : Nat}
    {x : Vtx} (hx : s.verts[t]? = some x) (hn : x.name = n) (hne : n ≠ "")
    (hm : singleOutput fuel (some n) s = .done s') (hf : s.edges.length < fuel) :
    outDeg s' t = min 1 (outDeg s t) ∧
    s'.verts.length = s.verts.length + (outDeg s t - 1) ∧
    (∀ d, s.verts.length ≤ d → d < s'.verts.length → outDeg s' d = 2 ∧ inDeg s' d = 1 ∧
      ∃ y, s'.verts[d]? = some y ∧ y.phases = 1 ∧ y.durs = [1]) ∧
    (∀ e ∈ s'.edges, s.verts.length ≤ e.tgt → e.src = t ∨ e.tgt < e.src) ∧
    (∀ w, w < s.verts.length → inDeg s' w = inDeg s w) ∧
    (s'.edges.filter fun e => decide (e.src ≠ t ∧ e.src < s.verts.length)) =
      s.edges.filter (fun e => decide (e.src ≠ t)) ∧
    (∀ (w : Nat) (y : Vtx), s.verts[w]? = some y → ∃ z : Vtx, s'.verts[w]? = some z ∧
      (z = y ∨ y.phases ≤ 0 ∧ z = { y with phases := 1 })) := by
  have hi := inv_calls inv_empty h
  have ht : vertexByName s n = some t := by
    have := ((C08_lookup h).1 t x hx).2 (by rw [hn]; exact hne)
    rwa [hn] at this
  have hl : t < s.verts.length := by rw [List.getElem?_eq_some_iff] at hx; exact hx.1
  unfold singleOutput at hm
  simp only [ht] at hm
  have hd : (outKeys s t).length ≤ s.edges.length := by
    unfold outKeys
    rw [List.length_map]
    exact List.length_filter_le _ _
  obtain ⟨k, k1, k2⟩ := (dupLoop_spec hl fuel 0 s (dupInv_refl hi t) (by omega)).2.1 s' hm
  rw [outDeg_eq, outDeg_eq] at k2
  rw [outDeg_eq, outDeg_eq] at k1
  have hv := k.vlen
  refine ⟨by omega, by omega, ?_, k.fromTo, k.indeg, k.others, k.keep⟩
  intro d h1 h2
  obtain ⟨e1, e2⟩ := k.dups d _ h1 (List.getElem?_eq_getElem h2)
  exact ⟨k.dupOut d h1 h2, k.dupIn d h1 h2, _, List.getElem?_eq_getElem h2, e1, e2⟩

/-- A graph with a task `a` that has three outputs: two to `b`, one to `c`; `b` sends to `c`. -/
def DF.fanOps : List Op :=
  [.addVertexName "a", .addVertexName "b", .addVertexName "c", .setPhases 0 1, .setPhases 1 1, .setPhases 2 1,
    .addEdge 0 1, .setEdgeIn 0 [1], .setEdgeOut 0 [1], .addEdge 0 1, .setEdgeIn 1 [1], .setEdgeOut 1 [1],
    .addEdge 0 2, .setEdgeIn 2 [1], .setEdgeOut 2 [1], .addEdge 1 2, .setEdgeIn 3 [2], .setEdgeOut 3 [2]]

example : ∃ s s', calls empty fanOps = some s ∧ (s.verts[0]?).map (fun v => v.name) = some "a" ∧ outDeg s 0 = 3 ∧
    s.edges.length < 9 ∧ singleOutput 9 (some "a") s = .done s' ∧
    s'.edges.map (fun e => (e.src, e.tgt)) = [(1, 2), (3, 1), (3, 1), (0, 4), (4, 2), (4, 3)] := by
  refine ⟨_, _, rfl, rfl, rfl, by decide +kernel, rfl, rfl⟩

/-! ### C63 -/

/-- The balance equations: over one iteration each channel receives what it delivers. -/
def DF.Balanced (es : List Edg) (q : Nat → Int) : Prop := ∀ e ∈ es, q e.src * e.ins.sum = q e.tgt * e.outs.sum

/-- C63.  If every output of the named task produces per iteration of its producer what it consumes per iteration of its
consumer, then a solution of the balance equations extends to the new graph: the added tasks run as often as the named
task.  Missing: the general case, which is false (`C63_lost_counterexample`). -/
theorem C63_balance_partial {ops : List Op} {s s' : State} (h : calls empty ops = some s) {fuel : Nat} {n : String}
    {t : Nat} {x : Vtx} (hx : s.verts[t]? = some x) (hn : x.name = n) (hne : n ≠ "")
    (hm : singleOutput fuel (some n) s = .done s') (hf : s.edges.length < fuel)
    (heq : ∀ e ∈ s.edges, e.src = t → e.ins.sum = e.outs.sum ∧ e.outs.sum ≠ 0)
    (q : Nat → Int) (hq : Balanced s.edges q) :
    Balanced s'.edges (fun v => if v < s.verts.length then q v else q t) := by
  have hi := inv_calls inv_empty h
  have ht : vertexByName s n = some t := by
    have := ((C08_lookup h).1 t x hx).2 (by rw [hn]; exact hne)
    rwa [hn] at this
  have hl : t < s.verts.length := by rw [List.getElem?_eq_some_iff] at hx; exact hx.1
  unfold singleOutput at hm
  simp only [ht] at hm
  have hd : (outKeys s t).length ≤ s.edges.length := by
    unfold outKeys
    rw [List.length_map]
    exact List.length_filter_le _ _
  obtain ⟨k, -, -⟩ := (dupLoop_spec hl fuel 0 s (dupInv_refl hi t) (by omega)).2.1 s' hm
  have old : ∀ e ∈ s.edges, (fun v => if v < s.verts.length then q v else q t) e.src * e.ins.sum =
      (fun v => if v < s.verts.length then q v else q t) e.tgt * e.outs.sum := by
    intro e he
    have := hi.ends e he
    simp only [this.1, this.2, if_true]
    exact hq e he
  have qt : ∀ f ∈ s.edges, f.src = t → q f.tgt = q t := by
    intro f hf hft
    have h1 := hq f hf
    obtain ⟨h2, h3⟩ := heq f hf hft
    rw [h2, hft] at h1
    exact (mul_right_cancel₀ h3 h1).symm
  intro e he
  rcases k.unit e he with h0 | ⟨u1, u2, -⟩
  · exact old e h0
  · by_cases hs : e.src ≠ t ∧ e.src < s.verts.length
    · have : e ∈ s'.edges.filter fun e => decide (e.src ≠ t ∧ e.src < s.verts.length) := by
        rw [List.mem_filter]; exact ⟨he, by simpa using hs⟩
      rw [k.others, List.mem_filter] at this
      exact old e this.1
    · have hs' : e.src = t ∨ s.verts.length ≤ e.src := by omega
      rw [u1, u2]
      have e1 : (if e.src < s.verts.length then q e.src else q t) = q t := by
        rcases hs' with hs' | hs'
        · rw [hs', if_pos hl]
        · rw [if_neg (by omega)]
      have e2 : (if e.tgt < s.verts.length then q e.tgt else q t) = q t := by
        split
        · rename_i hlt
          obtain ⟨f, hf, hft, hfe⟩ := k.old e he hs' hlt
          rw [← hfe]
          exact qt f hf hft
        · rfl
      show (if e.src < s.verts.length then q e.src else q t) * _ = (if e.tgt < s.verts.length then q e.tgt else q t) * _
      rw [e1, e2]

/-- A task whose outputs have other rates, and initial tokens. -/
def DF.lossOps : List Op :=
  [.addVertexName "a", .addVertexName "b", .addVertexName "c", .setPhases 0 1, .setPhases 1 1, .setPhases 2 1,
    .addEdge 0 1, .setEdgeIn 0 [2], .setEdgeOut 0 [1], .setPreload 0 4, .addEdge 0 2, .setEdgeIn 1 [1], .setEdgeOut 1 [1]]

/-- C63 in general is false: rates and initial tokens of the outputs are lost.  Here `b` runs twice as often as `a`
before and as often as `a` after, and the four initial tokens are gone. -/
theorem C63_lost_counterexample : ∃ s s', calls empty lossOps = some s ∧ singleOutput 9 (some "a") s = .done s' ∧
    Balanced s.edges (fun v => if v = 1 then 2 else 1) ∧ (s.edges.map fun e => e.preload).sum = 4 ∧
    (∀ q, Balanced s'.edges q → q 1 = q 0) ∧ (s'.edges.map fun e => e.preload).sum = 0 := by
  refine ⟨_, _, rfl, rfl, ?_, rfl, ?_, rfl⟩
  · unfold Balanced
    decide +kernel
  · intro q hq
    have h1 := hq (one 2 0 3 3 "" 1 1 0) (by decide +kernel)
    have h2 := hq (one 3 3 1 4 "" 1 1 0) (by decide +kernel)
    simp [one] at h1 h2
    rw [h1, h2]

/-- The hypotheses of `C63_balance_partial`: `fanOps` meets them. -/
example : ∃ s s', calls empty fanOps = some s ∧ singleOutput 9 (some "a") s = .done s' ∧
    (∀ e ∈ s.edges, e.src = 0 → e.ins.sum = e.outs.sum ∧ e.outs.sum ≠ 0) ∧ Balanced s.edges fun _ => 3 := by
  refine ⟨_, _, rfl, rfl, by decide +kernel, ?_⟩
  unfold Balanced
  decide +kernel

end Kiter
