/-
Model of `compute_asap_throughput` (algorithms/throughput/symbolic_execution.cpp:33-103) and `generateSCCs` (lines 410-431):
the graph is split into its strongly connected components, each is analysed on its own by the self-timed execution, and
the results are brought to the repetition vector of the whole graph.
-/
import Verif.Model.SymbolicExecution
import Verif.Model.Repetition
import Verif.Model.SCC

set_option autoImplicit false

namespace Kiter.Sim

variable {nV nE : Nat}

/-- What `computeRepetitionVector` reads of the graph (Model/Repetition.lean). -/
def Graph.toRep (g : Graph nV nE) : Rep.Graph nV nE := ⟨g.src, g.tgt, g.prod, g.cons, g.phases⟩

/-- The graph with the given repetition vector (`setNi`, models/repetition_vector.cpp:140-147). -/
def Graph.withNi (g : Graph nV nE) (N : Fin nV → Int) : Graph nV nE := { g with ni := N }

/-- `VERBOSE_ASSERT(computeRepetitionVector(dataflow), "inconsistent graph")` (symbolic_execution.cpp:36, 210): the graph
with its repetition vector, `none` when the assertion fails. -/
def Graph.repeated (g : Graph nV nE) : Option (Graph nV nE) :=
  match Rep.compute g.toRep with
  | some (some N) => some (g.withNi N)
  | _ => none

/-- What `computeSCCKosaraju` reads of the graph (Model/SCC.lean), `id v` being the identifier of vertex `v`. -/
def Graph.toSCC (g : Graph nV nE) (id : Fin nV → Int) : SCC.Graph :=
  ⟨(List.finRange nV).map id, (List.finRange nE).map fun e => (id (g.src e), id (g.tgt e))⟩

/-- The edges that remain when the vertices outside `K` are removed with their edges (`removeVertex`,
models/Dataflow.h:402-415). -/
def Graph.inner (g : Graph nV nE) (K : List (Fin nV)) : List (Fin nE) :=
  (List.finRange nE).filter fun e => g.src e ∈ K ∧ g.tgt e ∈ K

theorem Graph.inner_mem (g : Graph nV nE) (K : List (Fin nV)) (e : Fin (g.inner K).length) :
    g.src (g.inner K)[e] ∈ K ∧ g.tgt (g.inner K)[e] ∈ K := by
  have : (g.inner K)[e] ∈ g.inner K := List.getElem_mem _
  unfold Graph.inner at this ⊢
  simpa using (List.mem_filter.1 this).2

/-- The copy of the graph restricted to the vertices of `K` (symbolic_execution.cpp:414-427): vertex `i` of the result is
vertex `K[i]`, edge `j` is the `j`-th remaining edge. `reset_computation` forgets the repetition vector. -/
def Graph.sub (g : Graph nV nE) (K : List (Fin nV)) : Graph K.length (g.inner K).length where
  src e := ⟨K.idxOf (g.src (g.inner K)[e]), List.idxOf_lt_length_iff.2 (g.inner_mem K e).1⟩
  tgt e := ⟨K.idxOf (g.tgt (g.inner K)[e]), List.idxOf_lt_length_iff.2 (g.inner_mem K e).2⟩
  prod e := g.prod (g.inner K)[e]
  cons e := g.cons (g.inner K)[e]
  preload e := g.preload (g.inner K)[e]
  phases i := g.phases K[i]
  dur i := g.dur K[i]
  ni _ := 0

/-- The vertices kept for a component (symbolic_execution.cpp:417-426), in `ForEachVertex` order. -/
def keep (id : Fin nV → Int) (comp : List Int) : List (Fin nV) := (List.finRange nV).filter fun v => id v ∈ comp

/-- `computeComponentThroughput` (symbolic_execution.cpp:207-301) on a graph with its repetition vector: reference actor and
throughput if the main loop returns within `n` loop tests, `none` if it does not or if it fails. -/
def componentThroughput (g : Graph nV nE) (n : Nat) : Option (Fin nV × ℚ) :=
  match start g none true with
  | none => none
  | some (c, m) =>
    match result (run c m n) with
    | some (some t) => some (c.minActor, t)
    | _ => none

/-- Conversion of a `long double` to `int`: towards zero, undefined out of range. -/
def toInt (x : ℚ) : Option Int :=
  let z := x.num.tdiv x.den
  if -intMax - 1 ≤ z ∧ z ≤ intMax then some z else none

/-- `getVertexTotalDuration` (models/Dataflow.h:868-872): `std::accumulate` from the `int` 0, so that every partial sum is
converted to `int`. -/
def totalDuration (l : List ℚ) : Option Int := l.foldlM (fun s d => toInt (s + d)) 0

/-- The throughput of one component, in iterations of the whole graph (symbolic_execution.cpp:55-91); `some none`: the
component is skipped. A total duration of zero, which gives an infinite value in the code, is `none` here. -/
def scaledThroughput (g : Graph nV nE) (n : Nat) (K : List (Fin nV)) : Option (Option ℚ) :=
  if 0 < (g.inner K).length then do                                               -- line 56
    let s ← (g.sub K).repeated
    let r ← componentThroughput s n
    some (some (r.2 * s.ni r.1 / g.ni K[r.1]))                                    -- lines 62-63
  else
    match K with
    | [v] => do                                                                   -- line 68
      let d ← totalDuration (g.dur v)
      if d = 0 then none else some (some ((g.phases v : ℚ) / d / g.ni v))         -- lines 82-84
    | _ => some none

/-- `compute_asap_throughput` (symbolic_execution.cpp:33-103), each main loop being given `n` loop tests. -/
def asapThroughput (g : Graph nV nE) (id : Fin nV → Int) (n : Nat) : Option ℚ := do
  let g ← g.repeated
  let cs ← SCC.kosaraju (g.toSCC id)
  if cs.length > 1 then
    let ts ← cs.mapM fun comp => scaledThroughput g n (keep id comp)
    some (ts.foldl (fun m t => match t with | some t => if t < m then t else m | none => m) longMax)
  else
    (componentThroughput g n).map fun r => r.2

end Kiter.Sim
