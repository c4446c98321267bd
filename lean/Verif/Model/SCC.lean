/-
Model of algorithms/scc.cpp (Kosaraju) and of `has_cycles` (algorithms/analysis/cycle_detection.cpp:33-42).

The graph is seen through ids, as in the code. The recursion of the code has no bound; here it carries a counter that stops
it with `none`, and `C43_exact` shows that the counter is never exhausted. `std::map<ARRAY_INDEX, bool>` with value true
is membership in the list `vis`.
-/
import Mathlib.Data.List.Sort

set_option autoImplicit false

namespace Kiter.SCC

/-- What the algorithms read of a `Dataflow`: the ids of its tasks (`ForEachTask`, `getVertexId`) and, per channel, the ids
of its source and target. -/
structure Graph where
  ids : List Int
  edges : List (Int × Int)

/-- `ForOutputEdges(dataflow, startActor, e)` with `getVertexId(getEdgeTarget(e))` (scc.cpp:62-63). -/
def Graph.succ (g : Graph) (v : Int) : List Int := (g.edges.filter fun e => e.1 = v).map fun e => e.2

/-- `ForInputEdges(dataflow, startActor, e)` with `getVertexId(getEdgeSource(e))` (scc.cpp:78-79). -/
def Graph.pred (g : Graph) (v : Int) : List Int := (g.edges.filter fun e => e.2 = v).map fun e => e.1

/-- `computeDFSStack` (scc.cpp:53-67) on (visited, dfsOrder), the top of the stack first. -/
def dfsStack (g : Graph) : Nat → Int → List Int × List Int → Option (List Int × List Int)
  | 0, _, _ => none
  | f + 1, v, s =>
    if v ∈ s.1 then some s
    else do
      let t ← (g.succ v).foldlM (fun s n => dfsStack g f n s) (v :: s.1, s.2)
      some (t.1, v :: t.2)

/-- `dfsTranspose` (scc.cpp:70-82) on (visited, sccActors). -/
def dfsTranspose (g : Graph) : Nat → Int → List Int × List Int → Option (List Int × List Int)
  | 0, _, _ => none
  | f + 1, v, s =>
    if v ∈ s.1 then some s
    else (g.pred v).foldlM (fun s n => dfsTranspose g f n s) (v :: s.1, s.2 ++ [v])

/-- The body of the second loop (scc.cpp:37-46) on (visited, the entries of sccMap in order 1, 2, ...). -/
def popStack (g : Graph) (f : Nat) (s : List Int × List (List Int)) (v : Int) : Option (List Int × List (List Int)) :=
  if v ∈ s.1 then some s
  else do
    let t ← dfsTranspose g f v (s.1, [])
    some (t.1, s.2 ++ [t.2])

/-- `computeSCCKosaraju` (scc.cpp:15-50). The map `visitedActors` is read in increasing order of ids. -/
def kosaraju (g : Graph) : Option (List (List Int)) := do
  let f := g.ids.length + 1
  let t ← (g.ids.insertionSort (· ≤ ·)).foldlM (fun s v => if v ∈ s.1 then some s else dfsStack g f v s) ([], [])
  let r ← t.2.foldlM (popStack g f) ([], [])
  some r.2

/-- `has_cycles` (cycle_detection.cpp:33-42). -/
def hasCycles (g : Graph) : Option Bool := (kosaraju g).map fun r => r.any fun c => decide (c.length > 1)

end Kiter.SCC
