/-
Model of the routing on the replica of the network used by the bufferless mapping
(src/libkiter/models/NoCGraph.h, NoCGraph.cpp; `createNoCGraph` of algorithms/mapping/BufferlessNoCMapAndRoute.cpp).

Nodes are `ℕ` (the ids are never negative). `INT_MAX` in the tables of costs and utilisations is `none`, which stands for
infinity; `-1` in the table of predecessors is `none`. Reading outside `linkUtil` (undefined) is `none`. The other tables
have one entry per node; a link to a node beyond them (undefined) is `none`.
-/
import Verif.Model.NoC
import Mathlib.Logic.Function.Basic
import Mathlib.Data.Nat.Sqrt

set_option autoImplicit false

namespace Kiter.NoC

/-- `createNoCGraph` (BufferlessNoCMapAndRoute.cpp:38-45) with `addEdge` (NoCGraph.cpp:25-33): the targets of the links
that leave a node, in the order of the links. -/
def adjacency (n : Net) (a : ℕ) : List ℕ := (n.links.filter fun l => l.src = (a : Int)).map fun l => l.dst.toNat

/-- The tables of `findPathDijkstra` (NoCGraph.cpp:216-219). -/
structure Tables where
  visited : ℕ → Bool
  prev : ℕ → Option ℕ
  cost : ℕ → Option ℕ
  util : ℕ → Option Int

/-- `a < b` for values of a table, `none` being `INT_MAX`. -/
def below (a b : Option ℕ) : Bool :=
  match a, b with
  | some x, some y => x < y
  | some _, none => true
  | none, _ => false

/-- `linkUtil[getMapIndex(x, y)]` (NoCGraph.h:82). -/
def readUtil (table : List Int) (V x y : ℕ) : Option Int := table[V + (x * V + y)]?

/-- The choice of the next node (NoCGraph.cpp:231-245): the first of the nodes not visited with the least cost. -/
def choose (V : ℕ) (s : Tables) : Option ℕ :=
  ((List.range V).foldl (fun (acc : Option ℕ × Option ℕ) j =>
    if s.visited j then acc else if below (s.cost j) acc.2 then (some j, s.cost j) else acc) (none, none)).1

/-- The comparison and the three updates (NoCGraph.cpp:260-265 and 333-338). -/
def improve (vid alt : ℕ) (myutil : Int) (s : Tables) (dst : ℕ) : Tables :=
  if (s.cost dst = some alt ∧ (match s.util dst with | some u => decide (myutil < u) | none => true) = true) ∨
      below (some alt) (s.cost dst) then
    { s with
      cost := Function.update s.cost dst (some alt)
      prev := Function.update s.prev dst (some vid)
      util := Function.update s.util dst (some myutil) }
  else s

/-- One link in `findPathDijkstra` (NoCGraph.cpp:252-266): the utilisation is read only if the target is not visited. -/
def relax (table : List Int) (V vid alt : ℕ) (s : Tables) (dst : ℕ) : Option Tables :=
  if V ≤ dst then none
  else if s.visited dst then some s
  else (readUtil table V vid dst).map fun u => improve vid alt u s dst

/-- One link in `findLowContentionPath` (NoCGraph.cpp:323-339): the utilisation is read first. -/
def relaxLimit (limit : Int) (table : List Int) (V vid alt : ℕ) (s : Tables) (dst : ℕ) : Option Tables :=
  (readUtil table V vid dst).bind fun u =>
    if u > limit then some s
    else if V ≤ dst then none
    else if s.visited dst then some s
    else some (improve vid alt u s dst)

/-- One turn of the loop over the nodes (NoCGraph.cpp:229-267 and 301-340). The cost of the node chosen is never
`INT_MAX`. -/
def visit (link : ℕ → ℕ → Tables → ℕ → Option Tables) (adj : ℕ → List ℕ) (V : ℕ) (s : Tables) : Option Tables :=
  match choose V s with
  | none => some s
  | some vid => (adj vid).foldlM (link vid ((s.cost vid).getD 0 + 1)) { s with visited := Function.update s.visited vid true }

/-- The tables before the loop (NoCGraph.cpp:216-227). -/
def tables0 (u : ℕ) : Tables :=
  ⟨fun _ => false, fun _ => none, Function.update (fun _ => none) u (some 0), fun _ => none⟩

/-- The whole loop (NoCGraph.cpp:229-267 and 301-340): `V` turns. -/
def explore (link : ℕ → ℕ → Tables → ℕ → Option Tables) (adj : ℕ → List ℕ) (V u : ℕ) : Option Tables :=
  (List.range V).foldlM (fun s _ => visit link adj V s) (tables0 u)

/-- Where the loop over the predecessors ends: at the source, or at a node without predecessor. -/
inductive Trail where
  | source (nodes : List ℕ)
  | noPath

/-- The loop over the predecessors from `i` (NoCGraph.cpp:270-271 and 343-352): the nodes met before `u`. `none` when the
number of steps is not enough. -/
def trail (prev : ℕ → Option ℕ) (u : ℕ) : ℕ → Option ℕ → Option Trail
  | 0, _ => none
  | fuel + 1, i =>
    if i = some u then some (.source [])
    else match i with
      | none => some .noPath
      | some i => (trail prev u fuel (prev i)).map fun
        | .source l => .source (i :: l)
        | .noPath => .noPath

/-- `findPathDijkstra` (NoCGraph.cpp:211-276), `u` and `d` already shifted by `MESH_SIZE`. Without a path the loop over
the predecessors reads `prev[-1]` (undefined): `none`. -/
def findPathDijkstra (table : List Int) (adj : ℕ → List ℕ) (V fuel u d : ℕ) : Option (List ℕ) :=
  if u = d then some []
  else (explore (relax table V) adj V u).bind fun s => (trail s.prev u fuel (s.prev d)).bind fun
    | .source l => some (d :: (l ++ [u])).reverse
    | .noPath => none

/-- `findLowContentionPath` (NoCGraph.cpp:280-361): an empty list when there is no path. -/
def findLowContentionPath (limit : Int) (table : List Int) (adj : ℕ → List ℕ) (V fuel u d : ℕ) : Option (List ℕ) :=
  if u = d then some []
  else (explore (relaxLimit limit table V) adj V u).bind fun s => (trail s.prev u fuel (s.prev d)).bind fun
    | .source l => some (d :: (l ++ [u])).reverse
    | .noPath => some []

/-- `findPathCost` (NoCGraph.cpp:139-150): the largest utilisation of the links of a path, at least 0. -/
def pathCost (table : List Int) (V : ℕ) : List ℕ → Option Int
  | a :: b :: p => (readUtil table V a b).bind fun u => (pathCost table V (b :: p)).map fun v => max u v
  | _ => some 0

/-- `findLeastCostPath` (NoCGraph.cpp:157-207): the search in depth; `stack` is `path`, the last node first, `best` is
`returnPath`. The nodes of the stack are the visited ones. `len` is the number of links still allowed
(`const_length - (path_index - 1)`). -/
def leastCost (table : List Int) (adj : ℕ → List ℕ) (V d : ℕ) : ℕ → List ℕ → List ℕ → Option (List ℕ)
  | _, [], best => some best
  | len, u :: stack, best =>
    if u = d then
      if (u :: stack).getLast? = some d then some best
      else
        let mypath := (u :: stack).reverse
        (pathCost table V mypath).bind fun new => (pathCost table V best).map fun curr =>
          if best = [] then mypath else if new < curr then mypath else best
    else match len with
      | 0 => some best
      | len + 1 => (adj u).foldlM (fun best i =>
          if V ≤ i then none
          else if i ∈ u :: stack then some best
          else leastCost table adj V d len (i :: u :: stack) best) best

/-- `getPath` (NoCGraph.h:48-69) with the nodes shifted by `MESH_SIZE`; `len` is `getPathLength(s, d)`. -/
def getPath (table : List Int) (adj : ℕ → List ℕ) (V len s d : ℕ) : Option (List ℕ) :=
  if s = d then some [] else leastCost table adj V d len [s] []

/-- The route of a path: the indices of its links (`dijkstra_findPaths`, bufferless_utils/GraphMapper.h:176-178). -/
def routeOf (V : ℕ) (p : List ℕ) : List Int := List.zipWith (fun (a b : ℕ) => mapIndex V a b) p p.tail

/-- `getPathLength` (NoCGraph.h:84-99) between two cores; the width of the mesh is taken to be the integer part of the
square root of the number of routers. -/
def pathLength (V src dst : ℕ) : Option ℕ :=
  if src = dst then some 0
  else
    let x := Nat.sqrt (V / 2)
    if x = 0 then none
    else some (((src % x : ℕ) - (dst % x : ℕ) : Int).natAbs + ((src / x : ℕ) - (dst / x : ℕ) : Int).natAbs + 2)

end Kiter.NoC
