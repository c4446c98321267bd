/-
Model of the enumeration of the shortest paths of the replica of the network: `generateAllShortestPaths`,
`printAllPathsUtil` (src/libkiter/models/NoCGraph.cpp:35-137) and `getShortestPaths` (NoCGraph.h:38-42).

Nodes are `ℕ`. The map `paths` is a function: reading an absent key of a `std::map` gives the empty vector. The arrays
`visited` and `path` are the stack of the recursion, since a node is marked exactly while it is on the path.
-/
import Verif.Model.NoCGraph
import Mathlib.Data.List.ProdSigma

set_option autoImplicit false

namespace Kiter.NoC

/-- The map `paths` (NoCGraph.h:18). -/
abbrev PathTable := ℕ → List (List ℕ)

/-- `getMapIndex` (NoCGraph.h:82) for numbers that are not negative. -/
def pathIndex (V x y : ℕ) : ℕ := V + (x * V + y)

/-- `printAllPathsUtil` (NoCGraph.cpp:101-137) with `dumpPaths` set: `stack` is `path`, the last node first; `len` is the
number of links still allowed (`const_length - (path_index - 1)`); `M` is `MESH_SIZE`. -/
def allPaths (adj : ℕ → List ℕ) (V M d : ℕ) : ℕ → List ℕ → PathTable → Option PathTable
  | _, [], t => some t
  | len, u :: stack, t =>
    if u = d then
      match (u :: stack).getLast? with
      | none => some t
      | some first =>
        if first = d then some t
        else
          let k := pathIndex V (first - M) (d - M)
          some (Function.update t k (t k ++ [(u :: stack).reverse]))
    else match len with
      | 0 => some t
      | len + 1 => (adj u).foldlM (fun t i =>
          if V ≤ i then none
          else if i ∈ u :: stack then some t
          else allPaths adj V M d len (i :: u :: stack) t) t

/-- The body of the loops of `generateAllShortestPaths` (NoCGraph.cpp:44-68) for the cores `s` and `d`. -/
def allPathsFor (adj : ℕ → List ℕ) (V : ℕ) (t : PathTable) (p : ℕ × ℕ) : Option PathTable :=
  (pathLength V p.1 p.2).bind fun len =>
    if p.1 = p.2 then some (Function.update t (pathIndex V p.1 p.2) [])
    else allPaths adj V (V / 2) (p.2 + V / 2) len [p.1 + V / 2] t

/-- `generateAllShortestPaths` (NoCGraph.cpp:35-72): the two nested loops over the cores. -/
def generateAll (adj : ℕ → List ℕ) (V : ℕ) (t : PathTable) : Option PathTable :=
  (List.product (List.range (V / 2)) (List.range (V / 2))).foldlM (allPathsFor adj V) t

/-- `getShortestPaths` (NoCGraph.h:38-42). -/
def getShortestPaths (V : ℕ) (t : PathTable) (s d : ℕ) : List (List ℕ) := t (pathIndex V s d)

/-- The table of a new network. -/
def noPaths : PathTable := fun _ => []

end Kiter.NoC
