/-
Model of the graph that decides the order of the tasks in the command BufferlessNoCMapAndRoute: the search of the circuits
(src/libkiter/algorithms/mapping/bufferless_utils/SCCFinder.h) and the removal of channels that close them
(`graphProcessing`, `removeCycleEdges` and `DFSUtil_PgmOrder` of algorithms/mapping/BufferlessNoCMapAndRoute.cpp).

The recursive searches have a bound on their depth, which is never reached (`C113_order`); reaching it would be `none`.
Writing or reading outside a vector is `none`.
-/
import Verif.Model.Placement
import Mathlib.Data.List.Sort

set_option autoImplicit false

namespace Kiter.Cut

open BMap

/-- The recursion common to `fillOrder`, `DFSUtil`, `updateAncestorsHelper` (SCCFinder.h:251-265, 209-223, 109-122) and
`DFSUtil_PgmOrder` (BufferlessNoCMapAndRoute.cpp:122-139): mark the vertex and do `enter`, treat the channels in order
(if the vertex at the other end is marked, do `seen`, otherwise go there), then do `leave`. -/
def dfs {σ : Type} (next : ℕ → List Chan) (far : Chan → ℕ) (enter : ℕ → σ → σ) (seen : Chan → σ → σ) (leave : ℕ → σ → σ) :
    ℕ → ℕ → (ℕ → Bool) × σ → Option ((ℕ → Bool) × σ)
  | 0, _, _ => none
  | fuel + 1, v, s =>
    ((next v).foldlM (fun (s : (ℕ → Bool) × σ) e => if s.1 (far e) then some (s.1, seen e s.2)
      else dfs next far enter seen leave fuel (far e) s) (Function.update s.1 v true, enter v s.2)).map
        fun s => (s.1, leave v s.2)

/-- The loop that starts the recursion from each vertex of a list that is not marked yet. -/
def dfsAll {σ : Type} (next : ℕ → List Chan) (far : Chan → ℕ) (enter : ℕ → σ → σ) (seen : Chan → σ → σ) (leave : ℕ → σ → σ)
    (fuel : ℕ) (vs : List ℕ) (s : (ℕ → Bool) × σ) : Option ((ℕ → Bool) × σ) :=
  vs.foldlM (fun s v => if s.1 v then some s else dfs next far enter seen leave fuel v s) s

/-- The start of `graphProcessing` (BufferlessNoCMapAndRoute.cpp:209-241): a channel from `start` to each task without
input, or to the first task if there is none. The ids of these channels are not used; they are 0. -/
def withStart (vs : List ℕ) (cs : List Chan) (start : ℕ) : Option (List Chan) :=
  match vs with
  | [] => none
  | first :: _ =>
    let inputs := vs.filter fun v => ins cs v = []
    some (cs ++ (if inputs = [] then [first] else inputs).map fun v => ⟨0, start, v⟩)

/-- The order of the vertices on the stack (SCCFinder.h:36-49), the last pushed first. -/
def fillOrder (vs : List ℕ) (cs : List Chan) (start fuel : ℕ) : Option (List ℕ) :=
  (dfsAll (outs cs) Chan.dst (fun _ s => s) (fun _ s => s) (fun v s => v :: s) fuel (start :: vs) (fun _ => false, [])).map
    fun s => s.2

/-- `getTranspose` (SCCFinder.h:225-248): for each vertex in order, its output channels turned around. -/
def transpose (vs : List ℕ) (cs : List Chan) : List Chan := vs.flatMap fun v => (outs cs v).map fun e => ⟨e.id, e.dst, e.src⟩

/-- `cycles` and a set of indices in it. -/
structure Found where
  cycles : List (List ℕ)
  ids : List ℕ

/-- A circuit that is found (SCCFinder.h:157-174): its vertices in increasing order are looked for among those known. -/
def found (path : List ℕ) (s : Found) : Found :=
  let temp := path.insertionSort (· ≤ ·)
  match s.cycles.findIdx? fun c => c = temp with
  | some i => ⟨s.cycles, if i ∈ s.ids then s.ids else s.ids ++ [i]⟩
  | none => ⟨s.cycles ++ [temp], s.ids ++ [s.cycles.length]⟩

/-- `my_dfs` (SCCFinder.h:150-192). The vertices marked are those of `path`; the code takes back what it adds to `path`
before it returns. -/
def circuits (cs : List Chan) (start : ℕ) : ℕ → ℕ → List ℕ → Found → Option Found
  | 0, _, _, _ => none
  | fuel + 1, node, path, s =>
    if node ∈ path then some (if node = start then found path s else s)
    else (outs cs node).foldlM (fun s e => circuits cs start fuel e.dst (path ++ [node]) s) s

/-- `cycles`, and for each vertex the set of the indices of circuits, `cycid_per_vtxid`. -/
structure Circuits where
  cycles : List (List ℕ)
  of : ℕ → List ℕ

/-- `cycid_per_vtxid[v].insert(i)` for all `i` of a set. -/
def insertAll (l new : List ℕ) : List ℕ := new.foldl (fun l i => if i ∈ l then l else l ++ [i]) l

/-- `my_dfs_wrapper` and `updateAncestorsCycle` for one vertex (SCCFinder.h:74-79, 126-131, 195-206). -/
def treat (cs : List Chan) (fuel : ℕ) (s : Circuits) (v : ℕ) : Option Circuits :=
  (circuits cs v fuel v [] ⟨s.cycles, []⟩).bind fun f =>
    (dfs (ins cs) Chan.src (fun w (c : ℕ → List ℕ) => Function.update c w (insertAll (c w) f.ids)) (fun _ c => c)
      (fun _ c => c) fuel v (fun _ => false, s.of)).map fun r => ⟨f.cycles, r.2⟩

/-- One vertex of the stack in the second search (SCCFinder.h:60-81). -/
def component (vs : List ℕ) (cs : List Chan) (fuel : ℕ) (s : (ℕ → Bool) × Circuits) (v : ℕ) :
    Option ((ℕ → Bool) × Circuits) :=
  if s.1 v then some s
  else (dfs (outs (transpose vs cs)) Chan.dst (fun v l => l ++ [v]) (fun _ l => l) (fun _ l => l) fuel v (s.1, [])).bind
    fun r =>
      (if r.2.length > 1 then r.2.foldlM (treat cs fuel) s.2 else some s.2).map fun c => (r.1, c)

/-- `printSCCs` (SCCFinder.h:34-95) on the graph with `start`: the lengths of the circuits of each vertex,
`cyclen_per_vtxid`, in increasing order. -/
def circuitLengths (vs : List ℕ) (cs : List Chan) (start : ℕ) : Option (ℕ → List ℕ) :=
  let fuel := vs.length + 3
  (fillOrder vs cs start fuel).bind fun stack =>
    (stack.foldlM (component (vs ++ [start]) cs fuel) (fun _ => false, ⟨[], fun _ => []⟩)).map fun r => fun v =>
      ((r.2.of v).map fun i => (r.2.cycles.getD i []).length).insertionSort (· ≤ ·)

/-- `removeCycleEdges` (BufferlessNoCMapAndRoute.cpp:143-191): the channels left, with those from `start` to the tasks that
no channel enters any more. `size` is the number of entries of `visited`, which is indexed by the ids. -/
def removeCycleEdges (size : ℕ) (vs : List ℕ) (cs : List Chan) (prog : List ℕ) (cyclen : ℕ → List ℕ) (start : ℕ) :
    Option (List Chan) :=
  if vs.any fun v => size ≤ v then none
  else (dfsAll (outs cs) Chan.dst (fun _ l => l) (fun e l => if (cyclen e.dst).length > 0 then l ++ [e.id] else l) (fun _ l => l)
      (vs.length + 1) prog (fun _ => false, [])).map fun r =>
    let kept := cs.filter fun e => e.id ∉ r.2
    kept ++ (vs.filter fun v => ins kept v = []).map fun v => ⟨0, start, v⟩

/-- `graphProcessing` up to the call of `taskAndNoCMapping` (BufferlessNoCMapAndRoute.cpp:195-263), for an order `prog` of
the tasks given by `generate_task_order` and a number of entries of `visited` in `removeCycleEdges`. -/
def orderGraphWith (size : ℕ) (vs : List ℕ) (cs : List Chan) (prog : List ℕ) (start : ℕ) : Option (List Chan) :=
  (withStart vs cs start).bind fun g => (circuitLengths vs g start).bind fun cyclen =>
    removeCycleEdges size vs cs prog cyclen start

/-- The same with the number of entries of the code: as many as there are tasks (BufferlessNoCMapAndRoute.cpp:144-145). -/
def orderGraph (vs : List ℕ) (cs : List Chan) (prog : List ℕ) (start : ℕ) : Option (List Chan) :=
  orderGraphWith vs.length vs cs prog start

end Kiter.Cut
