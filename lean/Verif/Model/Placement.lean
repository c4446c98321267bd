/-
Model of the placement of the tasks on the cores of a mesh and of the choice of the routes by the command
BufferlessNoCMapAndRoute (src/libkiter/algorithms/mapping/BufferlessNoCMapAndRoute.cpp and
bufferless_utils/GraphMapper.h).

The graph without circuits that decides the order of the tasks (`to` of `taskAndNoCMapping`, made by `removeCycleEdges`) is
a parameter: any list of channels. The priority queue is replaced by any choice among the tasks it holds. Costs (`float` in
the code) are rationals. Writing outside a vector, taking the first element of an empty one, an exception or a failed
assertion are `none`. The arrays indexed by task ids have one entry per task and two more; the ids are taken to be below
that size.
-/
import Verif.Model.NoCGraph
import Mathlib.Data.Rat.Defs
import Mathlib.Algebra.Order.Ring.Rat

set_option autoImplicit false

namespace Kiter.BMap

open NoC

/-- A channel of a graph: its id and the ids of its end points. -/
structure Chan where
  id : ℕ
  src : ℕ
  dst : ℕ
deriving DecidableEq, Repr

/-- `getInputEdges`. -/
def ins (cs : List Chan) (v : ℕ) : List Chan := cs.filter fun e => e.dst = v

/-- `getOutputEdges`. -/
def outs (cs : List Chan) (v : ℕ) : List Chan := cs.filter fun e => e.src = v

/-- `getMapIndex` on task ids (NoCGraph.h:82), the key of the routes. -/
def key (V a b : ℕ) : ℕ := V + (a * V + b)

/-- The routes: a `std::map` from keys, as the list of its elements in the order of the keys. -/
abbrev Routes := List (ℕ × List Int)

/-- `routes[k] = r`. -/
def store (k : ℕ) (r : List Int) : Routes → Routes
  | [] => [(k, r)]
  | x :: l => if k < x.1 then (k, r) :: x :: l else if k = x.1 then (k, r) :: l else x :: store k r l

/-- What `dijkstra_mapping` changes (GraphMapper.h:187): `core_mapping` (-1 is `none`), `avail_cores`, the utilisation of
the links, `routes`. -/
structure Placed where
  cores : ℕ → Option ℕ
  avail : List ℕ
  util : List Int
  routes : Routes

/-- `curr_util[i] += 1`. -/
def bump (u : List Int) (i : ℕ) : Option (List Int) := u[i]?.map fun x => u.set i (x + 1)

/-- `setmap` (GraphMapper.h:157-164): the links of the path but the first and the last. Only called with two nodes at
least. -/
def setmap (V : ℕ) (p : List ℕ) (u : List Int) : Option (List Int) :=
  ((p.tail.zip p.tail.tail).dropLast).foldlM (fun u x => bump u (key V x.1 x.2)) u

/-- A route to find: from a core to a core, with the key it is stored under. -/
structure Want where
  src : ℕ
  dst : ℕ
  key : ℕ

/-- The routes that a task on a core needs (the loops of GraphMapper.h:216-232 and 241-265): from the cores of the tasks
before it, and to those of the tasks after it, when they have one. -/
def wanted (V : ℕ) (cs : List Chan) (cores : ℕ → Option ℕ) (v c : ℕ) : List Want :=
  ((ins cs v).filterMap fun e => (cores e.src).map fun s => ⟨s, c, key V e.src v⟩) ++
    ((outs cs v).filterMap fun e => (cores e.dst).map fun t => ⟨c, t, key V v e.dst⟩)

/-- What the loops over the channels update: `cont_l1`, `curr_util`, `store_path`. -/
structure Trial where
  cont : Int
  util : List Int
  routes : Routes

/-- `dijkstra_findPaths` and the update of `cont_l1` (GraphMapper.h:166-184, 249-250, 262-263): the path is chosen with the
utilisations of the network, `util`. On an empty path `paths.size()-1` wraps around and the loop reads outside. -/
def findPaths (V : ℕ) (adj : ℕ → List ℕ) (util : List Int) (t : Trial) (w : Want) : Option Trial :=
  (findPathDijkstra util adj V V (w.src + V / 2) (w.dst + V / 2)).bind fun p =>
    if p = [] then none
    else (pathCost util V p).bind fun cost => (setmap V p t.util).map fun u =>
      ⟨max cost t.cont, u, store w.key (routeOf V p) t.routes⟩

/-- The sum of `getPathLength` over the channels (GraphMapper.h:216-232). -/
def lengths (V : ℕ) (ws : List Want) : Option ℕ :=
  ws.foldlM (fun n w => (pathLength V w.src w.dst).map fun k => n + k) 0

/-- One core considered (GraphMapper.h:206-274): its cost, and the routes with the utilisations they lead to. -/
def evaluate (V : ℕ) (adj : ℕ → List ℕ) (cs : List Chan) (s : Placed) (v c : ℕ) : Option (ℚ × Trial) :=
  let ws := wanted V cs s.cores v c
  (lengths V ws).bind fun len => (ws.foldlM (findPaths V adj s.util) ⟨-1, s.util, []⟩).map fun t =>
    ((t.cont : ℚ) + (if ws.length > 0 then (len : ℚ) / ws.length else 0), t)

/-- The loop over the available cores (GraphMapper.h:206-283): `best_contention_l1` and what goes with it. -/
def search (V : ℕ) (adj : ℕ → List ℕ) (cs : List Chan) (s : Placed) (v : ℕ) : Option (ℚ × Option (ℕ × Trial)) :=
  s.avail.foldlM (fun (best : ℚ × Option (ℕ × Trial)) c => (evaluate V adj cs s v c).map fun r =>
    if best.1 = -1 ∨ r.1 < best.1 then (r.1, some (c, r.2)) else best) (-1, none)

/-- `dijkstra_mapping` (GraphMapper.h:187-298). `std::remove` and `resize` take the core out of the list, where it occurs
once. -/
def mapTask (V : ℕ) (adj : ℕ → List ℕ) (cs : List Chan) (s : Placed) (v : ℕ) : Option Placed :=
  match s.avail with
  | [] => none
  | first :: rest =>
    if (first :: rest).length = V / 2 then
      some { s with cores := Function.update s.cores v (some first), avail := rest }
    else (search V adj cs s v).bind fun best => best.2.map fun b =>
      ⟨Function.update s.cores v (some b.1), s.avail.erase b.1, b.2.util,
        b.2.routes.foldl (fun r x => store x.1 x.2 r) s.routes⟩

/-- The state of the loop of `taskAndNoCMapping`: `visited`, the queue, and what `dijkstra_mapping` changes. -/
structure Loop where
  visited : ℕ → Bool
  queue : List ℕ
  placed : Placed

/-- The tasks added to the queue after `v` (GraphMapper.h:108-130): one for each channel that leaves `v`, if its target is
not visited and the sources of all the channels that enter it are. -/
def pushed (dag : List Chan) (visited : ℕ → Bool) (v : ℕ) : List ℕ :=
  ((outs dag v).filter fun e => !visited e.dst && (ins dag e.dst).all fun e2 => visited e2.src).map fun e => e.dst

/-- One turn of the loop (GraphMapper.h:98-131) for the task `v` of the queue. -/
def turn (V : ℕ) (adj : ℕ → List ℕ) (cs dag : List Chan) (start : ℕ) (s : Loop) (v : ℕ) : Option Loop :=
  (if v = start then some s.placed else mapTask V adj cs s.placed v).map fun p =>
    let visited := Function.update s.visited v true
    ⟨visited, s.queue.erase v ++ pushed dag visited v, p⟩

/-- The loop (GraphMapper.h:98-131). `pick i q` is the task taken at turn `i` from the queue `q`. Each turn but that of
`start` takes a core, so that the number of turns given in `placement` is never what stops it. -/
def loop (V : ℕ) (adj : ℕ → List ℕ) (cs dag : List Chan) (start : ℕ) (pick : ℕ → List ℕ → ℕ) : ℕ → ℕ → Loop → Option Placed
  | 0, _, _ => none
  | fuel + 1, i, s =>
    if s.queue = [] then some s.placed
    else (turn V adj cs dag start s (pick i s.queue)).bind fun s => loop V adj cs dag start pick fuel (i + 1) s

/-- `taskAndNoCMapping` (GraphMapper.h:68-153) on a network of `V` nodes; `table` is the utilisation of the links after
`clear`. -/
def placement (V : ℕ) (adj : ℕ → List ℕ) (table : List Int) (cs dag : List Chan) (start : ℕ) (pick : ℕ → List ℕ → ℕ) :
    Option Placed :=
  loop V adj cs dag start pick (V + 2) 0
    ⟨Function.update (fun _ => false) start true, [start], ⟨fun _ => none, List.range (V / 2), table, []⟩⟩

/-- `clear` (NoCGraph.h:76). -/
def cleared (V : ℕ) : List Int := List.replicate (V * V) 0

/-- `updateNetworkOnChipModel` (BufferlessNoCMapAndRoute.cpp:108-120): the number of rows and of columns of the mesh for `n`
tasks. The square root is taken to be exact. -/
def meshRow (n : ℕ) (meshsize : Int) : ℕ :=
  if meshsize > 0 then meshsize.toNat
  else
    let r := Nat.sqrt n
    let row := if r * r = n then r else r + 1
    if row ≤ 2 then 2 else row

/-- What the command records: the nodes of the tasks and the routes of the channels, by ids. -/
structure Recorded where
  node : ℕ → Option Int
  route : ℕ → Option (List Int)

/-- `mapping[v] = node` with its assertion (BufferlessNoCMapAndRoute.cpp:361-371). -/
def setNode (m : Recorded) (v : ℕ) (node : Int) : Option Recorded :=
  match m.node v with
  | some n => if n = node then some m else none
  | none => some { m with node := Function.update m.node v (some node) }

/-- The two loops that look up the links of a route (BufferlessNoCMapAndRoute.cpp:346-350 and 373-379). -/
def checkLinks (n : Net) (V : ℕ) (r : List Int) : Bool :=
  r.all fun i => match mapIndexPair V i with
    | some (a, b) => match getLink n a b with
      | some l => l.id = i
      | none => false
    | none => false

/-- One route given to one channel (BufferlessNoCMapAndRoute.cpp:344-382). -/
def record (n : Net) (V : ℕ) (m : Recorded) (e : Chan) (r : List Int) : Option Recorded :=
  if checkLinks n V r then
    r.head?.bind fun first => r.getLast?.bind fun last =>
    (mapIndexPair V first).bind fun a => (mapIndexPair V last).bind fun b =>
    (setNode m e.src a.1).bind fun m => (setNode m e.dst b.2).map fun m =>
    { m with route := Function.update m.route e.id (some r) }
  else none

/-- The channels whose route has the key `k` (`generateEdgesMap`, BufferlessNoCMapAndRoute.cpp:270-284). -/
def withKey (V : ℕ) (cs : List Chan) (k : ℕ) : List Chan := cs.filter fun e => key V e.src e.dst = k

/-- The loop over the routes (BufferlessNoCMapAndRoute.cpp:342-384). -/
def recordAll (n : Net) (V : ℕ) (cs : List Chan) (routes : Routes) : Option Recorded :=
  routes.foldlM (fun m x => (withKey V cs x.1).foldlM (fun m e => record n V m e x.2) m) ⟨fun _ => none, fun _ => none⟩

/-- `BufferlessNoCMapAndRoute` (BufferlessNoCMapAndRoute.cpp:287-413) from `graphProcessing`'s call of
`taskAndNoCMapping` on, with the utilisations `table` after `clear`; `tasks` lists the ids of the tasks, `before` is the
mapping of the tasks before the command (-1 for none). The result is the mapping of the tasks and the routes of the
channels. -/
def mapAndRouteWith (table : ℕ → List Int) (tasks : List ℕ) (cs dag : List Chan) (start : ℕ) (pick : ℕ → List ℕ → ℕ)
    (meshsize : Int) (before : ℕ → Int) : Option ((ℕ → Int) × (ℕ → Option (List Int))) :=
  let r := meshRow tasks.length meshsize
  let n := generate r r
  let V := r * r * 2
  (placement V (adjacency n) (table V) cs dag start pick).bind fun p => (recordAll n V cs p.routes).bind fun m =>
    let node := fun v => (m.node v).getD (before v)
    if tasks.all fun v => node v ≥ 0 then some (node, m.route) else none

/-- `BufferlessNoCMapAndRoute` with the table of utilisations of the code. -/
def mapAndRoute (tasks : List ℕ) (cs dag : List Chan) (start : ℕ) (pick : ℕ → List ℕ → ℕ) (meshsize : Int)
    (before : ℕ → Int) : Option ((ℕ → Int) × (ℕ → Option (List Int))) :=
  mapAndRouteWith cleared tasks cs dag start pick meshsize before

end Kiter.BMap
