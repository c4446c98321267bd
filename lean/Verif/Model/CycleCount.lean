/-
Model of the command CycleCount: `find_simple_cycles` and the functions it calls
(src/libkiter/algorithms/analysis/cycle_detection.cpp:48-199).

The graph is seen through ids, as in the code. Loops and recursions without a bound carry a counter that stops them with `none`;
the theorems show that it is never exhausted. An iterator to nothing that is dereferenced or erased is `none`. The copy of a graph
and the removal of tasks keep the ids and the order of the rest. `INT_MAX` for no id is `none`: ids are taken to be less.
-/
import Verif.Model.SCC

set_option autoImplicit false

namespace Kiter.CycleCount

/-- A channel: its id and those of its source and target. -/
structure Channel where
  id : Int
  src : Int
  dst : Int
deriving DecidableEq

/-- What the command reads of a `Dataflow`. -/
structure Graph where
  ids : List Int
  channels : List Channel
deriving DecidableEq

/-- What `computeSCCKosaraju` reads of it. -/
def Graph.toSCC (g : Graph) : SCC.Graph := ⟨g.ids, g.channels.map fun c => (c.src, c.dst)⟩

/-- `removeVertex` (models/Dataflow.h:402-414) of the tasks that do not satisfy `p`: their channels are removed too. -/
def Graph.keep (g : Graph) (p : Int → Bool) : Graph := ⟨g.ids.filter p, g.channels.filter fun c => p c.src && p c.dst⟩

/-- `generate_subgraph` (cycle_detection.cpp:125-137). -/
def subgraph (g : Graph) (lower : Int) : Graph := g.keep fun i => decide (¬ i < lower)

/-- `std::min_element`, of a list that is not empty. -/
def minElement : List Int → Option Int
  | [] => none
  | a :: l => some (l.foldl (fun m x => if x < m then x else m) a)

/-- `find_smallest_index` (cycle_detection.cpp:87-99). -/
def smallest (cs : List (List Int)) : Option Int :=
  cs.foldl (fun m c =>
    if c.length > 1 then
      match minElement c, m with
      | some x, some y => if x < y then some x else some y
      | some x, none => some x
      | none, m => m
    else m) none

/-- `generate_scc` (cycle_detection.cpp:102-123): no component is undefined behaviour, the end of a function without a result. -/
def sccOf (g : Graph) (cs : List (List Int)) (start : Int) : Option Graph :=
  (cs.find? fun c => decide (start ∈ c)).map fun c => g.keep fun i => decide (i ∈ c)

/-- The globals `blocked_set`, `blocked_map` (no entry is the empty set) and `simple_cycles` (cycle_detection.cpp:20-23). -/
structure State where
  blocked : List Int
  waiting : Int → List Int
  cycles : List (List Int)

/-- `blocked_map[i].insert(a)`. -/
def State.wait (s : State) (i a : Int) : State :=
  ⟨s.blocked, fun j => if j = i then (if a ∈ s.waiting i then s.waiting i else (s.waiting i).orderedInsert (· ≤ ·) a) else s.waiting j,
    s.cycles⟩

/-- `unblock` (cycle_detection.cpp:140-157). -/
def unblock : ℕ → State → Int → Option State
  | 0, _, _ => none
  | n + 1, s, i =>
    if i ∈ s.blocked then
      ((s.waiting i).foldlM (fun (s : State) a => if a ∈ s.blocked then unblock n s a else some s)
        ⟨s.blocked.filter fun j => decide (j ≠ i), s.waiting, s.cycles⟩).map fun s =>
          ⟨s.blocked, fun j => if j = i then [] else s.waiting j, s.cycles⟩
    else none

/-- The last step of `find_simple_cycles_scc` (cycle_detection.cpp:188-196). -/
def finish (g : Graph) (cur : Int) (r : Bool × State) : Option (Bool × State) :=
  if r.1 then (unblock r.2.blocked.length r.2 cur).map fun s => (true, s)
  else some (false, (g.channels.filter fun c => decide (c.src = cur)).foldl (fun s c => s.wait c.dst cur) r.2)

/-- `find_simple_cycles_scc` (cycle_detection.cpp:160-199); `stack` is `dfs_stack` at the call. -/
def visit (g : Graph) (start : Int) : ℕ → List Int → Int → State → Option (Bool × State)
  | 0, _, _, _ => none
  | n + 1, stack, cur, s =>
    ((g.channels.filter fun c => decide (c.src = cur)).foldlM (fun (r : Bool × State) c =>
      if c.dst = start then some (true, ⟨r.2.blocked, r.2.waiting, r.2.cycles ++ [stack ++ [cur] ++ [start]]⟩)
      else if c.dst ∉ r.2.blocked then
        (visit g start n (stack ++ [cur]) c.dst r.2).map fun q => (r.1 || q.1, q.2)
      else some r) (false, ⟨if cur ∈ s.blocked then s.blocked else cur :: s.blocked, s.waiting, s.cycles⟩)).bind (finish g cur)

/-- The body of the loop for a smallest id (cycle_detection.cpp:57-65): the cycles after it. -/
def round (sub : Graph) (cs : List (List Int)) (m : Int) (cycles : List (List Int)) : Option (List (List Int)) :=
  (sccOf sub cs m).bind fun scc => (visit scc m scc.ids.length [] m ⟨[], fun _ => [], cycles⟩).map fun r => r.2.cycles

/-- The loop of `find_simple_cycles` (cycle_detection.cpp:52-69). -/
def rounds (g : Graph) : ℕ → Int → List (List Int) → Option (List (List Int))
  | 0, _, _ => none
  | n + 1, start, cycles =>
    if start ≤ g.ids.length then
      (SCC.kosaraju (subgraph g start).toSCC).bind fun cs =>
        match smallest cs with
        | none => some cycles
        | some m => (round (subgraph g start) cs m cycles).bind fun cycles => rounds g n (m + 1) cycles
    else some cycles

/-- `find_simple_cycles` (cycle_detection.cpp:48-84): the cycles printed, when the global list holds `before`. -/
def cycleCount (g : Graph) (before : List (List Int)) : Option (List (List Int)) := rounds g (g.ids.length + 1) 1 before

end Kiter.CycleCount
