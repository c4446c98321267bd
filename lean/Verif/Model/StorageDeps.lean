/-
Model of the storage dependencies of the self-timed execution with bounded buffers:
src/libkiter/algorithms/dse/abstract_dep_graph.cpp, `Actor::computeCausalDeps` (throughput/actor.cpp:236-270),
`computePeriodicStorageDeps`, `computeDeadlockStorageDeps` and the critical channels returned by
`computeComponentThroughputCycles` (throughput/symbolic_execution.cpp:303-407, 432-557).

The main loop is the machine of Model/SymbolicExecution.lean. The abstract dependency graph is a map of maps of booleans
keyed by vertex ids; ids are distinct, so it is written as a function of two vertices, and `id` is only used where the
order of the keys matters.
-/
import Verif.Model.SymbolicExecution
import Verif.Model.SCC

set_option autoImplicit false

namespace Kiter.Sim

variable {nV nE : Nat}

/-- `abstractDepGraph::abstractDependencyGraph` (abstract_dep_graph.h). -/
abbrev Dep (nV : Nat) := Fin nV → Fin nV → Bool

/-- The constructor (abstract_dep_graph.cpp:12-23): every entry is false. -/
def Dep.empty : Dep nV := fun _ _ => false

/-- `addCausalDep` (abstract_dep_graph.cpp:26-29). -/
def Dep.add (d : Dep nV) (v1 v2 : Fin nV) : Dep nV := fun a b => if a = v1 ∧ b = v2 then true else d a b

/-! ### Storage dependencies by strongly connected components -/

/-- The vertices in the order of their ids, which is the order of the keys of the maps. -/
def byId (id : Fin nV → Int) : List (Fin nV) := (List.finRange nV).insertionSort fun a b => id a ≤ id b

/-- The abstract dependency graph as the graph that the two searches of `computeStorageDependenciesSCC` go through: for a
vertex, the keys of true entries, in the order of the keys (abstract_dep_graph.cpp:146-147, 163-164). -/
def depGraph (id : Fin nV → Int) (d : Dep nV) : SCC.Graph where
  ids := (byId id).map id
  edges := (byId id).flatMap fun v => ((byId id).filter fun w => d v w).map fun w => (id v, id w)

/-- `computeStorageDependenciesSCC` (abstract_dep_graph.cpp:60-115) with `findStorageDepsFromSCC` (lines 117-136): the two
searches (lines 75-97, 138-168) are those of scc.cpp on another representation of the graph. The `std::set<Edge>` is the
list of its elements. -/
def storageDepsSCC (g : Graph nV nE) (id : Fin nV → Int) (d : Dep nV) : Option (List (Fin nE)) :=
  (SCC.kosaraju (depGraph id d)).map fun comps => (List.finRange nE).filter fun e =>
    d (g.src e) (g.tgt e) && comps.any fun c => decide (id (g.src e) ∈ c) && decide (id (g.tgt e) ∈ c)

/-! ### Storage dependencies by enumeration of cycles -/

/-- The variables that `computeCycles` changes: the abstract dependency graph itself, `visited`, `adjActors` (`none`: no
such key) and `storageDeps`. -/
structure Cyc (nV nE : Nat) where
  dep : Dep nV
  vis : Fin nV → Bool
  adj : Fin nV → Option (Fin nV)
  stor : Fin nE → Bool

/-- The `do ... while` loop (abstract_dep_graph.cpp:182-195), with a bound on the number of turns that stops it with
`none`. -/
def walk (g : Graph nV nE) (adj : Fin nV → Option (Fin nV)) (dst : Fin nV) :
    Nat → Fin nV → Fin nV → (Fin nE → Bool) → Option (Fin nE → Bool)
  | 0, _, _, _ => none
  | f + 1, v1, v2, stor =>
    let stor' := fun e => stor e || (decide (g.src e = v1) && decide (g.tgt e = v2))
    match adj v1 with
    | none => none
    | some v => if v1 = dst then some stor' else walk g adj dst f v v1 stor'

/-- `computeCycles` (abstract_dep_graph.cpp:171-209), with a bound on the depth of the recursion. -/
def computeCycles (g : Graph nV nE) : Nat → Fin nV → Cyc nV nE → Option (Cyc nV nE)
  | 0, _, _ => none
  | f + 1, s, x => do
    let y ← (List.finRange nV).foldlM (fun (y : Cyc nV nE) d =>
      if y.dep s d then
        if y.vis d then (walk g y.adj d (nV + 1) s d y.stor).map fun r => { y with stor := r }
        else computeCycles g f d { y with adj := Function.update y.adj d (some s) }
      else some y) { x with vis := Function.update x.vis s true }
    some { y with dep := fun a b => y.dep a b && decide (a ≠ s) && decide (b ≠ s), vis := Function.update y.vis s false }

/-- `computeStorageDependencies` (abstract_dep_graph.cpp:32-57). -/
def storageDepsCycles (g : Graph nV nE) (d : Dep nV) : Option (List (Fin nE)) := do
  let x ← (List.finRange nV).foldlM (fun (x : Cyc nV nE) v =>
    computeCycles g (nV + 1) v { x with adj := Function.update x.adj v (some v) })
    ⟨d, fun _ => false, fun _ => none, fun _ => false⟩
  some ((List.finRange nE).filter fun e => x.stor e)

/-- The choice between the two (symbolic_execution.cpp:494-498, 550-554). -/
def storageDeps (g : Graph nV nE) (id : Fin nV → Int) (corrected : Bool) (d : Dep nV) : Option (List (Fin nE)) :=
  if corrected then storageDepsSCC g id d else storageDepsCycles g d

/-! ### Recording of dependencies -/

/-- `computeDeadlockStorageDeps`, the loop over the channels (symbolic_execution.cpp:522-547). -/
def deadlockDeps (g : Graph nV nE) (acts : Fin nV → Act) (s : St nV nE) : Dep nV :=
  (List.finRange nE).foldl (fun d e =>
    let d1 := if s.tokens e < execRate g acts (g.tgt e) e then d.add (g.tgt e) (g.src e) else d
    if s.space e < execRate g acts (g.src e) e then d1.add (g.src e) (g.tgt e) else d1) Dep.empty

/-- `Actor::computeCausalDeps` (actor.cpp:236-270); `prev` is what is read of `prevState`, tokens and room. Edges are
visited in increasing order; the order of the insertions has no effect. -/
def causalDeps (g : Graph nV nE) (acts : Fin nV → Act) (prev : (Fin nE → Int) × (Fin nE → Int)) (a : Fin nV) (d : Dep nV) :
    Dep nV :=
  let d1 := (List.finRange nE).foldl (fun d e =>
    if g.tgt e = a ∧ prev.1 e < execRate g acts a e then d.add (g.tgt e) (g.src e) else d) d
  (List.finRange nE).foldl (fun d e =>
    if g.src e = a ∧ prev.2 e < execRate g acts a e then d.add (g.src e) (g.tgt e) else d) d1

/-- `prevState` in the main loop (symbolic_execution.cpp:322, 342-347), after `n` steps of the machine: the tokens and the
room at the last beginning of the body of the loop. -/
def mainPrev (c : Cfg nV nE) (m : Machine nV nE) : Nat → (Fin nE → Int) × (Fin nE → Int)
  | 0 => (m.st.tokens, m.st.space)
  | n + 1 => if (run c m n).pc = .advance then ((run c m (n + 1)).st.tokens, (run c m (n + 1)).st.space) else mainPrev c m n

/-- The variables of `computePeriodicStorageDeps`: those of the main loop, whether it is in the first loop that ends
executions, `prevState`, the abstract dependency graph, and whether it has found the recurrent state again. -/
structure Replay (nV nE : Nat) where
  m : Machine nV nE
  first : Bool
  prev : (Fin nE → Int) × (Fin nE → Int)
  dep : Dep nV
  done : Bool

/-- One loop test with its body, or one time advance (symbolic_execution.cpp:449-511). The statements that end and start
executions and advance time are those of the main loop without its list of visited states, which is what `step` does with
`detect` false (it then goes on adding to `visited`, which nothing reads). The result of `advanceTime` is not tested: the
program would loop forever where the machine stops at `deadlock`, and returns in neither case. -/
def replayStep (c : Cfg nV nE) (recurrent : St nV nE) (r : Replay nV nE) : Replay nV nE :=
  let m' := step ⟨c.g, c.cap, c.minActor, false⟩ r.m
  if r.done then r
  else match r.m.pc with
  | .ends [] => { r with m := m', first := false }
  | .ends (t :: _) =>
    if r.first = false ∧ readyToEnd r.m.st t = true ∧ t = c.minActor ∧ r.m.count + 1 = c.g.ni c.minActor ∧
        same r.m.st recurrent then { r with done := true }                        -- lines 485-501
    else { r with m := m' }
  | .starts (t :: _) =>
    if ready c.g c.cap r.m.acts r.m.st t then
      { r with m := m', dep := causalDeps c.g r.m.acts r.prev t r.dep }            -- lines 470-472
    else { r with m := m' }
  | .advance => { r with m := m', prev := (m'.st.tokens, m'.st.space) }            -- lines 475-481
  | .starts [] => { r with m := m' }
  | .deadlock => r
  | .recurrent _ => r

/-- `computePeriodicStorageDeps` on entry (symbolic_execution.cpp:440-447). -/
def replayStart (m : Machine nV nE) (prev : (Fin nE → Int) × (Fin nE → Int)) : Replay nV nE where
  m := { m with pc := .ends (List.finRange nV), st := { m.st with elapsed := 0 }, count := -1 }
  first := true
  prev := prev
  dep := Dep.empty
  done := false

/-- After `k` steps. -/
def replay (c : Cfg nV nE) (m : Machine nV nE) (prev : (Fin nE → Int) × (Fin nE → Int)) : Nat → Replay nV nE
  | 0 => replayStart m prev
  | k + 1 => replayStep c m.st (replay c m prev k)

/-- The abstract dependency graph from which `computeComponentThroughputCycles` computes the critical channels, if its main
loop returns within `n` steps and the replay of a period within `k` (symbolic_execution.cpp:361-363, 401-402). -/
def criticalDeps (c : Cfg nV nE) (m : Machine nV nE) (n k : Nat) : Option (Dep nV) :=
  match (run c m n).pc with
  | .deadlock => some (deadlockDeps c.g (run c m n).acts (run c m n).st)
  | .recurrent _ =>
    if (replay c (run c m n) (mainPrev c m n) k).done then some (replay c (run c m n) (mainPrev c m n) k).dep else none
  | _ => none

/-- The `critical_edges` of the result. -/
def criticalEdges (id : Fin nV → Int) (corrected : Bool) (c : Cfg nV nE) (m : Machine nV nE) (n k : Nat) :
    Option (List (Fin nE)) :=
  (criticalDeps c m n k).bind (storageDeps c.g id corrected)

end Kiter.Sim
