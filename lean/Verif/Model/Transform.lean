/-
Model of two transformations that rewrite a graph through the calls of `Dataflow`:
`singleOutput` (src/libkiter/algorithms/transformation/singleOutput.cpp) and the modelling of communications on a
network, `addPathNode` and `ModelNoCConflictFreeCommunication`
(src/libkiter/algorithms/mapping/modelCommunications.cpp).

Not modelled, because nothing below reads it: task types, mappings, reentrancy factors, channel types of the new
channels, and the tables of shared links that `addPathNode` fills for its caller.
-/
import Verif.Model.Dataflow

set_option autoImplicit false

namespace Kiter.DF

/-- `getOutputEdges` (Dataflow.h:425-430): the keys of the output channels, in the order of insertion (boost `vecS`). -/
def outKeys (s : State) (v : Nat) : List Nat := (s.edges.filter fun e => e.src == v).map fun e => e.key

/-- `getEdgeTarget`. -/
def targetOf (s : State) (k : Nat) : Option Nat := (edge s k).map fun e => e.tgt

/-- A channel with the rates 1 and 1: the three calls at singleOutput.cpp:42-44, 58-60 and 61-63. -/
def unitEdge (s : State) (a b : Nat) : Option State := do
  let s' ← addEdge s a b
  let s' ← setEdgeIn s' s.nextKey [1]
  setEdgeOut s' s.nextKey [1]

/-- One turn of the loop (singleOutput.cpp:28-70). A turn with fewer than two outputs does not happen (28). -/
def dupStep (s : State) (t : Nat) (cnt : Nat) : Option State := do
  let x ← s.verts[t]?
  let dup := s.verts.length
  let s ← named (addVertex s) (x.name ++ "_Dup" ++ toString cnt)
  let s ← setPhases s dup 1
  let s ← setDurs s dup [1]
  let s ← unitEdge s t dup
  match outKeys s t with
  | c1 :: c2 :: _ => do
    let w1 ← targetOf s c1
    let s ← unitEdge s dup w1
    let w2 ← targetOf s c2
    let s ← unitEdge s dup w2
    let s ← removeEdge s c1
    removeEdge s c2
  | _ => none

/-- How a loop ended: it is still running, the program ended with an error, or it returned. -/
inductive Outcome where
  | running
  | failed
  | done (s : State)
deriving DecidableEq

/-- The loop (singleOutput.cpp:28-71), at most `fuel` turns. -/
def dupLoop (t : Nat) : Nat → Nat → State → Outcome
  | 0, _, _ => .running
  | fuel + 1, cnt, s =>
    if (outKeys s t).length > 1 then
      match dupStep s t cnt with
      | none => .failed
      | some s => dupLoop t fuel (cnt + 1) s
    else .done s

/-- `singleOutput` (singleOutput.cpp:11-78) with the parameter `name`, at most `fuel` turns of the loop. Without the
parameter nothing is done (15-18). -/
def singleOutput (fuel : Nat) (name : Option String) (s : State) : Outcome :=
  match name with
  | none => .done s
  | some n =>
    match vertexByName s n with
    | none => .failed
    | some t => dupLoop t fuel 0 s

/-- The new task of one link or router (modelCommunications.cpp:75-91, 124-142). -/
def pathTask (s : State) (nm : String) (d : ℚ) : Option State := do
  let v := s.verts.length
  let s ← addVertex s
  let s ← setVertexName s v nm
  let s ← setPhases s v 1
  setDurs s v [d]

/-- A channel of the chain other than the last (modelCommunications.cpp:102-118, 145-151). The name holds the id of the
channel. -/
def pathEdge (s : State) (a b : Nat) (rate : Int) : Option State := do
  let k := s.nextKey
  let s ← addEdge s a b
  let e ← edge s k
  let s ← setEdgeName s k ("artificial_" ++ toString e.id)
  let s ← setEdgeIn s k [rate]
  let s ← setEdgeOut s k [1]
  setPreload s k 0

/-- The loop over the links of the route (modelCommunications.cpp:73-156). `eid` is the id of the channel replaced, `src`
the current end of the chain, `rate` the production rate of the next channel (`inrate` in the first turn, then 1),
`known` the links of the network (`getEdge` of an unknown link throws) and `routers` the flag `addConfigNode`. The result
is the end of the chain. -/
def pathLoop (known : Int → Bool) (routers : Bool) (eid : Int) : State → Nat → Int → List Int → Option (State × Nat)
  | s, src, _, [] => some (s, src)
  | s, src, rate, e :: rest => do
    let mid := s.verts.length
    let s ← pathTask s ("link-" ++ toString eid ++ "_" ++ toString e) 1
    let s ← pathEdge s src mid rate
    match routers, rest with
    | true, e2 :: _ =>
      if known e then do
        let vtx := s.verts.length
        let s ← pathTask s ("router-" ++ toString eid ++ "_" ++ toString e ++ "_" ++ toString e2) 0
        let s ← pathEdge s mid vtx 1
        pathLoop known routers eid s vtx 1 rest
      else none
    | _, _ => pathLoop known routers eid s mid 1 rest

/-- `addPathNode` (modelCommunications.cpp:32-166) for the channel `k` with the route `route`; `virt` says that the
channel is of type `VIRTUAL_EDGE`. -/
def addPathNode (known : Int → Bool) (routers virt : Bool) (s : State) (k : Nat) (route : List Int) : Option State := do
  let e ← edge s k
  if route = [] ∧ virt = true then some s
  else
    let s := reset s
    let a ← s.verts[e.src]?
    let b ← s.verts[e.tgt]?
    if a.id = b.id then some s
    else do
      let s ← removeEdge s k
      let (s, last) ← pathLoop known routers e.id s e.src e.totIn route
      let k2 := s.nextKey
      let s ← addEdge s last e.tgt
      let e2 ← edge s k2
      let s ← setEdgeName s k2 ("final_" ++ toString e2.id)
      let s ← setEdgeOut s k2 [e.totOut]
      let s ← setEdgeIn s k2 [1]
      setPreload s k2 e.preload

/-- `ModelNoCConflictFreeCommunication` (modelCommunications.cpp:240-299): the loop over the channels present at the
start, by their ids. `route` and `virt` give the route and the type of a channel by its id (neither changes for a channel
that is still to be processed). The mapping of every task is checked first (250-257) and `reset_computation` ends it. -/
def modelCommunications (known : Int → Bool) (virt : Int → Bool) (route : Int → List Int) (s : State) : Option State := do
  let s ← (s.edges.map fun e => e.id).foldlM (fun (s : State) (id : Int) => do
    let k ← edgeById s id
    addPathNode known true (virt id) s k (route id)) s
  some (reset s)

end Kiter.DF
