/-
Model of the steps by which the command SoftwareControlledNoCBufferless puts the transfers into the graph
(src/libkiter/algorithms/software_noc.cpp): `addPathNode` 1018-1131 replaces a channel by a chain of links and router
configurations, `resolveSrcConflicts` 1706-1823 replaces the first links of all the chains of a task by one task, which sends
one token after the other, and `removeAllEdgesVertex` 1265-1274.

Not modelled, because nothing below reads it: reentrancy factors, channel types, and the tables of shared links and
configurations. Rates are not negative and are read as `int` at 1758: the totals of a channel have 32 bits (see C10).
-/
import Verif.Model.Transform
import Verif.Model.Conflict

set_option autoImplicit false

namespace Kiter.DF

/-- A channel of the chain other than the last (software_noc.cpp:1070-1085, 1114-1119): it has no name. -/
def swEdge (s : State) (a b : Nat) (rate : Int) : Option State := do
  let k := s.nextKey
  let s ← addEdge s a b
  let s ← setEdgeIn s k [rate]
  let s ← setEdgeOut s k [1]
  setPreload s k 0

/-- The loop over the links of the route (software_noc.cpp:1050-1124), with `addConfigNode`, as in the only call (2179). `a`
and `b` are the ids of the source and the target of the channel replaced, `src` is the current end of the chain and `rate`
the production rate of the next channel. The result is the end of the chain. -/
def swLoop (a b : Int) : State → Nat → Int → List Int → Option (State × Nat)
  | s, src, _, [] => some (s, src)
  | s, src, rate, e :: rest => do
    let mid := s.verts.length
    let s ← pathTask s ("mid-" ++ toString a ++ "-" ++ toString b ++ "_" ++ toString e) 1
    let s ← swEdge s src mid rate
    match rest with
    | e2 :: _ => do
      let vtx := s.verts.length
      let s ← pathTask s ("cfg-" ++ toString a ++ "_" ++ toString b ++ "-" ++ toString e ++ "_" ++ toString e2) 0
      let s ← swEdge s mid vtx 1
      swLoop a b s vtx 1 rest
    | [] => swLoop a b s mid 1 rest

/-- `addPathNode` (software_noc.cpp:1018-1131) for the channel `k` with the route `route`. -/
def swPath (s : State) (k : Nat) (route : List Int) : Option State := do
  let s := reset s
  let e ← edge s k
  let a ← s.verts[e.src]?
  let b ← s.verts[e.tgt]?
  if a.id = b.id then some s
  else do
    let s ← removeEdge s k
    let (s, last) ← swLoop a.id b.id s e.src e.totIn route
    let k2 := s.nextKey
    let s ← addEdge s last e.tgt
    let s ← setEdgeOut s k2 [e.totOut]
    let s ← setEdgeIn s k2 [1]
    setPreload s k2 e.preload

/-- `getOutputEdges`, `getInputEdges` (Dataflow.h:419-430). -/
def outEdges (s : State) (v : Nat) : List Edg := s.edges.filter fun e => e.src == v
def inEdges (s : State) (v : Nat) : List Edg := s.edges.filter fun e => e.tgt == v

/-- `commons::findInVector(origV, getVertexId(v))`: the task is one of the original graph. -/
def isOriginal (orig : List Int) (s : State) (v : Nat) : Bool := (s.verts[v]?).any fun x => orig.contains x.id

/-- `srcedges` (software_noc.cpp:1719-1747): the program ends if the task still has a channel to a task of the original graph,
itself included. -/
def srcEdges (orig : List Int) (s : State) (src : Nat) : Option (List Edg) :=
  if (outEdges s src).any fun e => isOriginal orig s e.tgt then none
  else some ((outEdges s src).filter fun e => e.tgt ≠ src)

/-- `rtredges` (software_noc.cpp:1737-1740). -/
def rtrEdges (s : State) (srcs : List Edg) : List Edg :=
  srcs.flatMap fun e => (outEdges s e.tgt).filter fun f => e.tgt ≠ f.tgt

/-- `mygcd` (software_noc.cpp:1732-1735). -/
def flowGcd (srcs : List Edg) : Option Int :=
  srcs.foldlM (fun g e => if g = 0 then some e.totIn
    else (SNoC.gcdExtended (e.totIn.natAbs + 1) e.totIn.natAbs g.natAbs).map fun r => (r.1 : Int)) 0

/-- `token_vec[j]` (software_noc.cpp:1761-1779), where channel `i` is served in `ns[i]` phases: 1 in the phases of channel
`j`. -/
def tokenVec (ns : List Nat) (j : Nat) : List Int :=
  (ns.zipIdx.map fun p => List.replicate p.1 (if p.2 = j then (1 : Int) else 0)).flatten

/-- `removeAllEdgesVertex` (software_noc.cpp:1265-1274). Its loops go through lists they remove from: with one input and one
output channel this ends after each; otherwise it uses invalid iterators, which is undefined. -/
def removeRouter (s : State) (v : Nat) : Option State :=
  match inEdges s v, outEdges s v with
  | [e], [f] => (removeEdge s e.key).bind fun s => removeEdge s f.key
  | _, _ => none

/-- A turn of the last loop (software_noc.cpp:1803-1821): `f` is `rtredges[i]`, `l` is `token_vec[i]`. -/
def serveStep (mid : Nat) (s : State) (f : Edg) (l : List Int) : Option State := do
  let s ← removeRouter s f.src
  let k := s.nextKey
  let s ← addEdge s mid f.tgt
  let s ← setEdgeIn s k l
  let s ← setEdgeOut s k [1]
  setPreload s k f.preload

/-- The new task `mid` and the channel to it (software_noc.cpp:1785-1800); `nm` is its name, `n` its number of phases. -/
def serveTask (s : State) (src : Nat) (nm : String) (n : Int) (g preload : Int) : Option State := do
  let mid := s.verts.length
  let s ← addVertex s
  let s ← setVertexName s mid nm
  let s ← setPhases s mid n
  let s ← setDurs s mid (List.replicate n.toNat 1)
  let k := s.nextKey
  let s ← addEdge s src mid
  let s ← setPreload s k preload
  let s ← setEdgeIn s k [n * g]
  setEdgeOut s k (List.replicate n.toNat 1)

/-- The loop over `rtredges` (software_noc.cpp:1803-1821). -/
def serveAll (mid : Nat) (ns : List Nat) : List Edg → Nat → State → Option State
  | [], _, s => some s
  | f :: fs, i, s => (serveStep mid s f (tokenVec ns i)).bind fun s => serveAll mid ns fs (i + 1) s

/-- `resolveSrcConflicts` (software_noc.cpp:1706-1823); the tables of `removeOrphanNodes` and the result are left out. -/
def resolveSrc (orig : List Int) (s : State) (src : Nat) : Option State := do
  let srcs ← srcEdges orig s src
  let rtr := rtrEdges s srcs
  let g ← flowGcd srcs
  if srcs.length ≠ rtr.length then none
  else if srcs.length ≤ 1 then some s
  else if ¬ 0 < g then none
  else do
    let flow := (srcs.map Edg.totIn).sum.tdiv g
    if ¬ 0 < flow then none
    else do
      let x ← s.verts[src]?
      let mid := s.verts.length
      let s ← serveTask s src (toString x.id ++ "-S") flow g (srcs.map Edg.preload).sum
      serveAll mid (srcs.map fun (e : Edg) => (e.totIn.tdiv g).toNat) rtr 0 s

end Kiter.DF
