/-
Model of the class `models::Dataflow` (src/libkiter/models/Dataflow.h): the calls that create, remove, identify, name and
annotate tasks and channels, the flags that protect computed results, and the cache of channel granularities.

`FAILED`, `VERBOSE_ASSERT` and `VERBOSE_FAILURE` end the program (release) or throw a pointer nobody catches (debug,
commons/verbose.h:86-90): such a call is `none`. Using a vertex or edge that does not exist is undefined in boost: `none`.

A `Vertex` is its position (boost `vecS`: removing a vertex shifts the later ones). An `Edge` of boost holds the address
of its property; `key` stands for that address.
-/
import Verif.Model.Repetition
import Mathlib.Data.Rat.Floor
import Mathlib.Data.Int.Init

set_option autoImplicit false

namespace Kiter.DF

/-- Task properties (Dataflow.h:91-102) that the calls below use; `durs`/`idurs` are the durations of the phases and
of the initial phases, `iphases` the number of initial phases. -/
structure Vtx where
  id : Int
  name : String
  phases : Int
  ni : Int
  durs : List ℚ
  iphases : Int
  idurs : List ℚ
deriving DecidableEq, Repr

/-- Channel properties (Dataflow.h:104-119); `ins`/`outs` are production and consumption per phase,
`iins`/`iouts` those of the initial phases. -/
structure Edg where
  key : Nat
  src : Nat
  tgt : Nat
  id : Int
  name : String
  ins : List Int
  outs : List Int
  totIn : Int
  totOut : Int
  preload : Int
  iins : List Int
  iouts : List Int
deriving DecidableEq, Repr

/-- `Dataflow` (Dataflow.h:272-286) with `channelGCDA` (line 917) as association list. `nextKey` is a ghost. -/
structure State where
  readonly : Bool
  normalized : Bool
  repDone : Bool
  verts : List Vtx
  edges : List Edg
  autoV : Int
  autoE : Int
  cache : List (Int × Int)
  nextKey : Nat
deriving DecidableEq, Repr

/-- Constructor (Dataflow.h:301-305). -/
def empty : State := ⟨false, false, false, [], [], 1, 1, [], 0⟩

/-- `reset_computation` (Dataflow.h:314). -/
def reset (s : State) : State := { s with repDone := false, normalized := false, readonly := false }

/-- `ASSERT_WRITABLE(); reset_computation();`, the first two lines of every edit (macro at Dataflow.h:254). -/
def edit (s : State) : Option State := if s.readonly then none else some (reset s)

/-- `boost::put` of a task property. -/
def modV (s : State) (v : Nat) (f : Vtx → Vtx) : Option State :=
  if v < s.verts.length then some { s with verts := s.verts.modify v f } else none

/-- `boost::put` of a channel property. -/
def modE (s : State) (k : Nat) (f : Edg → Edg) : Option State :=
  if s.edges.any (fun e => e.key == k) then some { s with edges := s.edges.map fun e => if e.key = k then f e else e }
  else none

/-- The properties behind an `Edge`. -/
def edge (s : State) (k : Nat) : Option Edg := s.edges.find? fun e => e.key == k

/-- `getVertexById` (Dataflow.h:449-453): the first one; `none` is the exception `out_of_range`. -/
def vertexById (s : State) (id : Int) : Option Nat := s.verts.findIdx? fun v => v.id == id
/-- `getEdgeById` (Dataflow.h:455-457). -/
def edgeById (s : State) (id : Int) : Option Nat := (s.edges.find? fun e => e.id == id).map fun e => e.key
/-- `getVertexByName` (Dataflow.h:549-552). -/
def vertexByName (s : State) (n : String) : Option Nat := s.verts.findIdx? fun v => v.name == n
/-- `getEdgeByName` (Dataflow.h:560-566). -/
def edgeByName (s : State) (n : String) : Option Nat := (s.edges.find? fun e => e.name == n).map fun e => e.key

/-- `setVertexId` with `setVertexIdUnsafe` (Dataflow.h:460-481). -/
def setVertexId (s : State) (v : Nat) (id : Int) : Option State := do
  let s ← edit s
  match vertexById s id with
  | some o => if o = v then some s else none
  | none => do
    let s ← edit s
    let s ← modV s v fun x => { x with id := id }
    some { s with autoV := max s.autoV (id + 1) }

/-- `setEdgeId` (Dataflow.h:482-494). -/
def setEdgeId (s : State) (k : Nat) (id : Int) : Option State := do
  let s ← edit s
  if 0 < id then
    match edgeById s id with
    | some o => if o = k then some s else none
    | none => do
      let s ← modE s k fun x => { x with id := id }
      some { s with autoE := max s.autoE (id + 1) }
  else none

/-- `setVertexName` (Dataflow.h:523-535). -/
def setVertexName (s : State) (v : Nat) (n : String) : Option State := do
  let s ← edit s
  if n = "" then none
  else
    match vertexByName s n with
    | some o => if o = v then modV s v fun x => { x with name := n } else none
    | none => modV s v fun x => { x with name := n }

/-- `setEdgeName` (Dataflow.h:567-583). -/
def setEdgeName (s : State) (k : Nat) (n : String) : Option State := do
  let s ← edit s
  if n = "" then none
  else
    match edgeByName s n with
    | some o => if o = k then modE s k fun x => { x with name := n } else none
    | none => modE s k fun x => { x with name := n }

/-- `addUnsafeVertex` (Dataflow.h:387-398). boost gives a new vertex the property values 0 and "". The mapping is not
modelled. -/
def addUnsafeVertex (s : State) (id : Int) : Option State := do
  let s ← edit s
  setVertexId { s with verts := s.verts ++ [⟨0, "", 0, 0, [], 0, []⟩] } s.verts.length id

/-- `addVertex()` (Dataflow.h:363-367). -/
def addVertex (s : State) : Option State :=
  let n := s.verts.foldl (fun m v => if v.id ≥ m then v.id + 1 else m) s.autoV
  addUnsafeVertex { s with autoV := n + 1 } n

/-- `addVertex(id)` (Dataflow.h:369-374). -/
def addVertexId (s : State) (id : Int) : Option State :=
  if s.verts.any (fun v => decide (v.id ≥ id)) then none else addUnsafeVertex s id

/-- `addVertex(id, name)` (Dataflow.h:376-380) and `addVertex(name)` (382-386). -/
def named (s : Option State) (n : String) : Option State := s.bind fun s => setVertexName s (s.verts.length - 1) n

/-- `addEdgeUnsafe` (Dataflow.h:350-360): a new edge has id 0, no rates and no name. -/
def addEdgeUnsafe (s : State) (a b : Nat) (id : Int) : Option State := do
  let s ← edit s
  if a < s.verts.length ∧ b < s.verts.length then
    setEdgeId { s with edges := s.edges ++ [⟨s.nextKey, a, b, 0, "", [], [], 0, 0, 0, [], []⟩], nextKey := s.nextKey + 1 } s.nextKey id
  else none

/-- `addEdge(from, to)` (Dataflow.h:328-332). -/
def addEdge (s : State) (a b : Nat) : Option State :=
  let n := s.edges.foldl (fun m e => if e.id ≥ m then e.id + 1 else m) s.autoE
  addEdgeUnsafe { s with autoE := n } a b n

/-- `addEdge(from, to, id, name)` and `addEdge(from, to, name)` (Dataflow.h:338-348). -/
def namedE (s : Option State) (n : String) : Option State := s.bind fun s => setEdgeName s (s.nextKey - 1) n

/-- `removeEdge` (Dataflow.h:415-419). -/
def removeEdge (s : State) (k : Nat) : Option State := do
  let s ← edit s
  if s.edges.any (fun e => e.key == k) then some { s with edges := s.edges.filter fun e => e.key ≠ k } else none

/-- `removeVertex` (Dataflow.h:402-414): the two loops remove the channels of the vertex; boost then shifts the later
vertices. -/
def removeVertex (s : State) (v : Nat) : Option State := do
  let s ← edit s
  if v < s.verts.length then
    some { s with
      verts := s.verts.eraseIdx v
      edges := (s.edges.filter fun e => e.src ≠ v ∧ e.tgt ≠ v).map fun e =>
        { e with src := if e.src > v then e.src - 1 else e.src, tgt := if e.tgt > v then e.tgt - 1 else e.tgt } }
  else none

/-- `setPhasesQuantity` (Dataflow.h:640-643). -/
def setPhases (s : State) (v : Nat) (n : Int) : Option State := do
  let s ← edit s
  modV s v fun x => { x with phases := n }

/-- `std::accumulate(l.begin(), l.end(), 0)` on `long` values: the accumulator is an `int`, so each partial sum is
narrowed to 32 bits. -/
def intSum (l : List Int) : Int := l.foldl (fun a x => Int.bmod (a + x) (2 ^ 32)) 0

/-- `setEdgeInPhases` (Dataflow.h:790-803): stores the vector and its sum, then checks its length. -/
def setEdgeIn (s : State) (k : Nat) (l : List Int) : Option State := do
  let s ← edit s
  let s ← modE s k fun x => { x with ins := l, totIn := intSum l }
  let e ← edge s k
  let v ← s.verts[e.src]?
  if v.phases > 0 ∧ v.phases ≠ l.length then none else setPhases s e.src l.length

/-- `setEdgeOutPhases` (Dataflow.h:737-750). -/
def setEdgeOut (s : State) (k : Nat) (l : List Int) : Option State := do
  let s ← edit s
  let s ← modE s k fun x => { x with outs := l, totOut := intSum l }
  let e ← edge s k
  let v ← s.verts[e.tgt]?
  if v.phases > 0 ∧ v.phases ≠ l.length then none else setPhases s e.tgt l.length

/-- `setPreload` (Dataflow.h:660-662): asserts writable but resets nothing. -/
def setPreload (s : State) (k : Nat) (p : Int) : Option State :=
  if s.readonly then none else modE s k fun x => { x with preload := p }

/-- `setNi` (Dataflow.h:635-636). -/
def setNi (s : State) (v : Nat) (n : Int) : Option State := if s.repDone then none else modV s v fun x => { x with ni := n }
/-- `getNi` (Dataflow.h:637). -/
def getNi (s : State) (v : Nat) : Option Int := if s.repDone then (s.verts[v]?).map fun x => x.ni else none

/-- `setInitPhasesQuantity` (Dataflow.h:645-648). -/
def setIPhases (s : State) (v : Nat) (n : Int) : Option State := do
  let s ← edit s
  modV s v fun x => { x with iphases := n }

/-- `setEdgeInInitPhases` (Dataflow.h:812-828); the second check exists in debug builds only and is left out. -/
def setEdgeIIn (s : State) (k : Nat) (l : List Int) : Option State := do
  let s ← edit s
  let s ← modE s k fun x => { x with iins := l }
  let e ← edge s k
  let v ← s.verts[e.src]?
  if v.iphases > 0 ∧ v.iphases ≠ l.length then none else setIPhases s e.src l.length

/-- `setEdgeOutInitPhases` (Dataflow.h:760-771). -/
def setEdgeIOut (s : State) (k : Nat) (l : List Int) : Option State := do
  let s ← edit s
  let s ← modE s k fun x => { x with iouts := l }
  let e ← edge s k
  let v ← s.verts[e.tgt]?
  if v.iphases > 0 ∧ v.iphases ≠ l.length then none else setIPhases s e.tgt l.length

/-- The vectors of one side of a channel read at phase `k`: `getEdgeInPhase`/`getEdgeOutPhase` (Dataflow.h:720-735,
775-787) with `getEdgeInInitPhase`/`getEdgeOutInitPhase` (752-758, 805-811) for `k ≤ 0`. -/
def phaseAt (ini l : List Int) (k : Int) : Option Int :=
  if k ≤ 0 then
    if k + ini.length < 1 then none else ini[(k + ini.length - 1).toNat]?
  else if (l.length : Int) < k then none else l[(k - 1).toNat]?

/-- `setVertexDuration` (Dataflow.h:893-901). -/
def setDurs (s : State) (v : Nat) (l : List ℚ) : Option State := do
  let s ← edit s
  let x ← s.verts[v]?
  if (l.length : Int) = x.phases then modV s v fun x => { x with durs := l } else none

/-- `setVertexInitDuration` (Dataflow.h:903-911). -/
def setIDurs (s : State) (v : Nat) (l : List ℚ) : Option State := do
  let s ← edit s
  let x ← s.verts[v]?
  if (l.length : Int) = x.iphases then modV s v fun x => { x with idurs := l } else none

/-- `getVertexDuration(t, k)` with `getVertexInitDuration` (Dataflow.h:882-892). Taking a remainder by 0 is undefined. -/
def durAt (x : Vtx) (k : Int) : Option ℚ :=
  if k ≤ 0 then
    if k + x.iphases < 1 then none else x.idurs[(k + x.iphases - 1).toNat]?
  else if x.durs = [] then none else x.durs[(k - 1).toNat % x.durs.length]?

/-- Conversion of a floating point value to `int`: towards zero, undefined when the result does not fit. -/
def toInt (q : ℚ) : Option Int :=
  let z := if 0 ≤ q then ⌊q⌋ else ⌈q⌉
  if -2 ^ 31 ≤ z ∧ z < 2 ^ 31 then some z else none

/-- `getVertexTotalDuration` (Dataflow.h:868-872): `std::accumulate(begin, end, 0)`, so the accumulator is an `int`. -/
def totalDur (x : Vtx) : Option Int :=
  if x.durs = [] then none else x.durs.foldlM (fun (a : Int) (d : ℚ) => toInt ((a : ℚ) + d)) 0

/-- `computeFineGCD` (Dataflow.h:918-934): reads phase 1 of the production first, which fails on an empty vector. -/
def computeFineGCD (e : Edg) : Option Int := do
  let x ← phaseAt e.iins e.ins 1
  some (e.outs.foldl (fun g r => (Int.gcd g r : Int)) (e.ins.foldl (fun g r => (Int.gcd g r : Int)) x))

/-- `getFineGCD` (Dataflow.h:942-955): the value and the updated cache. -/
def getFineGCD (s : State) (k : Nat) : Option (Int × State) := do
  let e ← edge s k
  match s.cache.lookup e.id with
  | some v => some (v, s)
  | none => do
    let v ← computeFineGCD e
    some (v, { s with cache := s.cache ++ [(e.id, v)] })

/-- What `computeRepetitionVector` sees of the graph: phase counts and channels. `none` if an end point were not a
vertex, and outside the range in which the stored totals are the sums of the rates (`Rep` works with the sums). -/
def repOf (ps : List Int) (es : List Edg) : Option (Rep.Graph ps.length es.length) :=
  if h : ∀ i : Fin es.length, (es[i].src < ps.length ∧ es[i].tgt < ps.length) ∧
      es[i].totIn = es[i].ins.sum ∧ es[i].totOut = es[i].outs.sum then
    some ⟨fun i => ⟨_, (h i).1.1⟩, fun i => ⟨_, (h i).1.2⟩, fun i => es[i].ins, fun i => es[i].outs,
      fun v => ps[v].toNat⟩
  else none

/-- `setNi` for every vertex (end of calcRepetitionVector, repetition_vector.cpp:143-147). -/
def putNi (vs : List Vtx) (N : Fin (vs.map fun v => v.phases).length → Int) : List Vtx :=
  List.ofFn fun v : Fin vs.length => { vs.get v with ni := N (v.cast (by simp)) }

/-- `computeRepetitionVector` (repetition_vector.cpp:158-189): the result and the new state; the graph becomes
read-only even when the computation returns false. -/
def computeRV (s : State) : Option (Bool × State) :=
  if s.repDone then some (true, s)
  else do
    let g ← repOf (s.verts.map fun v => v.phases) s.edges
    match ← Rep.compute g with
    | none => some (false, { s with readonly := true })
    | some N => some (true, { s with readonly := true, repDone := true, verts := putNi s.verts N })

/-- The calls of the interface. `readOnly` is `set_read_only` (Dataflow.h:310), `reset` is `reset_computation`. -/
inductive Op where
  | addVertex | addVertexId (id : Int) | addVertexName (n : String) | addVertexIdName (id : Int) (n : String)
  | removeVertex (v : Nat)
  | addEdge (a b : Nat) | addEdgeId (a b : Nat) (id : Int) | addEdgeName (a b : Nat) (n : String)
  | addEdgeIdName (a b : Nat) (id : Int) (n : String)
  | removeEdge (k : Nat)
  | setVertexId (v : Nat) (id : Int) | setEdgeId (k : Nat) (id : Int)
  | setVertexName (v : Nat) (n : String) | setEdgeName (k : Nat) (n : String)
  | setPhases (v : Nat) (n : Int) | setEdgeIn (k : Nat) (l : List Int) | setEdgeOut (k : Nat) (l : List Int)
  | setIPhases (v : Nat) (n : Int) | setEdgeIIn (k : Nat) (l : List Int) | setEdgeIOut (k : Nat) (l : List Int)
  | setDurs (v : Nat) (l : List ℚ) | setIDurs (v : Nat) (l : List ℚ)
  | setPreload (k : Nat) (p : Int) | setNi (v : Nat) (n : Int)
  | getFineGCD (k : Nat) | computeRV | readOnly | reset

/-- One call. -/
def call (s : State) : Op → Option State
  | .addVertex => addVertex s
  | .addVertexId id => addVertexId s id
  | .addVertexName n => named (addVertex s) n
  | .addVertexIdName id n => named (addVertexId s id) n
  | .removeVertex v => removeVertex s v
  | .addEdge a b => addEdge s a b
  | .addEdgeId a b id => addEdgeUnsafe s a b id
  | .addEdgeName a b n => namedE (addEdge s a b) n
  | .addEdgeIdName a b id n => namedE (addEdgeUnsafe s a b id) n
  | .removeEdge k => removeEdge s k
  | .setVertexId v id => setVertexId s v id
  | .setEdgeId k id => setEdgeId s k id
  | .setVertexName v n => setVertexName s v n
  | .setEdgeName k n => setEdgeName s k n
  | .setPhases v n => setPhases s v n
  | .setEdgeIn k l => setEdgeIn s k l
  | .setEdgeOut k l => setEdgeOut s k l
  | .setIPhases v n => setIPhases s v n
  | .setEdgeIIn k l => setEdgeIIn s k l
  | .setEdgeIOut k l => setEdgeIOut s k l
  | .setDurs v l => setDurs s v l
  | .setIDurs v l => setIDurs s v l
  | .setPreload k p => setPreload s k p
  | .setNi v n => setNi s v n
  | .getFineGCD k => (getFineGCD s k).map fun r => r.2
  | .computeRV => (computeRV s).map fun r => r.2
  | .readOnly => some { s with readonly := true }
  | .reset => some (reset s)

/-- A history of calls that all return. -/
def calls (s : State) : List Op → Option State
  | [] => some s
  | o :: os => (call s o).bind fun s => calls s os

end Kiter.DF
