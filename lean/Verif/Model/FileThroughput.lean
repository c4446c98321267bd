/-
Model of `kiter -f file.xml -a KPeriodicThroughput` from the document to the result: the reader (Model/SDF3.lean), the
repetition vector (Model/Repetition.lean) and K-Iter (Model/KIter.lean) in sequence, with what passes between them.
-/
import Verif.Model.SDF3
import Verif.Model.Dataflow
import Verif.Model.KIter

set_option autoImplicit false

namespace Kiter.FileT

open SDF3

/-- What `computeRepetitionVector` reads (models/repetition_vector.cpp:158-189) of the graph made by the reader. `none` if
an end of a channel were not a task: `addEdge` takes vertices that `getVertexByName` found (SDF3Wrapper.cpp:560). -/
def repGraph (g : SDF3.Graph) : Option (Rep.Graph g.actors.length g.chans.length) :=
  if h : ∀ k : Fin g.chans.length, g.chans[k].src < g.actors.length ∧ g.chans[k].tgt < g.actors.length then
    some ⟨fun k => ⟨_, (h k).1⟩, fun k => ⟨_, (h k).2⟩, fun k => g.chans[k].ins, fun k => g.chans[k].outs,
      fun i => g.actors[i].phases⟩
  else none

/-- What the analysis reads of a task. The tasks of a file are made with `addVertex()` (SDF3Wrapper.cpp:500), which numbers
them from 1 (models/Dataflow.h:302, 365-366); `n` is the entry of the repetition vector (`setNi`,
repetition_vector.cpp:143-147). -/
def taskAt (i : ℕ) (a : Actor) (n : Int) : KTask :=
  ⟨i + 1, a.durs.map fun d : Int => (d : ℚ), a.idurs.map fun d : Int => (d : ℚ), a.reent, n⟩

/-- The channel as `Dataflow` stores it, for `computeFineGCD` (Dataflow.h:918-934). -/
def edgOf (e : Chan) : DF.Edg :=
  ⟨0, e.src, e.tgt, e.id, String.ofList e.name, e.ins, e.outs, e.ins.sum, e.outs.sum, e.preload, e.iins, e.iouts⟩

/-- What the analysis reads of a channel (kperiodic.cpp:344-385, 140-340). -/
def chanOf (g : SDF3.Graph) (ni : ℕ → Int) (e : Chan) : Option BChannel :=
  g.actors[e.src]?.bind fun a => g.actors[e.tgt]?.bind fun b => (DF.computeFineGCD (edgOf e)).map fun gr =>
    (⟨e.id, e.ins, e.outs, e.iins, e.iouts, e.preload, gr⟩, taskAt e.src a (ni e.src), taskAt e.tgt b (ni e.tgt))

/-- The graph that the analysis reads. -/
def baseOf (g : SDF3.Graph) (ni : ℕ → Int) : Option BaseGraph :=
  (g.chans.mapM (chanOf g ni)).map fun cs => ⟨g.actors.mapIdx fun i a => taskAt i a (ni i), cs⟩

/-- `getNi` by position. -/
def niAt {n : ℕ} (N : Fin n → Int) (i : ℕ) : Int := if h : i < n then N ⟨i, h⟩ else 0

/-- `compute_Kperiodic_throughput` (kperiodic.cpp:856-1054) on a graph of the reader: the repetition vector, which must
exist (`VERBOSE_ASSERT(computeRepetitionVector(dataflow),"inconsistent graph")`, line 867), then K-Iter. -/
def analyse (solve : List EvConstraint → Option (ℚ × List EvConstraint)) (fuel : ℕ) (g : SDF3.Graph) :
    Option (Option KIterResult) :=
  (repGraph g).bind fun G =>
    match Rep.compute G with
    | some (some N) => (baseOf g (niAt N)).bind fun B => kiter solve B fuel
    | _ => none

/-- `kiter -f doc -a KPeriodicThroughput` (src/kiter/main.cpp:108-110, 156-168: the graph is read, then the algorithms run on it).
`none` is a failed assertion, an exception or a solver without answer; `some none` is too little fuel. -/
def kiterFile (lib : Lib) (solve : List EvConstraint → Option (ℚ × List EvConstraint)) (fuel : ℕ) (doc : Node) :
    Option (Option KIterResult) :=
  (read lib doc).bind (analyse solve fuel)

end Kiter.FileT
