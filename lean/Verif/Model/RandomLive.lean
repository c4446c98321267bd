/-
Model of the analysis inside the loop of the random generator that adds initial tokens (RandomGenerator.cpp:52-57):
`CSDF_KPeriodicScheduling` on the graph as it stands.
-/
import Verif.Model.RandomGenerator
import Verif.Model.KSchedule

set_option autoImplicit false

namespace Kiter.Gen

open DF

/-- What the periodic analyses read of a task. The reentrancy factor is 1 (RandomGenerator.cpp:117-119, without
`no_reentrancy`, the default). -/
def taskOf (v : Vtx) : KTask := ⟨v.id, v.durs, v.idurs, 1, v.ni⟩

/-- What they read of a channel. The granularity is recomputed here; the code may read it from its cache. -/
def channelOf (vs : List Vtx) (e : Edg) : Option BChannel :=
  vs[e.src]?.bind fun a => vs[e.tgt]?.bind fun b => (computeFineGCD e).map fun g =>
    (⟨e.id, e.ins, e.outs, e.iins, e.iouts, e.preload, g⟩, taskOf a, taskOf b)

/-- The graph of the periodic analyses. -/
def baseOf (s : State) : Option BaseGraph :=
  (s.edges.mapM (channelOf s.verts)).map fun cs => ⟨s.verts.map taskOf, cs⟩

/-- One analysis (RandomGenerator.cpp:53-59): when the throughput is not positive, the first of the critical channels
(`*critical_edges.begin()`, an assertion excludes that there is none). Which of the channels comes first in the set is left
open: `first`. The cycle ratio solver is a parameter, and `fuel` bounds the turns of the analysis. -/
def kCritical (solve : List EvConstraint → Option (ℚ × List EvConstraint)) (fuel : ℕ)
    (first : List BChannel → Option BChannel) (s : State) : Option (Option Nat) :=
  (baseOf s).bind fun B => (ksched solve B fuel).bind fun o =>
    match o with
    | none => none
    | some (k, cc) =>
      if k.throughput ≤ 0 then
        (first cc).bind fun c => (s.edges.find? fun e => decide (e.id = c.1.id)).map fun e => some e.key
      else some none

end Kiter.Gen
