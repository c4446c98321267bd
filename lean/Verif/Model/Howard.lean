/-
Model of the cycle ratio solver: `boost::detail::mcr_howard1` as adapted by the project
(src/libkiter/commons/howard_cycle_ratio.hpp:81-550) and its entry points `EventGraph::MinCycleRatio`,
`EventGraph::MaxCycleRatio` (src/libkiter/models/EventGraph.h:450-530).

`long double` is `ℚ`; the two machine constants `epsilon` and `max` are parameters. The ratio of a cycle whose second
weights add up to zero is not a number (or infinite) in the code: here the whole call is `none`. Every loop without a
syntactic bound has a fuel argument and is `none` when it runs out (theorem C65_terminates: it never does).
Vertex maps are functions; an uninitialised policy entry is `none`. Vertices are named by their event; extra vertices
without edges may be present in the list of vertices.
-/
import Verif.Model.KPeriodic
import Mathlib.Logic.Function.Basic

set_option autoImplicit false

namespace Kiter
namespace Howard

/-- `MAX_ITERATION` and `EPSILON_IMPROVE_RATIO` (howard_cycle_ratio.hpp:39-40). -/
def maxIteration : ℕ := 100
def improveRatio : ℚ := 100

/-- Which optimum is searched (`min_comparator_props` / `max_comparator_props`, howard_cycle_ratio.hpp:47-57) and the
machine constants: `epsilon` (EventGraph.h:41-49) and the largest float. -/
structure Cfg where
  isMin : Bool
  eps : ℚ
  huge : ℚ

/-- `ComparatorProps::multiplier` (howard_cycle_ratio.hpp:51, 57). -/
def Cfg.mult (c : Cfg) : ℚ := if c.isMin then 1 else -1

/-- `m_cmp(a, b)`: `std::greater` for the minimum, `std::less` for the maximum (howard_cycle_ratio.hpp:50, 56). -/
def Cfg.cmp (c : Cfg) (a b : ℚ) : Bool := if c.isMin then decide (b < a) else decide (a < b)

/-- An event graph: vertices and edges in insertion order (`adjacency_list<vecS, vecS, bidirectionalS>`,
EventGraph.h:117-123). -/
structure EGraph where
  vs : List Event
  cs : List EvConstraint

/-- `out_edges(v, g)`. -/
def EGraph.out (G : EGraph) (v : Event) : List EvConstraint := G.cs.filter fun e => e.src = v

/-- The members of the solver object (howard_cycle_ratio.hpp:493-515, 549). `m_badv` is `bad`, `m_sink` is `sink`. -/
structure St where
  dm : Event → ℚ
  policy : Event → Option EvConstraint
  inel : Event → List Event
  bad : Event → Bool
  sink : Option Event
  bound : ℚ
  cr : ℚ
  cc : List EvConstraint

/-- `mcr_bound` (howard_cycle_ratio.hpp:214-235). -/
def mcrBound (c : Cfg) (G : EGraph) : ℚ :=
  let es := G.vs.flatMap G.out
  let s := (es.map fun e => |e.w|).sum
  let cz := es.foldl (fun cz e => if c.eps < |e.d| ∧ |e.d| < cz then |e.d| else cz) c.huge
  c.mult * (s / cz)

/-- `std::max_element` with `m_cmp` on the first weight (howard_cycle_ratio.hpp:249-255): the first best edge. -/
def pick (c : Cfg) : List EvConstraint → Option EvConstraint
  | [] => none
  | e :: l => some (l.foldl (fun b x => if c.cmp b.w x.w then x else b) e)

/-- One vertex of `construct_policy_graph` (howard_cycle_ratio.hpp:246-269). -/
def constructVertex (c : Cfg) (G : EGraph) (st : St) (v : Event) : St :=
  match pick c (G.out v) with
  | none =>
    let s := st.sink.getD v
    { st with sink := some s, bad := Function.update st.bad v true,
              inel := Function.update st.inel s (st.inel s ++ [v]) }
  | some e =>
    { st with inel := Function.update st.inel e.dst (st.inel e.dst ++ [v]),
              policy := Function.update st.policy v (some e) }

/-- The constructor (howard_cycle_ratio.hpp:129-164) followed by `construct_policy_graph` (241-270). -/
def construct (c : Cfg) (G : EGraph) (bound : ℚ) : St :=
  G.vs.foldl (constructVertex c G)
    { dm := fun _ => 0, policy := fun _ => none, inel := fun _ => [], bad := fun _ => false, sink := none,
      bound := bound, cr := bound, cc := [] }

/-- The successor of a vertex in the policy graph (howard_cycle_ratio.hpp:318-325). -/
def St.succ (st : St) (v : Event) : Option Event := if st.bad v then st.sink else (st.policy v).map fun e => e.dst

/-- `find_cycle_vertex` (howard_cycle_ratio.hpp:311-330); `black` are the coloured vertices. -/
def findCycle (st : St) : ℕ → List Event → Event → Option Event
  | 0, _, _ => none
  | n + 1, black, v => do
    let v' ← st.succ v
    if v' ∈ v :: black then some v' else findCycle st n (v :: black) v'

/-- The edges visited by `cycle_ratio` (howard_cycle_ratio.hpp:343-355). -/
def cycleEdges (st : St) (sv : Event) : ℕ → Event → Option (List EvConstraint)
  | 0, _ => none
  | n + 1, v => do
    let e ← st.policy v
    if e.dst = sv then some [e]
    else do
      let l ← cycleEdges st sv n e.dst
      some (e :: l)

/-- `cycle_ratio` (howard_cycle_ratio.hpp:335-364): the ratio, and the new critical circuit when it is better. -/
def cycleRatio (c : Cfg) (st : St) (fuel : ℕ) (sv : Event) : Option (ℚ × St) :=
  if st.sink = some sv then some (st.bound, st)
  else do
    let l ← cycleEdges st sv fuel sv
    let w := (l.map fun e => e.w).sum
    let d := (l.map fun e => e.d).sum
    if d = 0 then none
    else some (w / d, if c.cmp st.cr (w / d) then { st with cr := w / d, cc := l } else st)

/-- The distance given to a policy predecessor `x` of `v` (howard_cycle_ratio.hpp:290-298). -/
def visitDist (st : St) (cr : ℚ) (v : Event) (dm : Event → ℚ) (x : Event) : Option (Event → ℚ) :=
  if st.bad x then some (Function.update dm x (dm v + st.bound - cr))
  else do
    let e ← st.policy x
    some (Function.update dm x (dm v + e.w - e.d * cr))

/-- `mcr_bfv` (howard_cycle_ratio.hpp:276-304): new distances and coloured vertices. -/
def bfv (st : St) (sv : Event) (cr : ℚ) : ℕ → List Event → (Event → ℚ) → List Event → Option ((Event → ℚ) × List Event)
  | _, [], dm, black => some (dm, black)
  | 0, _ :: _, _, _ => none
  | n + 1, v :: q, dm, black => do
    let ch := (st.inel v).filter fun x => x ≠ sv
    let dm' ← ch.foldlM (visitDist st cr v) dm
    bfv st sv cr n (q ++ ch) dm' (ch ++ black)

/-- One turn of the loop of `policy_mcr` (howard_cycle_ratio.hpp:378-397) on vertex `v`, skipped when `v` has a colour. -/
def policyStep (c : Cfg) (G : EGraph) (s : St × List Event × ℚ) (v : Event) : Option (St × List Event × ℚ) :=
  if v ∈ s.2.1 then some s
  else do
    let gv ← findCycle s.1 (G.vs.length + 1) [] v
    let r ← cycleRatio c s.1 (G.vs.length + 1) gv
    let b ← bfv r.2 gv r.1 (G.vs.length + 1) [gv] r.2.dm (gv :: s.2.1)
    some ({ r.2 with dm := b.1 }, b.2, if c.cmp s.2.2 r.1 then r.1 else s.2.2)

/-- `policy_mcr` (howard_cycle_ratio.hpp:369-400): new state and best ratio. -/
def policyMcr (c : Cfg) (G : EGraph) (st : St) : Option (St × ℚ) := do
  let s ← G.vs.foldlM (policyStep c G) ({ st with cr := st.bound }, [], st.bound)
  some (s.1, s.2.2)

/-- `improve_policy` (howard_cycle_ratio.hpp:405-413). Erasing an element that is not in the list is undefined. -/
def improvePolicy (st : St) (s : Event) (e : EvConstraint) : Option St := do
  let old ← st.policy s
  if s ∈ st.inel old.dst then
    let inel' := Function.update st.inel old.dst ((st.inel old.dst).erase s)
    some { st with policy := Function.update st.policy s (some e),
                   inel := Function.update inel' e.dst (inel' e.dst ++ [s]) }
  else none

/-- One edge of `try_improve_policy` (howard_cycle_ratio.hpp:467-478). -/
def tryEdge (c : Cfg) (cr : ℚ) (v : Event) (s : St × Bool) (e : EvConstraint) : Option (St × Bool) :=
  let dis := e.w - e.d * cr + s.1.dm e.dst
  if c.cmp (s.1.dm v - c.eps * c.mult * improveRatio) dis then do
    let st ← improvePolicy s.1 v e
    some ({ st with dm := Function.update st.dm v dis }, true)
  else some s

/-- One vertex of `try_improve_policy` (howard_cycle_ratio.hpp:463-488). -/
def tryVertex (c : Cfg) (G : EGraph) (cr : ℚ) (s : St × Bool) (v : Event) : Option (St × Bool) :=
  if s.1.bad v then do
    let k ← s.1.sink
    let dis := s.1.bound - cr + s.1.dm k
    if c.cmp (s.1.dm v + c.eps * c.mult) dis then some ({ s.1 with dm := Function.update s.1.dm v dis }, s.2) else some s
  else (G.out v).foldlM (tryEdge c cr v) s

/-- `try_improve_policy` (howard_cycle_ratio.hpp:457-491). -/
def tryImprove (c : Cfg) (G : EGraph) (cr : ℚ) (st : St) : Option (St × Bool) :=
  G.vs.foldlM (tryVertex c G cr) (st, false)

/-- The `do ... while` loop of `ocr_howard` (howard_cycle_ratio.hpp:175-183): last state, last ratio, and whether the last
improvement attempt still changed something (then the iteration limit stopped the loop). -/
def loop (c : Cfg) (G : EGraph) : ℕ → St → Option (St × ℚ × Bool)
  | 0, _ => none
  | n + 1, st => do
    let r ← policyMcr c G st
    let t ← tryImprove c G r.2 { r.1 with bound := r.2 }
    if t.2 && decide (0 < n) then loop c G n t.1 else some (t.1, r.2, t.2)

/-- What the call returns: the ratio (`none` is infinity), the critical circuit, and whether the iteration limit stopped
the loop (the code only logs it, howard_cycle_ratio.hpp:185-189). -/
structure Result where
  value : Option ℚ
  circuit : List EvConstraint
  limited : Bool

/-- `ocr_howard` (howard_cycle_ratio.hpp:172-203) and `optimum_cycle_ratio` (563-630) with a critical circuit, for a given
initial bound. -/
def ocr (c : Cfg) (G : EGraph) (bound : ℚ) : Option Result := do
  let r ← loop c G maxIteration (construct c G bound)
  some ⟨if c.cmp r.2.1 (mcrBound c G - c.eps * c.mult) then none else some r.2.1, r.1.cc, r.2.2⟩

/-- `EventGraph::MinCycleRatio()` (EventGraph.h:505-530); `eps` and `huge` are the machine constants. -/
def minCycleRatio (eps huge : ℚ) (G : EGraph) : Option Result :=
  ocr ⟨true, eps, huge⟩ G (mcrBound ⟨true, eps, huge⟩ G)

/-- `EventGraph::MinCycleRatio(bound)` (EventGraph.h:480-502). -/
def minCycleRatioBound (eps huge : ℚ) (G : EGraph) (bound : ℚ) : Option Result := ocr ⟨true, eps, huge⟩ G bound

/-- `EventGraph::MaxCycleRatio()` (EventGraph.h:450-477). -/
def maxCycleRatio (eps huge : ℚ) (G : EGraph) : Option Result :=
  ocr ⟨false, eps, huge⟩ G (mcrBound ⟨false, eps, huge⟩ G)

/-- The use of the solver by K-Iter (kperiodic.cpp:888-893, 954-959): ratio and circuit of the event graph with the given
vertices. Here it gives no answer when the code gets infinity, or when the iteration limit stopped the search (the code goes
on with the value). -/
def solver (eps huge : ℚ) (vertices : List EvConstraint → List Event) (cs : List EvConstraint) :
    Option (ℚ × List EvConstraint) := do
  let r ← minCycleRatio eps huge ⟨vertices cs, cs⟩
  if r.limited then none
  else do
    let v ← r.value
    some (v, r.circuit)

end Howard
end Kiter
