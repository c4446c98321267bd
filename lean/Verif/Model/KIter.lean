/-
Model of the K-Iter throughput computation
(src/libkiter/algorithms/throughput/kperiodic.cpp: sameset 26-43, updateEventGraph 388-512,
updateVectorWithLocalNi 690-725, compute_Kperiodic_throughput 856-1054).

The periodicity vector is a function from task ids. The maximum cycle ratio solver `EventGraph::MinCycleRatio` is a
parameter. An event graph is the list of its constraints; the isolated duplicate vertices created by the repeated
`addEventGroup` calls of `updateEventGraph` (kperiodic.cpp:432-434) have no constraint and are not represented.
-/
import Verif.Model.KPeriodic

set_option autoImplicit false

namespace Kiter

/-- A channel with its source and target task. -/
abbrev BChannel := KChannel × KTask × KTask

/-- A dataflow graph without periodicity vector (models/Dataflow.h:265-: vertices and edges in iteration order). -/
structure BaseGraph where
  tasks : List KTask
  channels : List BChannel

/-- The graph together with a periodicity vector, as read by `generateKPeriodicEventGraph(dataflow,kvector)`
(kperiodic.cpp:344-385). -/
def BaseGraph.withK (B : BaseGraph) (K : Int → ℕ) : KGraph :=
  ⟨B.tasks.map fun t => (t, K t.id), B.channels.map fun c => (c.1, (c.2.1, K c.2.1.id), (c.2.2, K c.2.2.id))⟩

/-- `getNi(t) / getPhasesQuantity(t)` (kperiodic.cpp:697, 706-707); division by zero is `none`. -/
def iterCount (t : KTask) : Option Int :=
  if t.durations.length = 0 then none else some (t.ni.tdiv t.durations.length)

/-- First loop: gcd of the iteration counts of the sources (kperiodic.cpp:694-698). -/
def localGcd : List BChannel → Int → Option Int
  | [], g => some g
  | e :: l, g => do
    let n ← iterCount e.2.1
    localGcd l (Int.gcd g n)

/-- Second loop (kperiodic.cpp:702-722): new vector and `changed`. Failed assertions, division by zero are `none`. -/
def localUpdate (g : Int) : List BChannel → (Int → ℕ) → Bool → Option ((Int → ℕ) × Bool)
  | [], K, changed => some (K, changed)
  | e :: l, K, changed => do
    let ni ← iterCount e.2.1
    let nj ← iterCount e.2.2
    if g = 0 then none
    else
      let newki : ℕ := Int.lcm (K e.2.1.id) (ni.tdiv g)
      let changed' := changed || (newki != K e.2.1.id)
      let K' := Function.update K e.2.1.id newki
      if (K' e.2.1.id : Int) ≤ ni ∧ (K' e.2.2.id : Int) ≤ nj then localUpdate g l K' changed' else none

/-- `updateVectorWithLocalNi` (kperiodic.cpp:690-725). -/
def updateVectorWithLocalNi (K : Int → ℕ) (cc : List BChannel) : Option ((Int → ℕ) × Bool) := do
  let g ← localGcd cc 0
  localUpdate g cc K false

/-- Events whose edges are removed for a task (kperiodic.cpp:425-430). `getEventGraphVertex` of an event that does not
exist returns vertex 0; this happens only for tasks with initial phases, which the K-Iter theorems exclude. -/
def oldEvents (t : KTask) (ki : ℕ) : List Event :=
  (List.range (t.initDurations.length + t.durations.length)).flatMap fun (p : ℕ) =>
    (List.range ki).map fun (k : ℕ) => (⟨t.id, (p : Int) + 1 - t.initDurations.length, (k : Int) + 1⟩ : Event)

/-- Step 1 (kperiodic.cpp:416-441): remove the edges of all events of the changed sources; `newki <= Ni` is
asserted. -/
def removeStep (K K' : Int → ℕ) : List BChannel → List EvConstraint → Option (List EvConstraint)
  | [], cs => some cs
  | e :: l, cs =>
    let t := e.2.1
    if K t.id < K' t.id then
      if (K' t.id : Int) ≤ t.ni then
        removeStep K K' l (cs.filter fun c => !(decide (c.src ∈ oldEvents t (K t.id)) || decide (c.dst ∈ oldEvents t (K t.id))))
      else none
    else removeStep K K' l cs

/-- Step 3 for one edge of the circuit (kperiodic.cpp:472-505): the channels regenerated. -/
def regenerated (B : BaseGraph) (K K' : Int → ℕ) (e : BChannel) : List BChannel :=
  if K e.2.1.id = K' e.2.1.id then []
  else
    (B.channels.filter fun c => c.2.1.id = e.2.1.id && (c.1.id != e.1.id || K e.2.2.id == K' e.2.2.id)) ++
    (B.channels.filter fun c => c.2.2.id = e.2.1.id)

/-- `updateEventGraph` (kperiodic.cpp:388-512). `some none` is the `NULL` answer (vector unchanged), otherwise the new
vector and constraints. Edges are compared by id. -/
def updateEventGraph (B : BaseGraph) (K : Int → ℕ) (cc : List BChannel) (cs : List EvConstraint) :
    Option (Option ((Int → ℕ) × List EvConstraint)) := do
  let r ← updateVectorWithLocalNi K cc
  if r.2 = false then pure none
  else
    let K' := r.1
    let kept ← removeStep K K' cc cs
    let loops ← collect (fun e : BChannel => if K e.2.1.id = K' e.2.1.id then some [] else selfLoopConstraints e.2.1 (K' e.2.1.id)) cc
    let chans ← collect (fun c : BChannel => channelConstraints c.2.1 c.2.2 c.1 (K' c.2.1.id) (K' c.2.2.id))
      (cc.flatMap (regenerated B K K'))
    pure (some (K', kept ++ loops ++ chans))

/-- Channels of the critical circuit (kperiodic.cpp:895-906, 960-971): `getEdgeById` of each constraint's channel id,
inserted in a set; ids that are no edge are self-loops and skipped. The set is listed in graph order. -/
def criticalEdges (B : BaseGraph) (p : List EvConstraint) : List BChannel :=
  B.channels.filter fun c => p.any fun e => e.channel == c.1.id

/-- `sameset` (kperiodic.cpp:26-43). -/
def sameset (a b : List BChannel) : Bool :=
  a.length == b.length && a.all fun x => b.any fun y => x.1.id == y.1.id

/-- Result of the computation: periodicity vector, throughput and number of iterations. -/
structure KIterResult where
  K : Int → ℕ
  throughput : ℚ
  iterations : ℕ

/-- The `while (true)` loop (kperiodic.cpp:931-1006). The outer `Option`s are a failed assertion or a failing
solver; running out of fuel is `some none`. -/
def kiterLoop (solve : List EvConstraint → Option (ℚ × List EvConstraint)) (B : BaseGraph) :
    ℕ → ℕ → (Int → ℕ) → List EvConstraint → List BChannel → ℚ → Option (Option KIterResult)
  | 0, _, _, _, _, _ => some none
  | fuel + 1, it, K, cs, cc, th => do
    match ← updateEventGraph B K cc cs with
    | none => pure (some ⟨K, th, it + 1⟩)
    | some (K', cs') =>
      let r ← solve cs'
      let cc' := criticalEdges B r.2
      if sameset cc' cc then pure (some ⟨K', r.1, it + 1⟩)
      else kiterLoop solve B fuel (it + 1) K' cs' cc' r.1

/-- `compute_Kperiodic_throughput` (kperiodic.cpp:856-1054), without printing. -/
def kiter (solve : List EvConstraint → Option (ℚ × List EvConstraint)) (B : BaseGraph) (fuel : ℕ) :
    Option (Option KIterResult) := do
  let cs ← eventGraph (B.withK fun _ => 1)
  let r ← solve cs
  let cc := criticalEdges B r.2
  if cc.isEmpty then pure (some ⟨fun _ => 1, r.1, 0⟩)
  else kiterLoop solve B fuel 0 (fun _ => 1) cs cc r.1

end Kiter
