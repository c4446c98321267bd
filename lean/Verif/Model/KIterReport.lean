/-
Model of the report of K-Iter with the parameter DETAILS
(src/libkiter/algorithms/throughput/kperiodic.cpp: sum_Ni 792-799, sum_Ki 801-803, sum_KiKj 805-807, sum_NiNj 809-818,
print_kiter_throughput_iteration 830-850) and of the vertices of the event graph it counts
(kperiodic.cpp:353-367, 416-434; models/EventGraph.h:291-325).

The columns with the file name and the durations are left out. `getEventCount` is an `unsigned int`; its wrap-around is
not modelled.
-/
import Verif.Model.KIter

set_option autoImplicit false

namespace Kiter.KRep

/-- `addEventGroup(taskid,phase_count,start_ki,end_ki)` (models/EventGraph.h:308-321): the vertices added, one for each
phase from 1 to `phase_count`. -/
def addEventGroup (task phaseCount : Int) (start stop : ℕ) : List Event :=
  (List.range phaseCount.toNat).flatMap fun (p : ℕ) =>
    (List.range (stop + 1 - start)).map fun (k : ℕ) => (⟨task, (p : Int) + 1, (start : Int) + k⟩ : Event)

/-- The vertices created by `generateKPeriodicEventGraph` (kperiodic.cpp:353-367). -/
def initialEvents (B : BaseGraph) (K : Int → ℕ) : List Event :=
  B.tasks.flatMap fun t =>
    ((List.range t.initDurations.length).map fun (i : ℕ) => (⟨t.id, -(i : Int), 1⟩ : Event)) ++
    ((List.range (K t.id)).flatMap fun (j : ℕ) =>
      (List.range t.durations.length).map fun (i : ℕ) => (⟨t.id, (i : Int) + 1, (j : Int) + 1⟩ : Event))

/-- The calls of `addEventGroup` for one channel of the critical circuit (kperiodic.cpp:432-434). -/
def newEvents (t : KTask) (ki newki : ℕ) : List Event :=
  (List.range (t.initDurations.length + t.durations.length)).flatMap fun (p : ℕ) =>
    addEventGroup t.id ((p : Int) + 1 - t.initDurations.length) (ki + 1) newki

/-- The vertices after step 1 of `updateEventGraph` (kperiodic.cpp:416-441): only edges are removed. -/
def updateEvents (K K' : Int → ℕ) : List BChannel → List Event → List Event
  | [], vs => vs
  | e :: l, vs =>
    updateEvents K K' l (if K e.2.1.id < K' e.2.1.id then vs ++ newEvents e.2.1 (K e.2.1.id) (K' e.2.1.id) else vs)

/-- What the report of one iteration is made from: the vector (not printed), the vertices, the edges, the throughput. -/
structure Step where
  K : Int → ℕ
  events : List Event
  cs : List EvConstraint
  th : ℚ

/-- The numbers of a row (kperiodic.cpp:837-849). -/
structure Row where
  iteration : ℕ
  sumKi : ℕ
  sumKiKj : ℕ
  sumNi : Int
  sumNiNj : Int
  th : ℚ
deriving DecidableEq

/-- `sum_Ni` (kperiodic.cpp:792-799). -/
def sumNi (B : BaseGraph) : Int := (B.tasks.map fun t => t.ni).sum

/-- `sum_NiNj` (kperiodic.cpp:809-818). -/
def sumNiNj (B : BaseGraph) : Int := (B.channels.map fun c => max c.2.1.ni c.2.2.ni).sum

/-- `print_kiter_throughput_iteration` (kperiodic.cpp:830-850). -/
def row (B : BaseGraph) (it : ℕ) (s : Step) : Row :=
  ⟨it, s.events.length, s.cs.length, sumNi B, sumNiNj B, s.th⟩

/-- The loop of `compute_Kperiodic_throughput` (kperiodic.cpp:931-1006) with what it reports, as `kiterLoop`. -/
def stepsLoop (solve : List EvConstraint → Option (ℚ × List EvConstraint)) (B : BaseGraph) :
    ℕ → ℕ → (Int → ℕ) → List Event → List EvConstraint → List BChannel → ℚ → Option (List Step × Option KIterResult)
  | 0, _, _, _, _, _, _ => some ([], none)
  | fuel + 1, it, K, vs, cs, cc, th => do
    match ← updateEventGraph B K cc cs with
    | none => pure ([], some ⟨K, th, it + 1⟩)
    | some (K', cs') =>
      let vs' := updateEvents K K' cc vs
      let r ← solve cs'
      let cc' := criticalEdges B r.2
      if sameset cc' cc then pure ([⟨K', vs', cs', r.1⟩], some ⟨K', r.1, it + 1⟩)
      else do
        let rest ← stepsLoop solve B fuel (it + 1) K' vs' cs' cc' r.1
        pure (⟨K', vs', cs', r.1⟩ :: rest.1, rest.2)

/-- `compute_Kperiodic_throughput` (kperiodic.cpp:856-1054) with what it reports. -/
def steps (solve : List EvConstraint → Option (ℚ × List EvConstraint)) (B : BaseGraph) (fuel : ℕ) :
    Option (List Step × Option KIterResult) := do
  let cs ← eventGraph (B.withK fun _ => 1)
  let vs := initialEvents B fun _ => 1
  let r ← solve cs
  let cc := criticalEdges B r.2
  if cc.isEmpty then pure ([⟨fun _ => 1, vs, cs, r.1⟩], some ⟨fun _ => 1, r.1, 0⟩)
  else do
    let rest ← stepsLoop solve B fuel 0 (fun _ => 1) vs cs cc r.1
    pure (⟨fun _ => 1, vs, cs, r.1⟩ :: rest.1, rest.2)

/-- The rows printed, in order; `iteration_count` starts at 0 (kperiodic.cpp:871, 935). -/
def report (solve : List EvConstraint → Option (ℚ × List EvConstraint)) (B : BaseGraph) (fuel : ℕ) : Option (List Row) :=
  (steps solve B fuel).map fun s => s.1.mapIdx fun i x => row B i x

end Kiter.KRep
