/-
Model of the search by knee points that prepares the buffer exploration with the parameter B_M_OPT
(`base_monotonic_optimised_symbexec_throughput_dse` and `select`,
src/libkiter/algorithms/dse/base_monotonic_optimisation.cpp:32-81, 211-362, `createPoint`,
src/libkiter/algorithms/dse/buffer_sizing.cpp:1167-1187), of the exploration that starts from its result
(src/libkiter/algorithms/dse/dse.cpp:248-268, 320-460), and of the last step of the exploration (dse.cpp:459-474).

`D.modelled` are the edges the search considers: the ones with an id above half of the number of edges, or all of them with
the parameter SYMB_EXEC (base_monotonic_optimisation.cpp:226-229). `D.analyse` is the analysis of given quantities
(lines 268-279, 304-315). Each loop takes a bound on its number of rounds.
-/
import Verif.Model.Storage

set_option autoImplicit false

namespace Kiter

variable {n : ℕ}

/-- `createPoint` (buffer_sizing.cpp:1167-1187). -/
def createPoint (modelled : Fin n → Bool) (sd hp : SD n) (m : Int) : SD n :=
  ((List.finRange n).filter modelled).foldl (fun t e => t.setQuantity e (sd.quantity e + hp.quantity e * m)) sd

/-- The state `select` reads and writes: the reference arguments `mult`, `kMinPoint` and `foundPoint`, and its result. -/
structure Selected (n : ℕ) where
  point : SD n
  found : Bool
  mult : Int
  kMin : SD n

/-- `select` (base_monotonic_optimisation.cpp:32-81) with `foundPoint` false on entry; `none` is a `getNextDistribution` on
an empty set. `kMin` is read only if `isSat` is false. The quantities of the copies are overwritten on the edges considered
only (lines 52-70). -/
def selectPoint (modelled : Fin n → Bool) (infeasible knees feasible : SDSet n) (isSat : Bool) (mult : Int) (kMin : SD n) :
    Option (Selected n) := do
  let hpDist ← knees.next
  let plane ← feasible.next
  let twice := createPoint modelled kMin hpDist (mult * 2)
  if !isSat && feasible.satContains twice then
    some ⟨twice, false, mult * 2, kMin⟩
  else
    let kMin := hpDist
    let k := kMin.size - plane.size
    let edges := (List.finRange n).filter modelled
    let plane := edges.foldl (fun t e => t.setQuantity e (kMin.quantity e - k)) plane
    let hpDist := edges.foldl (fun t e => t.setQuantity e ((plane.quantity e - t.quantity e).tdiv 2)) hpDist
    let new := createPoint modelled kMin hpDist 1
    some ⟨new, feasible.satContains new || infeasible.unsatContains new, 1, kMin⟩

/-- Initial infeasible points and knees (base_monotonic_optimisation.cpp:231-243). -/
def kneeInit (init : SD n) : SDSet n × SDSet n :=
  let edges := List.finRange n
  let origin := edges.foldl (fun d e => d.setQuantity e 0) init
  let lb := edges.foldl (fun d e => d.setQuantity e SDSet.intMax) init
  edges.foldl (fun s e => s.1.addKnee (lb.setQuantity e (init.quantity e - 1)) s.2) (SDSet.empty, SDSet.empty.add origin)

/-- State of the first loop: `newDist`, `bufferInc`, `result`, `thrCurrent`, and the infeasible points and knees. -/
structure Growing (n : ℕ) where
  dist : SD n
  inc : Fin n → Int
  result : ℚ × List (Fin n)
  thr : ℚ
  sets : SDSet n × SDSet n

/-- Before the first loop (base_monotonic_optimisation.cpp:235, 245-251): `thrCurrent` is the raw analysis result. -/
def DSE.growStart (D : DSE n) (init : SD n) : Growing n :=
  let r := D.analyse init.quantity
  ⟨init, fun _ => 1, r, r.1, kneeInit init⟩

/-- One round of the first loop (base_monotonic_optimisation.cpp:252-289): record the point, double the increments of its
critical edges and grow them, analyse. -/
def DSE.growRound (D : DSE n) (s : Growing n) : Growing n :=
  let sets := s.sets.1.addKnee s.dist s.sets.2
  let sets := sets.1.addCut s.dist D.modelled s.result.2 sets.2
  let grown := (s.result.2.filter D.modelled).foldl
    (fun (p : SD n × (Fin n → Int)) e => (p.1.setQuantity e (p.1.quantity e + p.2 e * 2), Function.update p.2 e (p.2 e * 2)))
    (s.dist, s.inc)
  let r := D.analyse grown.1.quantity
  let dist := grown.1.setThr (if r.1 < 0 then 0 else r.1)
  ⟨dist, grown.2, r, dist.thr, sets⟩

/-- The first loop (base_monotonic_optimisation.cpp:252-289); `none` if it does not stop within the bound. -/
def DSE.grow (D : DSE n) : ℕ → Growing n → Option (Growing n)
  | 0, s => if s.thr < D.target then none else some s
  | fuel + 1, s => if s.thr < D.target then D.grow fuel (D.growRound s) else some s

/-- State of the second loop: infeasible points and knees, feasible points, and the last selection (with `checkDist`). -/
structure Closing (n : ℕ) where
  sets : SDSet n × SDSet n
  feasible : SDSet n
  sel : Selected n

/-- Before the second loop (base_monotonic_optimisation.cpp:290-301): `kMin` is not read, as `isSat` is true. -/
def DSE.closeStart (D : DSE n) (s : Growing n) : Option (Closing n) := do
  let feasible := SDSet.empty.add s.dist
  let sel ← selectPoint D.modelled s.sets.1 s.sets.2 feasible true 1 s.dist
  some ⟨s.sets, feasible, sel⟩

/-- One round of the second loop (base_monotonic_optimisation.cpp:303-335). -/
def DSE.closeRound (D : DSE n) (s : Closing n) : Option (Closing n) := do
  let r := D.analyse s.sel.point.quantity
  let c := s.sel.point.setThr (if r.1 < 0 then 0 else r.1)
  let isSat := decide (D.target ≤ c.thr)
  let added := s.sets.1.addKnee c s.sets.2
  let sets := if isSat then s.sets else added.1.addCut c D.modelled r.2 added.2
  let feasible := if isSat then s.feasible.addToSat c else s.feasible
  let sel ← selectPoint D.modelled sets.1 sets.2 feasible isSat s.sel.mult s.sel.kMin
  some ⟨sets, feasible, sel⟩

/-- The second loop (base_monotonic_optimisation.cpp:302-336); outer `none`: undefined behaviour, inner: not stopped. -/
def DSE.close (D : DSE n) : ℕ → Closing n → Option (Option (Closing n))
  | 0, s => if s.sel.found then some (some s) else some none
  | fuel + 1, s => if s.sel.found then some (some s) else (D.closeRound s).bind fun s' => D.close fuel s'

/-- The checklist returned (base_monotonic_optimisation.cpp:337-361): every knee raised by one on the edges considered below
`INT_MAX`, if it is then smaller than the smallest feasible point. -/
def raisedKnees (modelled : Fin n → Bool) (knees feasible : SDSet n) : Option (SDSet n) := do
  let raised := knees.members.map fun k => ((List.finRange n).filter modelled).foldl
    (fun t e => if t.quantity e < SDSet.intMax then t.setQuantity e (k.quantity e + 1) else t) k
  if knees.members.isEmpty then some SDSet.empty
  else
    let best ← feasible.next
    some ((raised.filter fun t => t.size < best.size).foldl SDSet.add SDSet.empty)

/-- `base_monotonic_optimised_symbexec_throughput_dse` (base_monotonic_optimisation.cpp:211-362): the checklist, and for
the statements the state in which the search ends. -/
def DSE.kneeSearch (D : DSE n) (init : SD n) (fuel : ℕ) : Option (Option (SDSet n × Closing n)) :=
  match D.grow fuel (D.growStart init) with
  | none => some none
  | some s => match D.closeStart s with
    | none => none
    | some c => match D.close fuel c with
      | none => none
      | some none => some none
      | some (some t) => match raisedKnees D.modelled t.sets.2 t.feasible with
        | none => none
        | some l => some (some (l, t))

/-- The last step (dse.cpp:459-474): a first distribution without throughput is replaced by the empty one; undefined on an
empty set. -/
def SDSet.finish (R : SDSet n) : Option (SDSet n) := do
  let d ← R.next
  if d.thr = 0 then
    let zero := (List.finRange n).foldl (fun t e => t.setQuantity e 0) d
    some ((R.remove d).add zero)
  else some R

/-- `throughput_buffering_tradeoff_dse` without the parameter B_M_OPT, to its end. -/
def DSE.exploreAll (D : DSE n) (init : SD n) (fuel : ℕ) : Option (Option (SDSet n)) :=
  match D.explore init fuel with
  | some (some R) => R.finish.map some
  | x => x

/-- `throughput_buffering_tradeoff_dse` with the parameter B_M_OPT: `S` are the settings of the search by knee points, `D` the
ones of the exploration that follows (dse.cpp:248-268, 320-474). -/
def DSE.exploreKnees (S D : DSE n) (init : SD n) (fuel : ℕ) : Option (Option (SDSet n)) :=
  match S.kneeSearch init fuel with
  | none => none
  | some none => some none
  | some (some (l, _)) => match D.loop fuel l SDSet.empty with
    | some (some R) => R.finish.map some
    | x => x

end Kiter
