/-
Model of storage distributions and their sets
(src/libkiter/algorithms/dse/buffer_sizing.h, buffer_sizing.cpp) and of the exploration that uses them
(src/libkiter/algorithms/dse/dse.cpp).

A `StorageDistribution` maps edges to (initial tokens, quantity) (`std::map<Edge, pair>`). Every distribution of an
exploration is a copy of one initial distribution (dse.cpp:166-169), so all have the same edges: the model fixes the
edge set to `Fin n` (iteration order of the map: increasing). The asserts "same edge count" and "edge in map"
(buffer_sizing.cpp:53, 59, 90, 105) then hold by construction. `TIME_UNIT` is `ℚ`.
-/
import Mathlib.Data.Rat.Defs
import Mathlib.Algebra.Order.Ring.Rat
import Mathlib.Data.List.FinRange
import Mathlib.Data.Fin.VecNotation

set_option autoImplicit false

namespace Kiter

/-- `StorageDistribution` (buffer_sizing.h:17-55). `quantity` and `initial` are the components of
`channel_quantities`. -/
structure SD (n : ℕ) where
  quantity : Fin n → Int
  initial : Fin n → Int
  thr : ℚ
  size : Int

namespace SD
variable {n : ℕ}

/-- `updateDistributionSize` (buffer_sizing.cpp:120-129): the loop adds up the quantities in map order. -/
def updateSize (s : SD n) : SD n :=
  let sz := (List.finRange n).foldl (fun acc e => acc + s.quantity e) 0
  if sz ≠ s.size then { s with size := sz } else s

/-- `setChannelQuantity` (buffer_sizing.cpp:28-32), on an edge of the map. -/
def setQuantity (s : SD n) (e : Fin n) (q : Int) : SD n :=
  updateSize { s with quantity := Function.update s.quantity e q }

/-- `setInitialTokens` (buffer_sizing.cpp:35-38). -/
def setInitial (s : SD n) (e : Fin n) (q : Int) : SD n := { s with initial := Function.update s.initial e q }

/-- `setThroughput` (buffer_sizing.cpp:47-49). -/
def setThr (s : SD n) (t : ℚ) : SD n := { s with thr := t }

/-- `operator==` (buffer_sizing.cpp:89-100): quantities only, in map order, stopping at the first difference. -/
def eqv (a b : SD n) : Bool := (List.finRange n).all fun e => a.quantity e == b.quantity e

/-- `operator!=` (buffer_sizing.cpp:102-114). -/
def neqv (a b : SD n) : Bool := (List.finRange n).any fun e => a.quantity e != b.quantity e

/-- `inBackConeOf` (buffer_sizing.cpp:1016-1023). -/
def inBackConeOf (a b : SD n) : Bool := (List.finRange n).all fun e => !decide (a.quantity e > b.quantity e)

/-- `inForConeOf` (buffer_sizing.cpp:1027-1034). -/
def inForConeOf (a b : SD n) : Bool := (List.finRange n).all fun e => !decide (a.quantity e < b.quantity e)

/-- `makeMinimalSD` (buffer_sizing.cpp:928-938). -/
def makeMinimal (a b : SD n) : SD n :=
  (List.finRange n).foldl (fun m e => m.setQuantity e (min (a.quantity e) (b.quantity e))) a

end SD

/-- `StorageDistributionSet` (buffer_sizing.h:57-120): buckets by increasing size, and `p_max` (size, throughput),
value-initialised to (0, 0). -/
structure SDSet (n : ℕ) where
  buckets : List (Int × List (SD n))
  pmax : Int × ℚ

namespace SDSet
variable {n : ℕ}

/-- Default constructor (buffer_sizing.cpp:239-241). -/
def empty : SDSet n := ⟨[], (0, 0)⟩

/-- Constructor from one distribution (buffer_sizing.cpp:243-249). -/
def single (sz : Int) (d : SD n) : SDSet n := ⟨[(sz, [d])], (sz, d.thr)⟩

/-- `set[key].push_back(d)`: the bucket is created if absent, in key order (`std::map::operator[]`). -/
def pushBucket (key : Int) (d : SD n) : List (Int × List (SD n)) → List (Int × List (SD n))
  | [] => [(key, [d])]
  | (k, l) :: rest =>
    if key < k then (key, [d]) :: (k, l) :: rest
    else if key = k then (k, l ++ [d]) :: rest
    else (k, l) :: pushBucket key d rest

/-- `set.find(key)` / `set[key]` for an existing key. -/
def bucket (key : Int) : List (Int × List (SD n)) → Option (List (SD n))
  | [] => none
  | (k, l) :: rest => if key = k then some l else bucket key rest

/-- `hasDistribution` (buffer_sizing.cpp:375-377). -/
def hasDistribution (s : SDSet n) (sz : Int) : Bool := (bucket sz s.buckets).isSome

/-- Search for an equal distribution in the bucket of the same size (buffer_sizing.cpp:265-276). -/
def duplicate (s : SDSet n) (d : SD n) : Bool :=
  match bucket d.size s.buckets with
  | none => false
  | some l => l.any fun x => d.eqv x

/-- `addStorageDistribution` (buffer_sizing.cpp:261-286). -/
def add (s : SDSet n) (d : SD n) : SDSet n :=
  if s.duplicate d then s
  else
    ⟨pushBucket d.size d s.buckets, if d.thr > s.pmax.2 then (d.size, d.thr) else s.pmax⟩

/-- Erase-remove on one bucket and `removeDistributionSize` if it becomes empty (buffer_sizing.cpp:289-304). If the
bucket does not exist, `operator[]` creates an empty one which is erased again. -/
def removeBucket (d : SD n) : List (Int × List (SD n)) → List (Int × List (SD n))
  | [] => []
  | (k, l) :: rest =>
    if k = d.size then
      let l' := l.filter fun x => !(x.eqv d)
      if l'.isEmpty then rest else (k, l') :: rest
    else (k, l) :: removeBucket d rest

/-- `removeStorageDistribution` (buffer_sizing.cpp:289-304). -/
def remove (s : SDSet n) (d : SD n) : SDSet n := { s with buckets := removeBucket d s.buckets }

/-- The distributions in the order of the nested loops `for (d : set) for (sd : d.second)`. -/
def members (s : SDSet n) : List (SD n) := s.buckets.flatMap fun b => b.2

/-- `getNextDistribution` (buffer_sizing.cpp:306-308): `set.begin()->second.front()`, undefined on an empty set. -/
def next (s : SDSet n) : Option (SD n) :=
  match s.buckets with
  | [] => none
  | b :: _ => b.2.head?

/-- `getSize` (buffer_sizing.cpp:311-317). -/
def getSize (s : SDSet n) : ℕ := s.buckets.foldl (fun acc b => acc + b.2.length) 0

/-- `hasStorageDistribution` (buffer_sizing.cpp:380-390). -/
def has (s : SDSet n) (d : SD n) : Bool := s.members.foldl (fun acc x => if d.eqv x then true else acc) false

/-- `commons::AreSame` (commons.h:446-448), `eps` is the machine epsilon of the type. -/
def areSame (eps a b : ℚ) : Bool := |a - b| < eps

/-- Loop of `minimizeStorageDistributions` over the copy `ref` of the set (buffer_sizing.cpp:346-369). -/
def minimizeLoop (eps : ℚ) (new : SD n) : List (SD n) → SDSet n → SDSet n
  | [], s => s
  | d :: ref, s =>
    if (new.size > d.size ∧ (new.thr < d.thr ∨ areSame eps new.thr d.thr)) ∨ (new.size ≥ d.size ∧ new.thr < d.thr) then
      s.remove new
    else if new.size = d.size ∧ new.thr > d.thr then minimizeLoop eps new ref (s.remove d)
    else minimizeLoop eps new ref s

/-- `minimizeStorageDistributions` (buffer_sizing.cpp:332-370). -/
def minimize (eps : ℚ) (s : SDSet n) (new : SD n) : SDSet n := minimizeLoop eps new s.members s

/-- `isSearchComplete` (buffer_sizing.cpp:393-411). -/
def isSearchComplete (eps : ℚ) (s checklist : SDSet n) (target : ℚ) : Bool :=
  (areSame eps s.pmax.2 target && !checklist.hasDistribution s.pmax.1) || decide (checklist.getSize ≤ 0)

/-- `satContains` (buffer_sizing.cpp:1189-1198). -/
def satContains (s : SDSet n) (d : SD n) : Bool := s.members.any fun x => d.inForConeOf x

/-- `unsatContains` (buffer_sizing.cpp:1200-1209). -/
def unsatContains (s : SDSet n) (d : SD n) : Bool := s.members.any fun x => d.inBackConeOf x

/-- First loop of `addToUnsat` (buffer_sizing.cpp:1039-1047): the subsumed points, or `none` for `return false`. -/
def unsatScan (d : SD n) : List (SD n) → SDSet n → Option (SDSet n)
  | [], sub => some sub
  | x :: l, sub =>
    if x.inBackConeOf d && x.neqv d then unsatScan d l (sub.add x)
    else if d.inBackConeOf x then none
    else unsatScan d l sub

/-- Remove all members of one set from another (the `for` loops calling `removeStorageDistribution`). -/
def removeAll (s : SDSet n) (l : List (SD n)) : SDSet n := l.foldl remove s

/-- `addToUnsat` (buffer_sizing.cpp:1037-1055): the new set and the returned flag. -/
def addToUnsat (s : SDSet n) (d : SD n) : SDSet n × Bool :=
  match unsatScan d s.members empty with
  | none => (s, false)
  | some sub => ((s.removeAll sub.members).add d, true)

/-- First loop of `addToSat` (buffer_sizing.cpp:1059-1067). -/
def satScan (d : SD n) : List (SD n) → SDSet n → Option (SDSet n)
  | [], sub => some sub
  | x :: l, sub =>
    if d.inForConeOf x then none
    else if x.inBackConeOf d then satScan d l (sub.add x)
    else satScan d l sub

/-- `addToSat` (buffer_sizing.cpp:1057-1074). -/
def addToSat (s : SDSet n) (d : SD n) : SDSet n :=
  match satScan d s.members empty with
  | none => s
  | some sub => (s.removeAll sub.members).add d

/-- First loop of `addToExtensions` (buffer_sizing.cpp:1150-1158). -/
def extScan (d : SD n) : List (SD n) → SDSet n → Option (SDSet n)
  | [], sub => some sub
  | x :: l, sub =>
    if x.inForConeOf d then extScan d l (sub.add x)
    else if d.inForConeOf x then none
    else extScan d l sub

/-- `addToExtensions` (buffer_sizing.cpp:1147-1165). -/
def addToExtensions (ext : SDSet n) (d : SD n) : SDSet n :=
  match extScan d ext.members empty with
  | none => ext
  | some sub => (ext.removeAll sub.members).add d

/-- `StorageDistributionSet::add(sd, kneePoints)` (buffer_sizing.cpp:1076-1113): the new infeasible set and knee
set. -/
def addKnee (s : SDSet n) (d : SD n) (knees : SDSet n) : SDSet n × SDSet n :=
  let r := s.addToUnsat d
  if r.2 = false then (r.1, knees)
  else
    let subsumed := (knees.members.filter fun k => k.inBackConeOf d).foldl add empty
    let knees' := knees.removeAll subsumed.members
    let ext := (subsumed.members.flatMap fun k => (List.finRange n).map fun e => k.setQuantity e (d.quantity e)).foldl
      addToExtensions empty
    (r.1, ext.members.foldl add knees')

/-- Value of `INT_MAX`. -/
def intMax : Int := 2147483647

/-- `addCut` (buffer_sizing.cpp:1115-1145): `modelled` lists the edges considered (all of them, or the ones whose id is
in the upper half when bounded buffers are modelled), `critical` the critical edges. -/
def addCut (s : SDSet n) (d : SD n) (modelled : Fin n → Bool) (critical : List (Fin n)) (knees : SDSet n) :
    SDSet n × SDSet n :=
  if critical.isEmpty then (s, knees)
  else
    let cut := (List.finRange n).filter fun e => modelled e && !decide (e ∈ critical)
    if cut.isEmpty then (s, knees)
    else s.addKnee (cut.foldl (fun t e => t.setQuantity e intMax) d) knees

end SDSet

/-! ### Exploration (dse.cpp) -/

/-- Parameters of the exploration: the epsilon of float comparisons, which edges model buffers (all of them for
symbolic execution; the feedback edges otherwise), the step per edge (`minStepSizes * coarseMultiplier`), the target and
the analysis giving throughput and critical edges of given quantities (dse.cpp:336-352). -/
structure DSE (n : ℕ) where
  eps : ℚ
  modelled : Fin n → Bool
  step : Fin n → Int
  target : ℚ
  analyse : (Fin n → Int) → ℚ × List (Fin n)

/-- One round of the loop (dse.cpp:320-460): take the next distribution, analyse it, record it, add its successors to
the checklist, minimise. `none` is `getNextDistribution` on an empty set. Returns the new checklist and result. -/
def DSE.round {n : ℕ} (D : DSE n) (checklist result : SDSet n) : Option (SDSet n × SDSet n) := do
  let c ← checklist.next
  let checklist := checklist.remove c
  let r := D.analyse c.quantity
  let c := c.setThr (if r.1 < 0 then 0 else r.1)
  let result := result.add c
  let checklist := (r.2.filter D.modelled).foldl (fun l e => l.add (c.setQuantity e (c.quantity e + D.step e))) checklist
  pure (checklist, result.minimize D.eps c)

/-- The `while` loop (dse.cpp:320-460); running out of fuel is `some none`. -/
def DSE.loop {n : ℕ} (D : DSE n) : ℕ → SDSet n → SDSet n → Option (Option (SDSet n))
  | 0, checklist, result => if result.isSearchComplete D.eps checklist D.target then some (some result) else some none
  | fuel + 1, checklist, result =>
    if result.isSearchComplete D.eps checklist D.target then some (some result)
    else match D.round checklist result with
      | none => none
      | some r => D.loop fuel r.1 r.2

/-- The exploration from the initial distribution, without the final replacement of a zero-throughput point. -/
def DSE.explore {n : ℕ} (D : DSE n) (init : SD n) (fuel : ℕ) : Option (Option (SDSet n)) :=
  D.loop fuel (SDSet.single init.size init) SDSet.empty

end Kiter
