/-
Model of the event graph of the strictly periodic analysis
(src/libkiter/algorithms/throughput/csdf_strictly_periodic.cpp, `generate_csdf_strictly_periodic_event_graph`,
lines 15-137).

`TIME_UNIT` is `ℚ`; failed assertions, lookups out of range and divisions by zero are `none`. The start value
`numeric_limits<TIME_UNIT>::lowest()` of the maximum is `none` (no candidate yet); the comparison with
`numeric_limits<TIME_UNIT>::max()` (line 123) is always true for rationals.
-/
import Verif.Model.KIter
import Mathlib.Data.List.Sort
import Mathlib.Data.List.Dedup

set_option autoImplicit false

namespace Kiter

/-- `for (p = 1; p <= n; p++) sum += getEdge{In,Out}Phase(c, p)` (csdf_strictly_periodic.cpp:95-96). -/
def spPrefix (init per : List Int) : ℕ → Option Int
  | 0 => some 0
  | n + 1 => do
    let a ← spPrefix init per n
    let x ← phaseRate init per ((n : Int) + 1)
    pure (a + x)

/-- Body of the loops over `k` and `kp` (csdf_strictly_periodic.cpp:94-119), both counted from 0 here: the value `nw`
if it is a candidate for the maximum. -/
def spCandidate (c : KChannel) (ia oa gcdz mop ni : Int) (phit phitp k kp : ℕ) : Option (Option ℚ) := do
  let iapm1 ← spPrefix c.inInit c.inPhases k
  let oapp ← spPrefix c.outInit c.outPhases (kp + 1)
  let inak ← phaseRate c.inInit c.inPhases ((k : Int) + 1)
  let outakp ← phaseRate c.outInit c.outPhases ((kp : Int) + 1)
  let iap := iapm1 + inak
  let ha := max 0 (inak - outakp)
  let amin ← cCeil (ha + oapp - iap - mop) gcdz
  let amax ← cFloor (oapp - iapm1 - mop - 1) gcdz
  let tw : ℚ := (amax : ℚ) - ((kp : ℚ) * oa) / (phitp : ℚ) + ((k : ℚ) * ia) / (phit : ℚ)
  if ia * ni = 0 then none
  else
    let nw : ℚ := tw / ((ia : ℚ) * ni)
    pure (if amin ≤ amax then some nw else none)

/-- `w = std::max(w, nw)` over the candidates (csdf_strictly_periodic.cpp:91-121). -/
def spMax (cand : ℕ × ℕ → Option (Option ℚ)) : List (ℕ × ℕ) → Option ℚ → Option (Option ℚ)
  | [], w => some w
  | q :: l, w => do
    let x ← cand q
    spMax cand l (match x, w with
      | none, w => w
      | some nw, none => some nw
      | some nw, some w => some (max w nw))

/-- The constraint of one group of phases (duration `d`, phases `ks` counted from 0) and one output channel
(csdf_strictly_periodic.cpp:61-130). -/
def spConstraint (d : ℚ) (ks : List ℕ) (e : BChannel) : Option (List EvConstraint) := do
  let c := e.1
  let src := e.2.1
  let dst := e.2.2
  let phit := src.durations.length
  let phitp := dst.durations.length
  let ia := c.inPhases.sum
  let oa := c.outPhases.sum
  let mop ← cFloor c.preload c.fineGCD
  let gcdz : Int := Int.gcd ia oa
  if ks.length = 0 ∨ phitp = 0 ∨ phit = 0 then none
  else
    let ni := src.ni.tdiv phit
    let nj := dst.ni.tdiv phitp
    if ia * ni = oa * nj then
      let w ← spMax (fun q => spCandidate c ia oa gcdz mop ni phit phitp q.1 q.2)
        (ks.flatMap fun k => (List.range phitp).map fun kp => (k, kp)) none
      match w with
      | none => pure []
      | some w => pure [{ src := ⟨src.id, 1, 1⟩, dst := ⟨dst.id, 1, 1⟩, w := -w, d := d, channel := c.id }]
    else none

/-- `delta_l_t` (csdf_strictly_periodic.cpp:36-52): phases (from 0) grouped by duration, or all together under the
longest duration, in increasing order of duration. `max_element` of an empty range is undefined. -/
def spGroups (useMax : Bool) (t : KTask) : Option (List (ℚ × List ℕ)) := do
  let maxd ← t.durations.max?
  let phit := t.durations.length
  let durs ← (List.range phit).mapM fun (k : ℕ) => phaseDuration t ((k : Int) + 1)
  let key : ℕ → ℚ := fun k => if useMax then maxd else durs.getD k 0
  let keys := ((List.range phit).map key).dedup.insertionSort (· ≤ ·)
  pure (keys.map fun d => (d, (List.range phit).filter fun k => decide (key k = d)))

/-- The self constraint of a task (csdf_strictly_periodic.cpp:22-32). -/
def spSelf (t : KTask) : Option (List EvConstraint) := do
  let maxd ← t.durations.max?
  if t.ni = 0 then none
  else pure [{ src := ⟨t.id, 1, 1⟩, dst := ⟨t.id, 1, 1⟩, w := 1 / (t.ni : ℚ), d := maxd, channel := t.id }]

/-- The precedence constraints of a task (csdf_strictly_periodic.cpp:34-134). -/
def spTask (B : BaseGraph) (useMax : Bool) (t : KTask) : Option (List EvConstraint) := do
  let groups ← spGroups useMax t
  collect (fun g => collect (spConstraint g.1 g.2) (B.channels.filter fun c => decide (c.2.1.id = t.id))) groups

/-- `generate_csdf_strictly_periodic_event_graph` (csdf_strictly_periodic.cpp:15-137). -/
def generateSP (B : BaseGraph) (useMax : Bool) : Option (List EvConstraint) := do
  let a ← collect spSelf B.tasks
  let b ← collect (spTask B useMax) B.tasks
  pure (a ++ b)

end Kiter
