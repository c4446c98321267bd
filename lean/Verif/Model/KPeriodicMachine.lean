/-
Model of the K-periodic event graph generation (algorithms/throughput/kperiodic.cpp:344-385, 515-687) on the machine's
integers: every operation on `long` is checked, an overflow is undefined (`none`). `Verif/Model/KPeriodic.lean` is the
same program on unbounded integers. The quotient of `commons::floor` is rounded by `rnd`, the rounding of the
`long double` format. Simplification: the other `TIME_UNIT` values (durations and weights) are exact, and the lengths
of the vectors fit in a `long`.
-/
import Verif.Model.KPeriodic
import Verif.Model.RepetitionMachine
import Mathlib.Data.Int.Log
import Mathlib.Algebra.Order.Round

set_option autoImplicit false

namespace Kiter.KM

open RepM

/-- Rounding to the nearest number with `p` significant bits (ties upwards), without bound on the exponent: `p = 64` for
the extended format of x86, `p = 53` where `long double` is `double` (`TIME_UNIT`, commons/basic_types.h:17). -/
def nearest (p : Nat) (x : ℚ) : ℚ :=
  if x = 0 then 0 else (round (x * 2 ^ ((p : Int) - 1 - Int.log 2 |x|)) : ℚ) / 2 ^ ((p : Int) - 1 - Int.log 2 |x|)

/-- `commons::floor(entier v, entier c)` (commons.h:465-466): a rounded quotient, rounded down, converted to `long` and
multiplied. -/
def floor (rnd : ℚ → ℚ) (v c : Int) : Option Int :=
  if c = 0 then none else (long ⌊rnd ((v : ℚ) / c)⌋).bind fun q => long (q * c)

/-- `lpimax` (kperiodic.cpp:585), from left to right. -/
def lpimax (mop dapkm1 damkp stepa : Int) : Option Int :=
  (long (-mop)).bind fun a => (long (a - dapkm1)).bind fun b => (long (b + damkp)).bind fun c => long (c - stepa)

/-- `lpimin` (kperiodic.cpp:588), from left to right. -/
def lpimin (wak vakp mop dapk damkp : Int) : Option Int :=
  (long (wak - vakp)).bind fun z => (long (max 0 z - mop)).bind fun a => (long (a - dapk)).bind fun b => long (b + damkp)

/-- `rpimax` and `alphamax` (kperiodic.cpp:586-587). -/
def floorMult (l g : Int) : Option Int :=
  (long (l - l.tmod g)).bind fun a => if l.tmod g ≥ 0 then some a else long (a - g)

/-- `rpimin` and `alphamin` (kperiodic.cpp:593-594). -/
def ceilMult (l g : Int) : Option Int :=
  (long (l - l.tmod g)).bind fun a => if l.tmod g ≤ 0 then some a else long (a + g)

/-- The constraint of one pair of executions, if there is one (kperiodic.cpp:585-619). -/
def pair (x : KCtx) (ki pi kj pj wak vakp dapkm1 dapk damkp : Int) (d : ℚ) : Option (List EvConstraint) :=
  (lpimax x.mop dapkm1 damkp x.ch.fineGCD).bind fun lmax =>
  (floorMult lmax x.gcdz).bind fun amax =>
  (lpimin wak vakp x.mop dapk damkp).bind fun lmin =>
  (ceilMult lmin x.gcdz).bind fun amin =>
  if amin ≤ amax then
    some [⟨⟨x.src.id, pi, ki⟩, ⟨x.dst.id, pj, kj⟩, -(((amax : ℚ) * x.kiPhases) / x.den), d, x.ch.id⟩]
  else some []

/-- Body and loop over the target executions (kperiodic.cpp:570-625). -/
def innerLoop (x : KCtx) (ki pi wak dapkm1 dapk : Int) (d : ℚ) :
    List (Int × Int) → Int → Option (List EvConstraint)
  | [], _ => some []
  | (kj, pj) :: rest, damkp =>
    (phaseRate x.ch.outInit x.ch.outPhases pj).bind fun vakp =>
    (long (damkp + vakp)).bind fun damkp' =>
    (pair x ki pi kj pj wak vakp dapkm1 dapk damkp' d).bind fun here =>
    (innerLoop x ki pi wak dapkm1 dapk d rest damkp').bind fun tail => some (here ++ tail)

/-- Loop over the source executions (kperiodic.cpp:556-628). -/
def outerLoop (x : KCtx) (targets : List (Int × Int)) :
    List (Int × Int) → (dapkm1 dapk : Int) → Option (List EvConstraint)
  | [], _, _ => some []
  | (ki, pi) :: rest, dapkm1, dapk =>
    (phaseDuration x.src pi).bind fun d =>
    (phaseRate x.ch.inInit x.ch.inPhases pi).bind fun wak =>
    (long (dapk + wak)).bind fun dapk' =>
    (innerLoop x ki pi wak dapkm1 dapk' d targets 0).bind fun here =>
    (outerLoop x targets rest dapk' dapk').bind fun tail => some (here ++ tail)

/-- `generateKPeriodicConstraint` (kperiodic.cpp:515-629). `getEdgeIn`/`getEdgeOut` are the totals kept by the setters of
the rates (models/Dataflow.h:743, 796), added up in an `int`. -/
def channelConstraints (rnd : ℚ → ℚ) (src dst : KTask) (c : KChannel) (ki kj : Nat) : Option (List EvConstraint) :=
  (floor rnd c.preload c.fineGCD).bind fun mop =>
  (total 0 c.inPhases).bind fun tin =>
  (total 0 c.outPhases).bind fun tout =>
  (long (tin * ki)).bind fun wc =>
  (long (tout * kj)).bind fun rc =>
  (long (Int.gcd wc rc : Int)).bind fun g =>
  if g = 0 ∨ wc * src.ni = 0 then none
  else
    outerLoop ⟨src, dst, c, mop, wc, g, (c.inPhases.length : ℚ) * ki, (wc : ℚ) * src.ni⟩
      (loopPairs c.outInit.length c.outPhases.length kj) (loopPairs c.inInit.length c.inPhases.length ki) 0 0

/-- `generateKperiodicSelfloop` (kperiodic.cpp:632-687): the only product of `long` is `p * i` (line 681). The other
operations count phases and iterations. -/
def selfLoopConstraints (t : KTask) (ki : Nat) : Option (List EvConstraint) :=
  if t.reentrancy > 0 ∧ long ((t.durations.length : Int) * ki) = none then none else Kiter.selfLoopConstraints t ki

/-- `generateKPeriodicEventGraph` (kperiodic.cpp:344-385). -/
def eventGraph (rnd : ℚ → ℚ) (g : KGraph) : Option (List EvConstraint) :=
  (collect (fun tk => selfLoopConstraints tk.1 tk.2) g.tasks).bind fun a =>
  (collect (fun c => channelConstraints rnd c.2.1.1 c.2.2.1 c.1 c.2.1.2 c.2.2.2) g.channels).bind fun b =>
  some (a ++ b)

end Kiter.KM
