/-
Model of src/libkiter/models/repetition_vector.cpp (the whole file) on the machine's integers: `long` has 64 bits and
`int` has 32. Signed overflow of `long` is undefined: `none`. `Verif/Model/Repetition.lean` is the same program on
unbounded integers. The lengths of the vectors are assumed to fit in a `long`.
-/
import Verif.Model.Repetition

set_option autoImplicit false

namespace Kiter.RepM

open Rep

variable {nV nE : Nat}

/-- The largest `long` (`EXEC_COUNT`, `TOKEN_UNIT`: commons/basic_types.h:12-13). -/
def longMax : Int := 2 ^ 63 - 1
/-- The largest `int`. -/
def intMax : Int := 2 ^ 31 - 1

/-- A value that a `long` can hold; the result of an operation that does not is undefined. -/
def long (x : Int) : Option Int := if -longMax - 1 ≤ x ∧ x ≤ longMax then some x else none

/-- Conversion from `long` to `int`: the low 32 bits in two's complement. -/
def toInt (x : Int) : Int := (x + (intMax + 1)) % (2 * (intMax + 1)) - (intMax + 1)

/-- `std::accumulate(l.begin(), l.end(), 0)` (models/Dataflow.h:743, 796): the accumulator is an `int`, each sum is a
`long` converted back. -/
def total : Int → List Int → Option Int
  | acc, [] => some acc
  | acc, x :: xs => (long (acc + x)).bind fun s => total (toInt s) xs

/-- `std::lcm`: it multiplies one argument by the other over the greatest common divisor. -/
def lcm (a b : Int) : Option Int := long (Int.lcm a b : Int)

/-- `ratePeriod` (repetition_vector.cpp:165-172). -/
def ratePeriod (g : Graph nV nE) : Option Int :=
  (List.finRange nE).foldlM (fun r c => (lcm r (g.prod c).length).bind fun r' => lcm r' (g.cons c).length) 1

/-- Tokens produced on `c` in one rate period (repetition_vector.cpp:34-35). -/
def inRate (g : Graph nV nE) (rp : Int) (c : Fin nE) : Option Int :=
  (total 0 (g.prod c)).bind fun t => long (t * rp.tdiv (g.prod c).length)
/-- Tokens consumed from `c` in one rate period (repetition_vector.cpp:38-39). -/
def outRate (g : Graph nV nE) (rp : Int) (c : Fin nE) : Option Int :=
  (total 0 (g.cons c)).bind fun t => long (t * rp.tdiv (g.cons c).length)

/-- `operator*=(const Fraction&)` (commons.h:169-174): both products are `long`. -/
def mul (a b : Frac) : Option Frac :=
  (long (a.n * b.n)).bind fun n => (long (a.d * b.d)).bind fun d =>
    if Int.gcd n d = 0 then none else some ⟨n.tdiv (Int.gcd n d), d.tdiv (Int.gcd n d)⟩

/-- The loop over the edges connected to `a` (repetition_vector.cpp:26-84); `visit` is the recursive call. -/
def edgeLoop (g : Graph nV nE) (rp : Int) (visit : Fracs nV → Fin nV → Option (Bool × Fracs nV)) (a : Fin nV) (fa : Frac) :
    List (Fin nE) → Fracs nV → Option (Bool × Fracs nV)
  | [], fr => some (true, fr)
  | c :: cs, fr =>
    if g.src c = a ∨ g.tgt c = a then
      let b := if g.src c = a then g.tgt c else g.src c
      (inRate g rp c).bind fun rin => (outRate g rp c).bind fun rout =>
      let rateA := if g.tgt c = a then rout else rin
      let rateB := if g.tgt c = a then rin else rout
      if rateA = 0 ∨ rateB = 0 then some (false, fun _ => zero)
      else
        (Frac.make rateA rateB).bind fun ratio =>
          (mul fa ratio).bind fun fb =>
            if Frac.ne (fr b) zero && Frac.ne fb (fr b) then some (false, fun _ => zero)
            else if Frac.eqv (fr b) zero then
              (visit (Function.update fr b fb) b).bind fun r =>
                if Frac.eqv (r.2 b) zero then some (false, r.2) else edgeLoop g rp visit a fa cs r.2
            else edgeLoop g rp visit a fa cs fr
    else edgeLoop g rp visit a fa cs fr

/-- `calcFractionsConnectedActors` (repetition_vector.cpp:15-86), with the recursion depth as fuel. -/
def visit (g : Graph nV nE) (rp : Int) : Nat → Fracs nV → Fin nV → Option (Bool × Fracs nV)
  | 0, _, _ => none
  | fuel + 1, fr, a =>
    if Frac.eqv (fr a) zero then some (false, fr)
    else edgeLoop g rp (visit g rp fuel) a (fr a) (List.finRange nE) fr

/-- The loop over the vertices (repetition_vector.cpp:179-184). -/
def roots (g : Graph nV nE) (rp : Int) (fuel : Nat) : List (Fin nV) → Fracs nV → Option (Bool × Fracs nV)
  | [], fr => some (true, fr)
  | v :: vs, fr =>
    if Frac.eqv (fr v) zero then
      match visit g rp fuel (Function.update fr v ⟨1, 1⟩) v with
      | none => none
      | some (false, fr') => some (false, fr')
      | some (true, fr') => roots g rp fuel vs fr'
    else roots g rp fuel vs fr

/-- `l` (repetition_vector.cpp:95-97). -/
def denLcm (fr : Fracs nV) : Option Int := (List.finRange nV).foldlM (fun l v => lcm l (fr v).d) 1

/-- `calcRepetitionVector` (repetition_vector.cpp:89-150): the products of lines 108 and 127 are `long`. -/
def calcRepetitionVector (g : Graph nV nE) (fr : Fracs nV) (rp : Int) : Option (Option (Fin nV → Int)) :=
  (denLcm fr).bind fun l =>
  if l = 0 then some none
  else if ∃ v, (fr v).d = 0 then none
  else if ∃ v, long ((fr v).n * l) = none then none
  else
    let r : Fin nV → Int := fun v => ((fr v).n * l).tdiv (fr v).d
    match (List.finRange nV).head? with
    | none => none
    | some v0 =>
      let gc : Int := (List.finRange nV).foldl (fun x v => (Int.gcd x (r v) : Int)) (r v0)
      if gc ≤ 0 then none
      else if ∃ v, long ((r v).tdiv gc * rp) = none then none
      else
        let r1 : Fin nV → Int := fun v => (r v).tdiv gc * rp
        if ∃ v, g.phases v = 0 then none
        else
          let sub : Int := (List.finRange nV).foldl (fun x v => (Int.gcd x ((r1 v).tdiv (g.phases v)) : Int)) rp
          if sub = 0 then none else some (some fun v => (r1 v).tdiv sub)

/-- `computeRepetitionVector` (repetition_vector.cpp:158-189) on a graph whose vector is not available yet. -/
def compute (g : Graph nV nE) : Option (Option (Fin nV → Int)) :=
  (ratePeriod g).bind fun rp =>
  if rp ≤ 0 then none
  else
    match roots g rp (nV + 1) (List.finRange nV) (fun _ => zero) with
    | none => none
    | some (false, _) => some none
    | some (true, fr) => calcRepetitionVector g fr rp

end Kiter.RepM
