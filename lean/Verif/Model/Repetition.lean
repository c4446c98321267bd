/-
Model of src/libkiter/models/repetition_vector.cpp (the whole file).
`long` is `Int` without overflow. Rate totals (`getEdgeIn`, `getEdgeOut`) are the sums of the rate vectors
(models/Dataflow.h:743, 796 accumulate them with an `int` start value: sums over `INT_MAX` are not modelled).
-/
import Verif.Model.Fraction
import Mathlib.Data.List.FinRange

set_option autoImplicit false

namespace Kiter.Rep

/-- What `computeRepetitionVector` reads of a `Dataflow` with vertices `0..nV-1` (in `ForEachVertex` order) and edges
`0..nE-1` (in `ForEachEdge` order): end points, production and consumption vectors, number of phases. -/
structure Graph (nV nE : Nat) where
  src : Fin nE → Fin nV
  tgt : Fin nE → Fin nV
  prod : Fin nE → List Int
  cons : Fin nE → List Int
  phases : Fin nV → Nat

variable {nV nE : Nat}

/-- The map `fractions`: a key that is not in the map reads as `Fraction()`, which is 0/1 (commons.h:46). -/
abbrev Fracs (nV : Nat) := Fin nV → Frac

/-- `EXEC_COUNT_FRACT(0,1)`. -/
def zero : Frac := ⟨0, 1⟩

/-- `ratePeriod` (repetition_vector.cpp:165-172). -/
def ratePeriod (g : Graph nV nE) : Nat :=
  (List.finRange nE).foldl (fun r c => Nat.lcm (Nat.lcm r (g.prod c).length) (g.cons c).length) 1

/-- Tokens produced on `c` in one rate period (repetition_vector.cpp:34-35). -/
def inRate (g : Graph nV nE) (rp : Nat) (c : Fin nE) : Int := (g.prod c).sum * ((rp / (g.prod c).length : Nat) : Int)
/-- Tokens consumed from `c` in one rate period (repetition_vector.cpp:38-39). -/
def outRate (g : Graph nV nE) (rp : Nat) (c : Fin nE) : Int := (g.cons c).sum * ((rp / (g.cons c).length : Nat) : Int)

/-- The loop over the edges connected to `a` (repetition_vector.cpp:26-84); `visit` is the recursive call. `none` is a
failure (division by zero in a fraction operation). The recursive call's return value is ignored (line 75). -/
def edgeLoop (g : Graph nV nE) (rp : Nat) (visit : Fracs nV → Fin nV → Option (Bool × Fracs nV)) (a : Fin nV) (fa : Frac) :
    List (Fin nE) → Fracs nV → Option (Bool × Fracs nV)
  | [], fr => some (true, fr)
  | c :: cs, fr =>
    if g.src c = a ∨ g.tgt c = a then                                             -- ForConnectedEdges
      let b := if g.src c = a then g.tgt c else g.src c
      let rateA := if g.tgt c = a then outRate g rp c else inRate g rp c          -- lines 41-45
      let rateB := if g.tgt c = a then inRate g rp c else outRate g rp c
      if rateA = 0 ∨ rateB = 0 then some (false, fun _ => zero)                   -- lines 48-53
      else
        match Frac.make rateA rateB with
        | none => none
        | some ratio =>
          match Frac.mul fa ratio with
          | none => none
          | some fb =>
            if Frac.ne (fr b) zero && Frac.ne fb (fr b) then some (false, fun _ => zero)    -- lines 63-69
            else if Frac.eqv (fr b) zero then
              match visit (Function.update fr b fb) b with                                  -- lines 73-76
              | none => none
              | some (_, fr') =>
                if Frac.eqv (fr' b) zero then some (false, fr') else edgeLoop g rp visit a fa cs fr'
            else edgeLoop g rp visit a fa cs fr
    else edgeLoop g rp visit a fa cs fr

/-- `calcFractionsConnectedActors` (repetition_vector.cpp:15-86), with the recursion depth as fuel: running out is
`none`. It returns the boolean and the updated map. -/
def visit (g : Graph nV nE) (rp : Nat) : Nat → Fracs nV → Fin nV → Option (Bool × Fracs nV)
  | 0, _, _ => none
  | fuel + 1, fr, a =>
    if Frac.eqv (fr a) zero then some (false, fr)
    else edgeLoop g rp (visit g rp fuel) a (fr a) (List.finRange nE) fr

/-- The loop over the vertices (repetition_vector.cpp:179-184). -/
def roots (g : Graph nV nE) (rp fuel : Nat) : List (Fin nV) → Fracs nV → Option (Bool × Fracs nV)
  | [], fr => some (true, fr)
  | v :: vs, fr =>
    if Frac.eqv (fr v) zero then
      match visit g rp fuel (Function.update fr v ⟨1, 1⟩) v with
      | none => none
      | some (false, fr') => some (false, fr')
      | some (true, fr') => roots g rp fuel vs fr'
    else roots g rp fuel vs fr

/-- `l`: least common multiple of the denominators (repetition_vector.cpp:95-97). -/
def denLcm (fr : Fracs nV) : Int := (List.finRange nV).foldl (fun l v => (Int.lcm l (fr v).d : Int)) 1

/-- `calcRepetitionVector` (repetition_vector.cpp:89-150): `none` for an empty graph (line 114 reads the first element
of an empty map), a failed assertion or a division by zero; `some none` is "returns false". -/
def calcRepetitionVector (g : Graph nV nE) (fr : Fracs nV) (rp : Nat) : Option (Option (Fin nV → Int)) :=
  let l := denLcm fr
  if l = 0 then some none
  else if ∃ v, (fr v).d = 0 then none
  else
    let r : Fin nV → Int := fun v => ((fr v).n * l).tdiv (fr v).d
    match (List.finRange nV).head? with
    | none => none
    | some v0 =>
      let gc : Int := (List.finRange nV).foldl (fun x v => (Int.gcd x (r v) : Int)) (r v0)
      if gc ≤ 0 then none
      else
        let r1 : Fin nV → Int := fun v => (r v).tdiv gc * rp
        if ∃ v, g.phases v = 0 then none
        else
          let sub : Int := (List.finRange nV).foldl (fun x v => (Int.gcd x ((r1 v).tdiv (g.phases v)) : Int)) rp
          if sub = 0 then none else some (some fun v => (r1 v).tdiv sub)

/-- `computeRepetitionVector` (repetition_vector.cpp:158-189) on a graph whose vector is not available yet. -/
def compute (g : Graph nV nE) : Option (Option (Fin nV → Int)) :=
  let rp := ratePeriod g
  if rp = 0 then none                                                             -- line 173
  else
    match roots g rp (nV + 1) (List.finRange nV) (fun _ => zero) with
    | none => none
    | some (false, _) => some none
    | some (true, fr) => calcRepetitionVector g fr rp

end Kiter.Rep
