/-
Model of src/libkiter/algorithms/normalization.cpp (the whole file, without the blocks under `REENTRANCY_NORMALIZED`).
`TOKEN_FRACT` values are `ℚ`: `Fraction<V>` computes with reduced fractions (C19 to C21), `numerator()` and
`denominator()` are `num` and `den`. `TOKEN_UNIT` is `Int` without overflow, so the tests for "DATA_UNIT OVERFLOW" are
kept as they are written. Rate totals are the sums of the rate vectors, as in Model/Repetition.lean.
-/
import Verif.Model.Repetition
import Mathlib.Data.Fintype.Basic
import Mathlib.Logic.Function.Basic

set_option autoImplicit false

namespace Kiter.Norm

/-- What `normalize` reads of a `Dataflow`: the graph of Model/Repetition.lean and the initial tokens of each channel. -/
structure Graph (nV nE : Nat) extends Rep.Graph nV nE where
  preload : Fin nE → Int

variable {nV nE : Nat}

/-- `getEdgeIn` (models/Dataflow.h:796). -/
def inT (g : Graph nV nE) (e : Fin nE) : Int := (g.prod e).sum
/-- `getEdgeOut` (models/Dataflow.h:743). -/
def outT (g : Graph nV nE) (e : Fin nE) : Int := (g.cons e).sum

/-- `getFineGCD` (models/Dataflow.h:918-955), with an empty cache. Simplification: on an empty production vector the
program fails when it reads phase 1; every covered graph has a first phase. -/
def fineGCD (g : Graph nV nE) (e : Fin nE) : Int :=
  (g.cons e).foldl (fun x r => (Int.gcd x r : Int)) ((g.prod e).foldl (fun x r => (Int.gcd x r : Int)) ((g.prod e).headD 0))

/-- The test of `ForConnectedEdges` (models/Dataflow.h:238-245). -/
def conn (g : Graph nV nE) (t : Fin nV) (e : Fin nE) : Bool := decide (g.src e = t) || decide (g.tgt e = t)

/-- `V` (normalization.cpp:285, 319): the rate total on the side of `t`. -/
def rateAt (g : Graph nV nE) (t : Fin nV) (e : Fin nE) : Int := if g.src e = t then inT g e else outT g e

/-- The variables of the search: `alphas`, `total_a_voir` and `prochains_a_voir`. -/
structure State (nV nE : Nat) where
  alpha : Fin nE → Option ℚ
  unseen : Fin nV → Bool
  next : Fin nV → Bool

/-- Computing `ZI_REF` (normalization.cpp:276-304): `none` is "not consistent graph", which returns `NULL`. -/
def zRef (g : Graph nV nE) (α : Fin nE → Option ℚ) (t : Fin nV) : List (Fin nE) → ℚ → Option ℚ
  | [], z => some z
  | e :: es, z =>
    if conn g t e then
      match α e with
      | some a =>
        if (if z = 0 then a * rateAt g t e else z) = a * rateAt g t e then
          zRef g α t es (if z = 0 then a * rateAt g t e else z)
        else none
      | none => zRef g α t es z
    else zRef g α t es z

/-- "propagate Zi" (normalization.cpp:311-325): every channel of `t` without coefficient gets one. `none` is the failed
division by a rate total that is zero. -/
def propagate (g : Graph nV nE) (α : Fin nE → Option ℚ) (t : Fin nV) (z : ℚ) : Option (Fin nE → Option ℚ) :=
  if ∃ e, conn g t e = true ∧ α e = none ∧ rateAt g t e = 0 then none
  else some fun e => if conn g t e = true ∧ α e = none then some (z / rateAt g t e) else α e

/-- "k multiply to keep integrity" (normalization.cpp:329-346): `none` is the return of `NULL` at line 343. -/
def integrity (g : Graph nV nE) (t : Fin nV) : List (Fin nE) → (Fin nE → Option ℚ) → ℚ → Option (Fin nE → Option ℚ)
  | [], α, _ => some α
  | e :: es, α, z =>
    if conn g t e then
      if ((α e).getD 0 * fineGCD g e).den ≠ 1 then
        if z * ((α e).getD 0 * fineGCD g e).den ≤ 0 then none
        else integrity g t es (fun c => (α c).map (· * (((α e).getD 0 * fineGCD g e).den : ℚ)))
          (z * ((α e).getD 0 * fineGCD g e).den)
      else integrity g t es α z
    else integrity g t es α z

/-- Whether a channel of `t` ends in `v`. -/
def touches (g : Graph nV nE) (t v : Fin nV) : Bool :=
  (List.finRange nE).any fun e => conn g t e && (decide (g.src e = v) || decide (g.tgt e = v))

/-- "add next task to do" (normalization.cpp:364-371), on the state after `t` was removed from `prochains_a_voir`. -/
def addNext (g : Graph nV nE) (s : State nV nE) (t : Fin nV) : State nV nE :=
  ⟨s.alpha, fun v => s.unseen v && !touches g t v, fun v => s.next v || (s.unseen v && touches g t v)⟩

/-- The first coefficient of a component and its two tasks (normalization.cpp:249-260, 381-389). -/
def seed (g : Graph nV nE) (s : State nV nE) (e : Fin nE) : State nV nE :=
  ⟨Function.update s.alpha e (some (1 / (Int.gcd (inT g e) (outT g e) : ℚ))),
   fun v => s.unseen v && !(decide (g.src e = v) || decide (g.tgt e = v)),
   fun v => s.next v || (decide (g.src e = v) || decide (g.tgt e = v))⟩

/-- Whether the set `prochains_a_voir` is not empty. -/
def nextTask (s : State nV nE) : Option (Fin nV) := (List.finRange nV).find? fun v => s.next v

/-- The search for a channel between two tasks that were not seen (normalization.cpp:375-393): `none` is the failed
construction of a fraction with denominator 0. -/
def reseed (g : Graph nV nE) (s : State nV nE) : Option (State nV nE) :=
  if (nextTask s).isNone ∧ ∃ v, s.unseen v = true then
    match (List.finRange nE).find? fun e => s.unseen (g.src e) && s.unseen (g.tgt e) with
    | none => some s
    | some e => if Int.gcd (inT g e) (outT g e) = 0 then none else some (seed g s e)
  else some s

/-- One round of the loop (normalization.cpp:269-395) for the task `t`. The outer `none` is a failure, `some none` a
return of `NULL`. Simplification: `std::set<Vertex>` is ordered by the position of the task. -/
def step (g : Graph nV nE) (s : State nV nE) (t : Fin nV) : Option (Option (State nV nE)) :=
  match zRef g s.alpha t (List.finRange nE) 0 with
  | none => some none
  | some z =>
    match propagate g s.alpha t z with
    | none => none
    | some α =>
      match integrity g t (List.finRange nE) α z with
      | none => some none
      | some α' => (reseed g (addNext g ⟨α', s.unseen, Function.update s.next t false⟩ t)).map some

/-- The loop (normalization.cpp:267-395); running out of fuel is `none`. -/
def loop (g : Graph nV nE) : Nat → State nV nE → Option (Option (Fin nE → Option ℚ))
  | 0, _ => none
  | fuel + 1, s =>
    match nextTask s with
    | none => some (some s.alpha)
    | some t =>
      match step g s t with
      | none => none
      | some none => some none
      | some (some s') => loop g fuel s'

/-- `res->insert` (normalization.cpp:429-430): an existing entry is kept. -/
def insertZ (res : Fin nV → Option Int) (v : Fin nV) (z : Int) : Fin nV → Option Int :=
  match res v with
  | some _ => res
  | none => Function.update res v (some z)

/-- The loop that fills the result (normalization.cpp:403-431): `some none` is a return of `NULL`. -/
def collect (g : Graph nV nE) (α : Fin nE → Option ℚ) : List (Fin nE) → (Fin nV → Option Int) → Option (Option (Fin nV → Option Int))
  | [], res => some (some res)
  | e :: es, res =>
    if inT g e ≤ 0 ∨ outT g e ≤ 0 then none                                        -- lines 411, 412
    else if (α e).getD 0 ≤ 0 then some none
    else if ((α e).getD 0 * inT g e).den ≠ 1 ∨ ((α e).getD 0 * outT g e).den ≠ 1 then none     -- lines 419, 420
    else collect g α es (insertZ (insertZ res (g.src e) ((α e).getD 0 * inT g e).num) (g.tgt e) ((α e).getD 0 * outT g e).num)

/-- The state before the loop for the first channel `e` (normalization.cpp:237-260). -/
def start (g : Graph nV nE) (e : Fin nE) : State nV nE := seed g ⟨fun _ => none, fun _ => true, fun _ => false⟩ e

/-- `rationalNormalize` (normalization.cpp:224-439). `some none` is a return of `NULL`. -/
def rationalNormalize (g : Graph nV nE) : Option (Option (Fin nV → Int)) :=
  match (List.finRange nE).head? with
  | none => some (some fun _ => 1)                                                -- lines 226-233
  | some e =>
    if Int.gcd (inT g e) (outT g e) = 0 then none
    else
      match loop g (nV + 1) (start g e) with
      | none => none
      | some none => some none
      | some (some α) =>
        match collect g α (List.finRange nE) (fun _ => none) with
        | none => none
        | some none => some none
        | some (some res) =>
          if ∃ v, res v = none then none                                          -- line 434
          else some (some fun v => (res v).getD 0)

/-- The tests on one value (normalization.cpp:35-75, 82-122, 129-170); `true` when none of them returns `false`. -/
def checkValue (zi zj ui uj old : Int) : Bool :=
  decide (((old : ℚ) * (zi / ui)).den = 1) && decide (((old : ℚ) * (zj / uj)).den = 1) &&
  decide (((old * zi).tdiv ui : ℚ) = (old : ℚ) * (zi / ui)) && decide (((old * zj).tdiv uj : ℚ) = (old : ℚ) * (zj / uj)) &&
  decide ((old * zi).tdiv ui = (old * zj).tdiv uj) &&
  decide (((old : ℚ) * (zi / ui)).num = ((old : ℚ) * (zj / uj)).num)

/-- The values tested for a channel (normalization.cpp:31-33, 78-80, 126-127). -/
def checkedValues (g : Graph nV nE) (e : Fin nE) : Option (List Int) := do
  let m ← cFloor (g.preload e) (fineGCD g e)
  let i ← (List.range (g.phases (g.src e))).mapM fun k => (g.prod e)[k]?
  let o ← (List.range (g.phases (g.tgt e))).mapM fun k => (g.cons e)[k]?
  some (m :: (i ++ o))

/-- `check_validity` (normalization.cpp:15-176) on a result that is not `NULL`. -/
def checkValidity (g : Graph nV nE) (z : Fin nV → Int) : List (Fin nE) → Option Bool
  | [] => some true
  | e :: es =>
    match checkedValues g e with
    | none => none
    | some vs =>
      if inT g e = 0 ∨ outT g e = 0 then none
      else if vs.all (checkValue (z (g.src e)) (z (g.tgt e)) (inT g e) (outT g e)) then checkValidity g z es
      else some false

/-- `setNormalization` (normalization.cpp:179-222): the assertions, then the coefficients that are stored. -/
def setNormalization (g : Graph nV nE) (z : Fin nV → Int) : Option (Fin nE → ℚ) :=
  if (∀ v, 0 < z v) ∧ ∀ e, 0 < inT g e ∧ 0 < outT g e ∧ ((z (g.src e) : ℚ) / inT g e = z (g.tgt e) / outT g e) then
    some fun e => (z (g.src e) : ℚ) / inT g e
  else none

/-- `normalize` (normalization.cpp:441-471) on a graph that is not normalized yet: `some none` is a return of `false`,
otherwise what `getZi` and `getAlpha` return afterwards. -/
def normalize (g : Graph nV nE) : Option (Option ((Fin nV → Int) × (Fin nE → ℚ))) :=
  match rationalNormalize g with
  | none => none
  | some none => some none
  | some (some z) =>
    match checkValidity g z (List.finRange nE) with
    | none => none
    | some false => some none
    | some true => (setNormalization g z).map fun α => some (z, α)

/-- `normalizeValue` (models/Dataflow.h:961-970): the assertion requires an integer. -/
def normalizeValue (α : ℚ) (old : Int) : Option Int := if (old * α).den = 1 then some (old * α).num else none

/-- `normalizeUnknowValue` (models/Dataflow.h:983-988). -/
def normalizeUnknown (g : Graph nV nE) (α : Fin nE → ℚ) (e : Fin nE) (v : Int) : Option Int := do
  normalizeValue (α e) (← cFloor v (fineGCD g e))

/-- `getNormMop` (models/Dataflow.h:989-992). -/
def normMop (g : Graph nV nE) (α : Fin nE → ℚ) (e : Fin nE) : Option Int := normalizeUnknown g α e (g.preload e)

/-- `getNormIn` (models/Dataflow.h:993-996), for a phase `k ≥ 1`. -/
def normIn (g : Graph nV nE) (α : Fin nE → ℚ) (e : Fin nE) (k : Nat) : Option Int := do
  normalizeValue (α e) (← if k = 0 then none else (g.prod e)[k - 1]?)

/-- `getNormOut` (models/Dataflow.h:997-1000), for a phase `k ≥ 1`. -/
def normOut (g : Graph nV nE) (α : Fin nE → ℚ) (e : Fin nE) (k : Nat) : Option Int := do
  normalizeValue (α e) (← if k = 0 then none else (g.cons e)[k - 1]?)

end Kiter.Norm
