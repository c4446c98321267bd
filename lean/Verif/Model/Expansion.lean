/-
Model of the command `PartialExpansion` (src/libkiter/algorithms/experiments/expansion_experiment.cpp:18-43) and of
`ExpansionGraph::generate` (src/libkiter/algorithms/experiments/ExpansionGraph.cpp:30-313). Integers do not overflow and
the quotients computed in `double` are exact. `algorithm1` and `algorithm2` (ExpansionGraph.cpp:76-175) only write to the
log and are left out, as are the lines printed for each pair of executions and the DOT text.
-/
import Verif.Model.Normalization
import Mathlib.Algebra.Order.Floor.Ring
import Mathlib.Data.Rat.Floor

set_option autoImplicit false

namespace Kiter.Expand

variable {nV nE : Nat}

/-- A constraint of the event graph (models/EventGraph.h:335): execution `i` of task `src` (both of an event), execution
`j` of task `tgt`, weight and duration. -/
structure Con (nV : Nat) where
  src : Fin nV
  i : Nat
  tgt : Fin nV
  j : Nat
  w : ℚ
  d : ℚ
deriving DecidableEq

/-- `generatePeriodicityVector` (expansion_experiment.cpp:20-32): 1 unless a parameter has the name of the task. -/
def periodicity (name : Fin nV → String) (params : String → Option Int) (t : Fin nV) : Int :=
  (params (name t)).getD 1

/-- `generate_E1_Edges` (ExpansionGraph.cpp:32-52), executions `1 … K`. -/
def e1 (t : Fin nV) (K : Nat) : List (Con nV) := (List.range (K - 1)).map fun a => ⟨t, a + 1, t, a + 2, 0, 0⟩

/-- `generate_E2_Edge` (ExpansionGraph.cpp:54-73). -/
def e2 (t : Fin nV) (K : Nat) (Z : Int) : List (Con nV) := [⟨t, K, t, 1, (Z * K : Int), 0⟩]

/-- `gcdk` (ExpansionGraph.cpp:199). -/
def gcdk (Zi Zj : Int) (Ki Kj : Nat) : Int := Int.gcd (Ki * Zi) (Kj * Zj)

/-- `f0` and `g0` (ExpansionGraph.cpp:209-216). -/
def f0 (Zi Zj : Int) (Ki Kj : Nat) (mop : Int) : ℚ := ((max (Zi - Zj) 0 - mop : Int) : ℚ) / gcdk Zi Zj Ki Kj
def g0 (Zi Zj : Int) (Ki Kj : Nat) (mop : Int) : ℚ := ((Zi - Int.gcd Zi Zj - mop : Int) : ℚ) / gcdk Zi Zj Ki Kj

/-- `shift` (ExpansionGraph.cpp:232-234). -/
def shift (Zi Zj : Int) (Ki Kj : Nat) (ai aj : Nat) : ℚ := ((Zi * ai - Zj * aj : Int) : ℚ) / gcdk Zi Zj Ki Kj

/-- The body of the two loops of `generate_E3_Edges` (ExpansionGraph.cpp:232-263): the constraint of a pair. -/
def pair (s t : Fin nV) (Zi Zj : Int) (Ki Kj : Nat) (mop : Int) (d : ℚ) (ai aj : Nat) : Option (Con nV) :=
  if ⌈f0 Zi Zj Ki Kj mop + shift Zi Zj Ki Kj ai aj⌉ ≤ ⌊g0 Zi Zj Ki Kj mop + shift Zi Zj Ki Kj ai aj⌋ then
    some ⟨s, ai, t, aj, (-⌊g0 Zi Zj Ki Kj mop + shift Zi Zj Ki Kj ai aj⌋ * gcdk Zi Zj Ki Kj : Int), d⟩
  else none

/-- `generate_E3_Edges` (ExpansionGraph.cpp:178-272): `none` is a division by 0 or the failed assertion of line 220. -/
def e3 (s t : Fin nV) (Zi Zj : Int) (Ki Kj : Nat) (mop : Int) (d : ℚ) : Option (List (Con nV)) :=
  if gcdk Zi Zj Ki Kj = 0 then none
  else if f0 Zi Zj Ki Kj mop ≤ g0 Zi Zj Ki Kj mop then
    some ((List.range Ki).flatMap fun a => (List.range Kj).filterMap fun b =>
      pair s t Zi Zj Ki Kj mop d (a + 1) (b + 1))
  else none

/-- `ExpansionGraph::generate` (ExpansionGraph.cpp:275-311); `none` is a failed assertion or the return of `false` by
`normalize`. `dur t` is `getVertexDuration`. Simplification: a number of executions below 1 is not covered (`none`): the
program then reads a vertex that does not exist. -/
def generate (g : Norm.Graph nV nE) (dur : Fin nV → ℚ) (K : Fin nV → Int) : Option (List (Con nV)) :=
  match Norm.normalize g with
  | none => none
  | some none => none
  | some (some (z, α)) =>
    if (∀ t, g.phases t = 1) ∧ ∀ t, 1 ≤ K t then do
      let cs ← (List.finRange nE).mapM fun e => do
        let m ← Norm.normMop g α e
        let mop ← cFloor m 1
        e3 (g.src e) (g.tgt e) (z (g.src e)) (z (g.tgt e)) (K (g.src e)).toNat (K (g.tgt e)).toNat mop (dur (g.src e))
      some ((List.finRange nV).flatMap (fun t => e1 t (K t).toNat ++ e2 t (K t).toNat (z t)) ++ cs.flatten)
    else none

/-- `generate_expansion` (expansion_experiment.cpp:34-43): the constraints of the graph that is printed. -/
def command (g : Norm.Graph nV nE) (dur : Fin nV → ℚ) (name : Fin nV → String) (params : String → Option Int) :
    Option (List (Con nV)) := generate g dur (periodicity name params)

end Kiter.Expand
