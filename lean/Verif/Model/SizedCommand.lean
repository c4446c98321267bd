/-
Model of the command that analyses a graph with given channel sizes: `compute_asap_throughput_and_cycles_debug`
(src/libkiter/algorithms/throughput/symbolic_execution.cpp:104-172), `SymbExecDebug -p SD=c1,c2,...`.

Simplification: the formatting of the printed throughput is dropped; what is printed is the throughput and the ids of the
critical channels.
-/
import Verif.Model.SymbolicExploration
import Verif.Model.Text

set_option autoImplicit false

namespace Kiter.SizedCmd
open Kiter.Sim Kiter.Text

variable {nV nE : Nat}

/-- What a call of `std::stol` does: throws `std::invalid_argument`, throws `std::out_of_range`, or returns. -/
inductive Stol where
  | invalid
  | range
  | value (v : Int)
deriving DecidableEq, Repr

/-- The text after an optional sign. -/
def unsigned : Str → Str
  | [] => []
  | c :: s => if c = '-' ∨ c = '+' then s else c :: s

/-- `std::stol(s, nullptr)` (symbolic_execution.cpp:115) in base 10: white space and an optional sign, then digits, of
which there must be one; what follows them is ignored. -/
def stol (s : Str) : Stol :=
  let t := s.dropWhile isSpace
  if ((unsigned t).takeWhile isDigit) = [] then .invalid
  else if readSigned t < -(2 ^ 63) ∨ 2 ^ 63 ≤ readSigned t then .range
  else .value (readSigned t)

/-- What the loop over the pieces ends with: the message about an invalid argument, an exception that nobody catches,
or the sizes. -/
inductive Parsed where
  | invalid
  | abort
  | caps (l : List Int)
deriving DecidableEq, Repr

/-- The loop (symbolic_execution.cpp:112-126): only `std::invalid_argument` is caught.  `specifiedCaps` has the keys
1, 2, ... and is the list of its values. -/
def readCaps : List Str → List Int → Parsed
  | [], acc => .caps acc
  | s :: l, acc =>
    match stol s with
    | .invalid => .invalid
    | .range => .abort
    | .value v => readCaps l (acc ++ [v])

/-- `specifiedCaps[dataflow->getEdgeId(e)]` (symbolic_execution.cpp:142-143): `operator[]` gives 0 for an id that is not
a key. -/
def capOf (eid : Fin nE → Int) (l : List Int) (e : Fin nE) : Int :=
  if 1 ≤ eid e then (l[(eid e - 1).toNat]?).getD 0 else 0

/-- What the user sees (symbolic_execution.cpp:118-136, 164-170). -/
inductive Out where
  | missing
  | invalid
  | mismatch
  | printed (thr : ℚ) (critical : List Int)
deriving DecidableEq, Repr

/-- The command (symbolic_execution.cpp:104-172) with the value of the parameter `SD`, if there is one, and whether
`SYMB_EXEC_CORRECTED` is given; `n` and `k` bound the loops of the analysis. -/
def command (g : Graph nV nE) (vid : Fin nV → Int) (eid : Fin nE → Int) (corrected : Bool) (n k : Nat) :
    Option Str → Option Out
  | none => some .missing
  | some s =>
    match readCaps (getlines ',' s []) [] with
    | .invalid => some .invalid
    | .abort => none
    | .caps l =>
      if l.length ≠ nE then some .mismatch
      else (analyseSized g vid corrected n k (capOf eid l)).map fun r => .printed r.1 (r.2.map eid)

end Kiter.SizedCmd
