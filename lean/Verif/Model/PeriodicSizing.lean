/-
Model of the periodic buffer sizing: the linear programs of `periodic_memory_sizing_csdf`
(src/libkiter/algorithms/buffersizing/periodic.cpp:59-395) and `compute_periodic_fixed_memory`
(buffersizing/periodic_fixed.cpp:753-1065), and what is computed from a solution of them.

Simplifications: `double` and `TIME_UNIT` are `ℚ`; columns are identified by what their name is made of (task, edge and
phase indexes), so that two columns are never confused because of equal names; columns that are fixed or have no
coefficient (`loopbackfix`, `Mop_<edge>`) are left out. The solver itself (GLPK or another program called through a file)
is not modelled: theorems speak about any assignment that satisfies the rows and bounds.
-/
import Verif.Model.KIter
import Mathlib.Algebra.Order.Round
import Mathlib.Data.Rat.Floor

set_option autoImplicit false

namespace Kiter

/-- The columns: `s_<phase>_<task>` (or `s_<task>`, as phase 0), `Mop_feedback_<edge>`,
`Mop_feedback_<edge>_<ai>_<aj>` (periodic.cpp:84-89, 131, 190; periodic_fixed.cpp:780-783, 828, 889). -/
inductive LPVar where
  | start (task : Int) (phase : ℕ)
  | mo (edge : ℕ)
  | loc (edge ai aj : ℕ)
deriving DecidableEq, Repr

/-- A row with a lower bound: `lo ≤ Σ coefficient * column` (`addRow` with `LOW_BOUND`, `addCoef`). -/
structure LPRow where
  coefs : List (LPVar × ℚ)
  lo : ℚ
deriving DecidableEq, Repr

/-- The value of the left-hand side. -/
def LPRow.value (r : LPRow) (v : LPVar → ℚ) : ℚ := (r.coefs.map fun c => c.2 * v c.1).sum

/-- How starting times are expressed: the column of a phase (from 1) of a task, and the constant added to it
(`offsets[task][phase - 1]`; out of range is undefined). -/
structure Starts where
  var : Int → ℕ → LPVar
  off : Int → ℕ → Option ℚ

/-- `periodic.cpp`: one column per phase (84-89), no offsets. -/
def freeStarts : Starts := ⟨fun t a => .start t a, fun _ _ => some 0⟩

/-- `periodic_fixed.cpp`: one column per task (780-783), offsets given per phase (838, 852). -/
def fixedStarts (offsets : Int → List ℚ) : Starts := ⟨fun t _ => .start t 0, fun t a => if a = 0 then none else (offsets t)[a - 1]?⟩

/-- The two coefficients of starting times of a row, left out for equal columns (periodic.cpp:172-175, 195-198;
periodic_fixed.cpp:871-874, 894-897). -/
def startCoefs (plus minus : LPVar) : List (LPVar × ℚ) := if plus = minus then [] else [(plus, 1), (minus, -1)]

/-- What does not change in the loops over the phases (periodic.cpp:97-115): edge number, edge, period, `mop`, `gcdz`. -/
structure SizingCtx where
  st : Starts
  edge : ℕ
  ch : BChannel
  period : ℚ
  mop : Int
  gcdz : Int

/-- `mu_i`, `mu_j` (periodic.cpp:107-108). -/
def SizingCtx.mu (x : SizingCtx) (t : KTask) : ℚ := x.period * t.durations.length / t.ni

/-- Body of the two loops (periodic.cpp:159-220, periodic_fixed.cpp:858-920). `ai`, `aj` are counted from 1. -/
def pairRows (x : SizingCtx) (ai aj : ℕ) (offi offj lti ltj : ℚ) (wai cwai cwaim1 raj craj crajm1 : Int) : Option (List LPRow) := do
  let src := x.ch.2.1
  let dst := x.ch.2.2
  let zi := x.ch.1.inPhases.sum
  let zj := x.ch.1.outPhases.sum
  let ha := max 0 (wai - raj)
  let alphamin ← cCeil (ha + craj - cwai - x.mop) x.gcdz
  let alphamax ← cFloor (craj - cwaim1 - x.mop - 1) x.gcdz
  let si := x.st.var src.id ai
  let sj := x.st.var dst.id aj
  if src.ni = 0 ∨ dst.ni = 0 ∨ zi = 0 ∨ zj = 0 then none
  else
    let normal : List LPRow :=
      if alphamin ≤ alphamax then [⟨startCoefs sj si, offi - offj + lti + alphamax * (x.mu src / zi)⟩] else []
    let back : List LPRow :=
      if min wai raj > 0 then
        [⟨(.loc x.edge ai aj, -(x.mu dst / zj) * x.gcdz) :: startCoefs si sj, ltj - offi + offj⟩,
         ⟨[(.loc x.edge ai aj, (x.gcdz : ℚ)), (.mo x.edge, 1)], ((-crajm1 + cwai - x.gcdz : Int) : ℚ)⟩]
      else []
    pure (normal ++ back)

/-- The loop over the phases of the target: `n` phases remain, `aj` is the next (periodic.cpp:151-223). -/
def targetRows (x : SizingCtx) (ai : ℕ) (offi lti : ℚ) (wai cwai cwaim1 : Int) : ℕ → ℕ → Int → Int → Option (List LPRow)
  | 0, _, _, _ => some []
  | n + 1, aj, craj, crajm1 => do
    let ltj ← phaseDuration x.ch.2.2 aj
    let offj ← x.st.off x.ch.2.2.id aj
    let raj ← phaseRate x.ch.1.outInit x.ch.1.outPhases aj
    let craj' := craj + raj
    let here ← pairRows x ai aj offi offj lti ltj wai cwai cwaim1 raj craj' crajm1
    let tail ← targetRows x ai offi lti wai cwai cwaim1 n (aj + 1) craj' craj'
    pure (here ++ tail)

/-- The loop over the phases of the source (periodic.cpp:138-227). -/
def sourceRows (x : SizingCtx) : ℕ → ℕ → Int → Int → Option (List LPRow)
  | 0, _, _, _ => some []
  | n + 1, ai, cwai, cwaim1 => do
    let lti ← phaseDuration x.ch.2.1 ai
    let offi ← x.st.off x.ch.2.1.id ai
    let wai ← phaseRate x.ch.1.inInit x.ch.1.inPhases ai
    let cwai' := cwai + wai
    let here ← targetRows x ai offi lti wai cwai' cwaim1 x.ch.2.2.durations.length 1 0 0
    let tail ← sourceRows x n (ai + 1) cwai' cwai'
    pure (here ++ tail)

/-- The rows of one edge (periodic.cpp:96-229, periodic_fixed.cpp:793-929). -/
def edgeRows (st : Starts) (period : ℚ) (edge : ℕ) (ch : BChannel) : Option (List LPRow) := do
  let mop ← cFloor ch.1.preload ch.1.fineGCD
  let gcdz : Int := Int.gcd ch.1.inPhases.sum ch.1.outPhases.sum
  sourceRows ⟨st, edge, ch, period, mop, gcdz⟩ ch.2.1.durations.length 1 0 0

/-- The rows `k --> k + 1` of a task (periodic.cpp:247-255): `n` rows remain, `k` is the next phase. -/
def chainRows (t : KTask) (timefactor : ℚ) : ℕ → ℕ → Option (List LPRow)
  | 0, _ => some []
  | n + 1, k => do
    let d ← phaseDuration t k
    let tail ← chainRows t timefactor n (k + 1)
    pure (⟨[(.start t.id (k + 1), 1), (.start t.id k, -1)], d * timefactor⟩ :: tail)

/-- The rows of a task (periodic.cpp:237-272). -/
def taskRows (period : ℚ) (t : KTask) : Option (List LPRow) := do
  let timefactor : ℚ := if t.reentrancy ≤ 0 then 0 else 1
  let maxk := t.durations.length
  let chain ← chainRows t timefactor (maxk - 1) 1
  let d ← phaseDuration t maxk
  if t.ni = 0 then none
  else
    let coef := d * timefactor - period * maxk / t.ni
    pure (chain ++ [⟨if maxk > 1 then [(.start t.id 1, 1), (.start t.id maxk, -1)] else [], coef⟩])

/-- Concatenation of the rows of a list of edges, numbered from `i`, or failure. -/
def allEdgeRows (st : Starts) (period : ℚ) : ℕ → List BChannel → Option (List LPRow)
  | _, [] => some []
  | i, c :: l => do
    let here ← edgeRows st period i c
    let tail ← allEdgeRows st period (i + 1) l
    pure (here ++ tail)

/-- Concatenation of the rows of a list of tasks. -/
def allTaskRows (period : ℚ) : List KTask → Option (List LPRow)
  | [] => some []
  | t :: l => do
    let here ← taskRows period t
    let tail ← allTaskRows period l
    pure (here ++ tail)

/-- The rows built by `periodic_memory_sizing_csdf` (periodic.cpp:59-272); `PERIOD > 0` is asserted. -/
def periodicRows (B : BaseGraph) (period : ℚ) : Option (List LPRow) := do
  if period ≤ 0 then none
  let a ← allEdgeRows freeStarts period 0 B.channels
  let b ← allTaskRows period B.tasks
  pure (a ++ b)

/-- The rows built by `compute_periodic_fixed_memory` (periodic_fixed.cpp:753-929): none for the tasks. -/
def fixedRows (B : BaseGraph) (offsets : Int → List ℚ) (period : ℚ) : Option (List LPRow) := do
  if period ≤ 0 then none
  allEdgeRows (fixedStarts offsets) period 0 B.channels

/-- What a solver may answer: all rows hold, starting times and `Mop_feedback` columns are non-negative (the `LOW_BOUND` of
`addColumn`), `Mop_feedback...` columns are integers when an integer solution is asked for (`CONTINUE_OR_INTEGER`). -/
structure LPFeasible (rows : List LPRow) (ilp : Bool) (v : LPVar → ℚ) : Prop where
  rows : ∀ r ∈ rows, r.lo ≤ r.value v
  start : ∀ t a, 0 ≤ v (.start t a)
  mo : ∀ i, 0 ≤ v (.mo i)
  moInt : ilp = true → ∀ i, ∃ z : Int, v (.mo i) = z
  locInt : ilp = true → ∀ i a b, ∃ z : Int, v (.loc i a b) = z

/-- `feedbackmopmax` before the loops, and `from_lp` (periodic.cpp:330-331, 364-366): rounded up and down, or to the nearest
integer for an integer solution. -/
def readMo (ilp : Bool) (x : ℚ) : Int := if ilp then round x else ⌈x⌉
def readLoc (ilp : Bool) (x : ℚ) : Int := if ilp then round x else ⌊x⌋

/-- Inner loop of the computation of a buffer size (periodic.cpp:344-376). `continue` (line 361) skips the update of
`crajm1`. `haveValue` is true for the columns that were created, those of phases with positive rates. -/
def gatherTarget (ilp : Bool) (v : LPVar → ℚ) (edge : ℕ) (ch : BChannel) (gcdz : Int) (ai : ℕ) (wai cwai : Int) :
    ℕ → ℕ → Int → Int → Int → Option Int
  | 0, _, _, _, best => some best
  | n + 1, aj, craj, crajm1, best => do
    let raj ← phaseRate ch.1.outInit ch.1.outPhases aj
    let craj' := craj + raj
    if min wai raj > 0 then
      let bound := -(readLoc ilp (v (.loc edge ai aj))) * gcdz - crajm1 + cwai - gcdz
      gatherTarget ilp v edge ch gcdz ai wai cwai n (aj + 1) craj' craj' (if bound > best then bound else best)
    else gatherTarget ilp v edge ch gcdz ai wai cwai n (aj + 1) craj' crajm1 best

/-- Outer loop (periodic.cpp:333-377). -/
def gatherSource (ilp : Bool) (v : LPVar → ℚ) (edge : ℕ) (ch : BChannel) (gcdz : Int) : ℕ → ℕ → Int → Int → Option Int
  | 0, _, _, best => some best
  | n + 1, ai, cwai, best => do
    let wai ← phaseRate ch.1.inInit ch.1.inPhases ai
    let cwai' := cwai + wai
    let best' ← gatherTarget ilp v edge ch gcdz ai wai cwai' ch.2.2.durations.length 1 0 0 best
    gatherSource ilp v edge ch gcdz n (ai + 1) cwai' best'

/-- The size of the buffer of an edge (periodic.cpp:303-379, periodic_fixed.cpp:969-1047). -/
def bufferSize (ilp : Bool) (v : LPVar → ℚ) (edge : ℕ) (ch : BChannel) : Option Int := do
  let gcdz : Int := Int.gcd ch.1.inPhases.sum ch.1.outPhases.sum
  let f ← gatherSource ilp v edge ch gcdz ch.2.1.durations.length 1 0 (readMo ilp (v (.mo edge)))
  pure (f + ch.1.preload)

/-- Sizes of all buffers, in the order of the edges. -/
def bufferSizes (ilp : Bool) (v : LPVar → ℚ) : ℕ → List BChannel → Option (List Int)
  | _, [] => some []
  | i, c :: l => do
    let s ← bufferSize ilp v i c
    let tail ← bufferSizes ilp v (i + 1) l
    pure (s :: tail)

/-- `total_buffer_size` (periodic.cpp:383, periodic_fixed.cpp:1049): sizes weighted by the token sizes. -/
def totalSize (sizes tokenSizes : List Int) : Int := (List.zipWith (· * ·) sizes tokenSizes).sum

/-- `BufferSizingResult` (algorithms/buffersizing.h:18-32); sizes in the order of the edges. -/
structure SizingResult where
  valid : Bool
  total : Int
  sizes : List Int
deriving DecidableEq, Repr

/-- The end of `periodic_memory_sizing_csdf` (periodic.cpp:285-392), given the answer of the solver. `return 0` and
`return total_buffer_size` both convert an integer to a result with the constructor that makes it valid
(buffersizing.h:24); so does `BufferSizingResult(false)` of line 287. The sizes of the edges are not recorded. -/
def periodicResult (B : BaseGraph) (tokenSizes : List Int) (ilp genOnly : Bool) (sol : Option (LPVar → ℚ)) : Option SizingResult :=
  if genOnly then some ⟨true, 0, []⟩
  else match sol with
    | none => some ⟨true, 0, []⟩
    | some v => do
      let sizes ← bufferSizes ilp v 0 B.channels
      pure ⟨true, totalSize sizes tokenSizes, []⟩

/-- The end of `compute_periodic_fixed_memory` (periodic_fixed.cpp:945-1062). `return 0` of line 947 is a valid result. -/
def fixedResult (B : BaseGraph) (tokenSizes : List Int) (ilp genOnly : Bool) (sol : Option (LPVar → ℚ)) : Option SizingResult :=
  if genOnly then some ⟨true, 0, []⟩
  else match sol with
    | none => some ⟨false, 0, []⟩
    | some v => do
      let sizes ← bufferSizes ilp v 0 B.channels
      pure ⟨true, totalSize sizes tokenSizes, sizes⟩

end Kiter
