/-
Model of the linear programs of the commands LP1, LPN and REALLP1
(src/libkiter/algorithms/scheduling/CSDF_KPeriodicScheduling_LP.cpp).

Simplifications: `double` and `TIME_UNIT` are `ℚ`; columns are identified by what their name is made of, with task ids in
place of names; `std::accumulate` starting from the `int` 0 is exact. The solver (GLPK) is not modelled: theorems speak about
any assignment with the required property.
-/
import Verif.Model.KIter
import Verif.Model.StartTimes

set_option autoImplicit false

namespace Kiter

/-- The columns: `OMEGA`, `si_<task>_<a>_`, `s_<task>_<a>_<k>_` (lines 16-26). -/
inductive SVar where
  | omega
  | init (task : Int) (a : ℕ)
  | start (e : Event)
deriving DecidableEq, Repr

/-- A row: `lo ≤ Σ coefficient * column` (`LOW_BOUND`), or `lo = Σ ...` when `fixed` (`FIX_BOUND`). -/
structure SRow where
  coefs : List (SVar × ℚ)
  lo : ℚ
  fixed : Bool
deriving DecidableEq, Repr

/-- Left-hand side of a row. -/
def SRow.value (r : SRow) (v : SVar → ℚ) : ℚ := (r.coefs.map fun c => c.2 * v c.1).sum

/-- Concatenation of the rows given by a loop, or failure. -/
def gather {α β : Type} (f : α → Option (List β)) : List α → Option (List β)
  | [] => some []
  | a :: l => do
    let x ← f a
    let y ← gather f l
    pure (x ++ y)

/-- `std::accumulate(v.begin(), v.begin() + n, 0)` (lines 118-119); reading past the end is undefined. -/
def prefixSum (l : List Int) (n : ℕ) : Option Int := if n ≤ l.length then some ((l.take n).sum) else none

/-- Body of the four loops of `add_precedences_constraints` (lines 91-181). `phase_i`, `period_i`, `phase_j`, `period_j` are
`ai`, `ki`, `aj`, `kj`, from 1. The thresholds are zero in the code. The rows for bufferless edges are disabled by
`if (false)`. -/
def lpPair (src dst : KTask) (c : KChannel) (moa gcda nt : Int) (ai ki aj kj : ℕ) : Option (List SRow) := do
  let ltai ← phaseDuration src ai
  let inak ← phaseRate c.inInit c.inPhases ai
  let outakp ← phaseRate c.outInit c.outPhases aj
  let _ ← phaseRate c.outInit c.outPhases (if aj - 1 > 0 then ((aj - 1 : ℕ) : Int) else dst.durations.length)
  let oNoK ← prefixSum c.outPhases aj
  let iNoK ← prefixSum c.inPhases ai
  let o := oNoK + ((kj : Int) - 1) * c.outPhases.sum
  let i := iNoK + ((ki : Int) - 1) * c.inPhases.sum
  let ipre := i - inak
  let low := max 0 (0 + inak - outakp)
  let alphamin ← cCeil (low + o - i - moa) gcda
  let alphamax ← cFloor (0 + o - ipre - moa - 1) gcda
  if alphamin ≤ alphamax then
    if nt * c.inPhases.sum = 0 then none
    else
      let coef : ℚ := (alphamax : ℚ) / ((nt : ℚ) * c.inPhases.sum)
      let si : SVar := .start ⟨src.id, ai, ki⟩
      let sj : SVar := .start ⟨dst.id, aj, kj⟩
      pure [⟨(.omega, -coef) :: (if sj ≠ si then [(sj, 1), (si, -1)] else []), ltai, false⟩]
  else pure []

/-- The values taken by the four nested loops (lines 86-89). -/
def lpIndices (p ki q kj : ℕ) : List (ℕ × ℕ × ℕ × ℕ) :=
  (List.range' 1 p).flatMap fun a => (List.range' 1 ki).flatMap fun k =>
    (List.range' 1 q).flatMap fun b => (List.range' 1 kj).map fun l => (a, k, b, l)

/-- `add_precedences_constraints` (lines 36-186). Tasks with initial phases fail an assertion. -/
def lpChannel (src dst : KTask) (c : KChannel) (Ki Kj : ℕ) : Option (List SRow) := do
  let ia : Int := Ki * c.inPhases.sum
  let oa : Int := Kj * c.outPhases.sum
  let gcda : Int := Int.gcd ia oa
  let moa ← cFloor c.preload c.fineGCD
  if src.durations.length = 0 ∨ dst.durations.length = 0 then none
  else if src.initDurations.length ≠ 0 ∨ dst.initDurations.length ≠ 0 then none
  else
    let nt := src.ni.tdiv src.durations.length
    gather (fun x => lpPair src dst c moa gcda nt x.1 x.2.1 x.2.2.1 x.2.2.2)
      (lpIndices src.durations.length Ki dst.durations.length Kj)

/-- The columns of a task in the order of its executions with the duration of each (lines 197-228). -/
def lpExecutions (t : KTask) (K : ℕ) : Option (List (SVar × ℚ)) := do
  let a ← (List.range' 1 t.initDurations.length).mapM fun (a : ℕ) => (at1 t.initDurations a).map fun d => (SVar.init t.id a, d)
  let b ← ((List.range' 1 K).flatMap fun (k : ℕ) => (List.range' 1 t.durations.length).map fun (a : ℕ) => (k, a)).mapM
    fun x => (phaseDuration t x.2).map fun d => (SVar.start ⟨t.id, x.2, x.1⟩, d)
  pure (a ++ b)

/-- The rows `Task_order_`: each column against the previous one (lines 197-227). -/
def lpChain : List (SVar × ℚ) → Option (SVar × ℚ) → List SRow
  | [], _ => []
  | x :: l, none => lpChain l (some x)
  | x :: l, some y => ⟨[(y.1, -1), (x.1, 1)], y.2, false⟩ :: lpChain l (some x)

/-- `add_reentrancy_constraints` (lines 188-245). -/
def lpTask (t : KTask) (K : ℕ) : Option (List SRow) := do
  let ex ← lpExecutions t K
  let chain := lpChain ex none
  if t.reentrancy ≠ 0 then
    if t.ni = 0 then none
    else
      let d ← phaseDuration t t.durations.length
      let coef : ℚ := -(((t.durations.length * K : ℕ) : ℚ) / t.ni)
      let source : SVar := .start ⟨t.id, t.durations.length, K⟩
      let target : SVar := .start ⟨t.id, 1, 1⟩
      pure (chain ++ [⟨(if target ≠ source then [(source, -1), (target, 1)] else []) ++ [(.omega, -coef)], d, false⟩])
  else pure chain

/-- The columns (lines 304-323), all with lower bound 0; the objective is to minimise `OMEGA`. -/
def lpColumns (B : BaseGraph) (K : Int → ℕ) : List SVar :=
  .omega :: B.tasks.flatMap fun t =>
    ((List.range' 1 t.initDurations.length).map fun a => SVar.init t.id a) ++
    (List.range' 1 t.durations.length).flatMap fun (a : ℕ) => (List.range' 1 (K t.id)).map fun (k : ℕ) => SVar.start ⟨t.id, a, k⟩

/-- The rows of `CSDF_KPeriodicScheduling_LP` (lines 328-343). -/
def lpRows (B : BaseGraph) (K : Int → ℕ) : Option (List SRow) := do
  let a ← gather (fun t => lpTask t (K t.id)) B.tasks
  let b ← gather (fun c : BChannel => lpChannel c.2.1 c.2.2 c.1 (K c.2.1.id) (K c.2.2.id)) B.channels
  pure (a ++ b)

/-- The rows `Fully_periodic_` of a task (lines 421-441): `s_a - s_(a-1) - OMEGA / Ni = 0`. -/
def strictRows (t : KTask) : Option (List SRow) :=
  gather (fun (a : ℕ) => if t.ni = 0 then none else
    some [⟨[(SVar.start ⟨t.id, (a : Int) - 1, 1⟩, -1), (SVar.start ⟨t.id, a, 1⟩, 1), (SVar.omega, -1 / (t.ni : ℚ))], 0, true⟩])
    (List.range' 2 (t.durations.length - 1))

/-- The rows of `CSDF_RealPeriodicScheduling_LP` (lines 390-460); initial phases fail an assertion. -/
def realRows (B : BaseGraph) : Option (List SRow) :=
  if B.tasks.any fun t => t.initDurations.length != 0 then none
  else do
    let f ← gather strictRows B.tasks
    let r ← lpRows B fun _ => 1
    pure (f ++ r)

/-- `collect_lp_results` (lines 248-278): the period of each task is `OMEGA / (Ni / K)`, the starts are listed phase by phase,
with the periods of the same phase together. -/
def collectLP (B : BaseGraph) (K : Int → ℕ) (v : SVar → ℚ) : Option (List TaskSchedule) :=
  B.tasks.mapM fun t =>
    if t.ni = 0 ∨ K t.id = 0 then none
    else some
      { id := t.id, period := v .omega / ((t.ni : ℚ) / K t.id),
        starts := ((List.range' 1 t.initDurations.length).map fun a => v (.init t.id a)) ++
          (List.range' 1 t.durations.length).flatMap fun (a : ℕ) => (List.range' 1 (K t.id)).map fun (k : ℕ) => v (.start ⟨t.id, a, k⟩) }

/-- A `models::Scheduling`: graph period and task schedules (models/Scheduling.h:56-75). -/
structure LPSchedule where
  period : ℚ
  tasks : List TaskSchedule
deriving DecidableEq, Repr

/-- Result of the programs (lines 293, 358-376, 478-496): without solution, or for an empty graph, the default `Scheduling()`, whose
period is 0, is returned. `solve` stands for the solver. -/
def lpResult (solve : List SVar → List SRow → Option (SVar → ℚ)) (B : BaseGraph) (K : Int → ℕ) (rows : List SRow) : Option LPSchedule :=
  if B.tasks.length = 0 then some ⟨0, []⟩
  else match solve (lpColumns B K) rows with
    | none => some ⟨0, []⟩
    | some v => (collectLP B K v).map fun l => ⟨v .omega, l⟩

/-- `CSDF_KPeriodicScheduling_LP` (lines 281-378), commands LP1 and LPN (512-532). -/
def lpSchedule (solve : List SVar → List SRow → Option (SVar → ℚ)) (B : BaseGraph) (K : Int → ℕ) : Option LPSchedule := do
  let rows ← lpRows B K
  lpResult solve B K rows

/-- `CSDF_RealPeriodicScheduling_LP` (lines 381-498), command REALLP1 (501-510). -/
def realSchedule (solve : List SVar → List SRow → Option (SVar → ℚ)) (B : BaseGraph) : Option LPSchedule := do
  let rows ← realRows B
  lpResult solve B (fun _ => 1) rows

end Kiter
