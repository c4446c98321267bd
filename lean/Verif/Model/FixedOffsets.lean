/-
Model of the offset generators, of their check, and of the functions that size buffers for the generated offsets
(algorithms/buffersizing/periodic_fixed.cpp:20-751).

Simplifications, besides those of PeriodicSizing.lean:
* `std::map<Vertex, std::vector>` is a list of pairs (task id, offsets), in the order of the tasks; offsets of a task that is not
  in the list read as the empty list (the default value made by `operator[]`);
* the solver of the min-max program is a parameter; rows and columns are identified by position, not by name.
-/
import Verif.Model.PeriodicSizing
import Verif.Model.BufferExploration

set_option autoImplicit false

namespace Kiter

/-- `offsets` of the code. -/
abbrev Offsets := List (Int × List ℚ)

/-- `offsets[task]`. -/
def Offsets.get (o : Offsets) (t : Int) : List ℚ := (o.lookup t).getD []

/-- The period of a task, `mut` (periodic_fixed.cpp:44, 268). -/
def taskPeriod (period : ℚ) (t : KTask) : ℚ := period * t.durations.length / t.ni

/-- Inner loop of `checkOffsets` (periodic_fixed.cpp:30-50): only the sign is asserted, overlaps are printed. -/
def checkPhases : List ℚ → Option Unit
  | [] => some ()
  | x :: l => if x < 0 then none else checkPhases l

/-- `checkOffsets` (periodic_fixed.cpp:20-54). `none` is a failed assertion. -/
def checkOffsets (period : ℚ) (o : Offsets) : List KTask → Option Unit
  | [] => if period > 0 then some () else none
  | t :: l =>
    if period > 0 ∧ (o.get t.id).length = t.durations.length then do
      checkPhases (o.get t.id)
      checkOffsets period o l
    else none

/-- Inner loop of `generateStrictlyPeriodicOffsets` (periodic_fixed.cpp:221-231): `n` phases remain, `k` is the next (from 1).
False: a phase is longer than the time between two executions. -/
def strictPhases (t : KTask) (shift : ℚ) : ℕ → ℕ → Option (Bool × List ℚ)
  | 0, _ => some (true, [])
  | n + 1, k => do
    let newtime := ((k : ℚ) - 1) * shift
    let d ← phaseDuration t k
    if d > shift then pure (false, [])
    else
      let r ← strictPhases t shift n (k + 1)
      pure (r.1, newtime :: r.2)

/-- The offsets of a task (periodic_fixed.cpp:214-231). -/
def strictTask (t : KTask) (shift : ℚ) : Option (Bool × List ℚ) :=
  if t.durations.length = 1 then some (true, [0]) else strictPhases t shift t.durations.length 1

/-- `generateStrictlyPeriodicOffsets` for the tasks left (periodic_fixed.cpp:209-234); the duration of the only phase of a task
is not compared with its period. Division by zero is undefined. -/
def strictTasks (period : ℚ) : List KTask → Option (Bool × Offsets)
  | [] => some (true, [])
  | t :: l => do
    if t.ni = 0 then none
    else
      let r ← strictTask t (period / t.ni)
      if r.1 then
        let s ← strictTasks period l
        pure (s.1, (t.id, r.2) :: s.2)
      else pure (false, [(t.id, r.2)])

/-- `generateStrictlyPeriodicOffsets` (periodic_fixed.cpp:198-236). -/
def strictlyPeriodicOffsets (B : BaseGraph) (period : ℚ) : Option (Bool × Offsets) :=
  if period = 0 then some (false, []) else strictTasks period B.tasks

/-- What `if (k > 1) val += getVertexDuration(t,k-1)` adds (periodic_fixed.cpp:251, 282). -/
def prevDuration (t : KTask) (k : ℕ) : Option ℚ := if k > 1 then phaseDuration t ((k : Int) - 1) else some 0

/-- Inner loop of `generateBurstOffsets` (periodic_fixed.cpp:249-254): a phase starts when the one before ends. -/
def burstPhases (t : KTask) : ℕ → ℕ → ℚ → Option (List ℚ)
  | 0, _, _ => some []
  | n + 1, k, val => do
    let d ← prevDuration t k
    let tail ← burstPhases t n (k + 1) (val + d)
    pure ((val + d) :: tail)

/-- `generateBurstOffsets` (periodic_fixed.cpp:239-257). -/
def burstOffsets (B : BaseGraph) : Option Offsets :=
  B.tasks.mapM fun t => do
    let l ← burstPhases t t.durations.length 1 0
    pure (t.id, l)

/-- Sum of the durations of a task (periodic_fixed.cpp:272-274): `n` phases remain. -/
def totalDuration (t : KTask) : ℕ → ℕ → Option ℚ
  | 0, _ => some 0
  | n + 1, k => do
    let d ← phaseDuration t k
    let tail ← totalDuration t n (k + 1)
    pure (d + tail)

/-- Inner loop of `generateAverageOffsets` (periodic_fixed.cpp:281-288). -/
def averagePhases (t : KTask) (muti lti : ℚ) : ℕ → ℕ → ℚ → Option (List ℚ)
  | 0, _, _ => some []
  | n + 1, k, sum => do
    let d ← prevDuration t k
    let newtime := if lti = 0 then 0 else (sum + d) * (muti / lti)
    let tail ← averagePhases t muti lti n (k + 1) (sum + d)
    pure (newtime :: tail)

/-- `generateAverageOffsets` (periodic_fixed.cpp:260-292). -/
def averageOffsets (B : BaseGraph) (period : ℚ) : Option Offsets :=
  if period ≤ 0 then none
  else B.tasks.mapM fun t => do
    if t.ni = 0 then none
    else
      let muti := taskPeriod period t
      if muti ≤ 0 then none
      else
        let lti ← totalDuration t t.durations.length 1
        if t.durations.length = 1 then pure (t.id, [0])
        else
          let l ← averagePhases t muti lti t.durations.length 1 0
          pure (t.id, l)

/-! ### Wiggers -/

/-- `lambda_prod` (periodic_fixed.cpp:338, 348-350). -/
def lambdaProd (c : KChannel) : Int := c.outPhases.foldl (fun g x => (Int.gcd g x : Int)) c.inPhases.sum

/-- The loop of step 2 (periodic_fixed.cpp:376-391): the first phase after which `lambda_p` tokens are produced. `n` phases
remain; the infinite initial value, kept if there is no such phase, is `none`. -/
def wiggersBeta (c : KChannel) (src : KTask) (burst : List ℚ) (alpha : ℚ) (lambda : Int) : ℕ → ℕ → Int → Option ℚ
  | 0, _, _ => none
  | n + 1, ki, cumul => do
    let w ← phaseRate c.inInit c.inPhases ki
    let cumul' := cumul + w
    let level ← cCeil (cumul' - w) lambda
    if cumul' ≥ lambda then do
      let s ← burst[ki - 1]?
      let d ← phaseDuration src ki
      pure ((level : ℚ) + 1 - alpha * (s + d))
    else wiggersBeta c src burst alpha lambda n (ki + 1) cumul'

/-- What the retiming needs to know of an output edge: channel, `lambda_prod`, `beta_prod`, `alpha`. -/
structure WiggersEdge where
  ch : KChannel
  lambda : Int
  beta : ℚ
  alpha : ℚ

/-- `alpha`, `lambda_prod` and `beta_prod` of an edge (periodic_fixed.cpp:336-396). -/
def wiggersEdge (period : ℚ) (e : BChannel) : Option WiggersEdge := do
  let src := e.2.1
  if src.ni = 0 then none
  else
    let mu := period / src.ni * src.durations.length
    if mu = 0 then none
    else
      let alpha : ℚ := e.1.inPhases.sum / mu
      let burst ← burstPhases src src.durations.length 1 0
      let beta ← wiggersBeta e.1 src burst alpha (lambdaProd e.1) e.1.inPhases.length 1 0
      pure ⟨e.1, lambdaProd e.1, beta, alpha⟩

/-- `cumul_production_km1` (periodic_fixed.cpp:436-437): sum of the first `n` rates. -/
def producedBefore (c : KChannel) : ℕ → Option Int
  | 0 => some 0
  | n + 1 => do
    let a ← producedBefore c n
    let w ← phaseRate c.inInit c.inPhases (n + 1)
    pure (a + w)

/-- Loop over the output edges (periodic_fixed.cpp:435-450); `h` is the end of the phase `k`, `s` its burst start, `d` its
duration. -/
def wiggersEnd (k : ℕ) (s d : ℚ) : List WiggersEdge → ℚ → Option ℚ
  | [], h => some h
  | e :: l, h => do
    let cum ← producedBefore e.ch (k - 1)
    let m ← cCeil (cum + 1) e.lambda
    if e.alpha = 0 then none
    else
      let bound := (m - e.beta) / e.alpha
      let h' := min h bound
      wiggersEnd k s d l (if bound - d < s then max h' (s + d) else h')

/-- The loop from the phase before the last to the first (periodic_fixed.cpp:422-458): `k` phases remain, `gnext` is the start
of the phase after them. `none`: `VERBOSE_FAILURE` of line 433. -/
def wiggersPhases (t : KTask) (burst : List ℚ) (edges : List WiggersEdge) : ℕ → ℚ → List ℚ → Option (List ℚ)
  | 0, _, acc => some acc
  | k + 1, gnext, acc => do
    let d ← phaseDuration t (k + 1)
    let s ← burst[k]?
    if gnext - d < s then none
    else
      let h ← wiggersEnd (k + 1) s d edges gnext
      wiggersPhases t burst edges k (h - d) ((h - d) :: acc)

/-- Step 3 for a task, and its offsets (periodic_fixed.cpp:404-474). -/
def wiggersTask (period : ℚ) (edges : List WiggersEdge) (t : KTask) : Option (Int × List ℚ) := do
  if t.ni = 0 then none
  else
    let mu := period / t.ni * t.durations.length
    let d ← phaseDuration t t.durations.length
    let burst ← burstPhases t t.durations.length 1 0
    let l ← wiggersPhases t burst edges (t.durations.length - 1) (mu - d) [mu - d]
    pure (t.id, if t.durations.length = 1 then [0] else l)

/-- `generateWiggersOffsets` (periodic_fixed.cpp:295-476). -/
def wiggersOffsets (B : BaseGraph) (period : ℚ) : Option Offsets := do
  let edges ← B.channels.mapM fun e => (wiggersEdge period e).map fun w => (e.2.1.id, w)
  B.tasks.mapM fun t => wiggersTask period ((edges.filter fun e => e.1 == t.id).map (·.2)) t

/-! ### Min-max -/

/-- Columns of the min-max program of a task: `ct_k`, and `D`, `E` for each edge. -/
inductive MMVar where
  | ct (k : ℕ)
  | delta (edge : ℕ)
  | epsilon (edge : ℕ)
deriving DecidableEq, Repr

/-- A row of the min-max program, as an upper bound (lower bounds are negated). -/
structure MMRow where
  coefs : List (MMVar × ℚ)
  up : ℚ
deriving DecidableEq, Repr

def MMRow.value (r : MMRow) (v : MMVar → ℚ) : ℚ := (r.coefs.map fun c => c.2 * v c.1).sum

/-- Rows G (periodic_fixed.cpp:573-584): `n` rows remain, `k` is the next phase. -/
def minmaxChain (t : KTask) : ℕ → ℕ → Option (List MMRow)
  | 0, _ => some []
  | n + 1, k => do
    let d ← phaseDuration t (k - 1)
    let tail ← minmaxChain t n (k + 1)
    pure (⟨[(.ct k, -1), (.ct (k - 1), 1)], -d⟩ :: tail)

/-- The two rows of a phase for an edge (periodic_fixed.cpp:642-652 and 703-713). -/
def minmaxPair (edge k : ℕ) (ltk mutwa : ℚ) (deltaBound epsilonBound : Int) : List MMRow :=
  [⟨[(.delta edge, -1), (.ct k, 1)], -ltk - mutwa * deltaBound⟩, ⟨[(.epsilon edge, -1), (.ct k, -1)], -mutwa * epsilonBound⟩]

/-- The rows of an output edge (periodic_fixed.cpp:599-661): `n` phases remain. -/
def minmaxOut (edge : ℕ) (c : KChannel) (t : KTask) (mutwa : ℚ) (gcda gcdpa : Int) : ℕ → ℕ → Int → Option (List MMRow)
  | 0, _, _ => some []
  | n + 1, k, pred => do
    let w ← phaseRate c.inInit c.inPhases k
    let d ← phaseDuration t k
    let quota ← cFloor (-pred - 1) gcda
    let quotpa ← cFloor (pred + w - 1) gcda
    let tail ← minmaxOut edge c t mutwa gcda gcdpa n (k + 1) (pred + w)
    pure (minmaxPair edge k d mutwa (if gcda > gcdpa then quota else -pred) (if gcda > gcdpa then quotpa else pred + w) ++ tail)

/-- The rows of an input edge (periodic_fixed.cpp:663-722). -/
def minmaxIn (edge : ℕ) (c : KChannel) (t : KTask) (mutwa : ℚ) (gcda gcdpa : Int) : ℕ → ℕ → Int → Option (List MMRow)
  | 0, _, _ => some []
  | n + 1, k, pred => do
    let w ← phaseRate c.outInit c.outPhases k
    let d ← phaseDuration t k
    let quota ← cFloor (-pred) gcdpa
    let quotpa ← cFloor (pred + w) gcdpa
    let tail ← minmaxIn edge c t mutwa gcda gcdpa n (k + 1) (pred + w)
    pure (minmaxPair edge k d mutwa (if gcda > gcdpa then quotpa else -pred) (if gcda > gcdpa then quota else pred + w) ++ tail)

/-- `lambda_cons` (periodic_fixed.cpp:516, 524-526). -/
def lambdaCons (c : KChannel) : Int := c.inPhases.foldl (fun g x => (Int.gcd g x : Int)) c.outPhases.sum

/-- Rows of the output edges, then of the input edges of a task (periodic_fixed.cpp:599-722); `edges` are numbered. Division by
zero is undefined. -/
def minmaxEdges (t : KTask) (mu : ℚ) (out : Bool) : List (BChannel × ℕ) → Option (List MMRow)
  | [] => some []
  | (e, i) :: l => do
    let tail ← minmaxEdges t mu out l
    let wa := if out then e.1.inPhases.sum else e.1.outPhases.sum
    if (if out then e.2.1.id else e.2.2.id) = t.id then
      if wa = 0 then none
      else do
        let here ← if out then minmaxOut i e.1 t (mu / wa) (lambdaProd e.1) (lambdaCons e.1) t.durations.length 1 0
          else minmaxIn i e.1 t (mu / wa) (lambdaCons e.1) (lambdaProd e.1) t.durations.length 1 0
        pure (here ++ tail)
    else pure tail

/-- The rows of the min-max program of a task with several phases (periodic_fixed.cpp:541-722). -/
def minmaxRows (B : BaseGraph) (period : ℚ) (t : KTask) : Option (List MMRow) := do
  if t.ni = 0 then none
  else
    let mu := taskPeriod period t
    let d ← phaseDuration t t.durations.length
    let chain ← minmaxChain t (t.durations.length - 1) 2
    let out ← minmaxEdges t mu true B.channels.zipIdx
    let inp ← minmaxEdges t mu false B.channels.zipIdx
    pure (chain ++ ⟨[(.ct t.durations.length, 1)], mu - d⟩ :: (out ++ inp))

/-- What the solver may answer: rows hold, `ct_1` is fixed to 0, the other columns are free. -/
structure MMFeasible (rows : List MMRow) (v : MMVar → ℚ) : Prop where
  rows : ∀ r ∈ rows, r.value v ≤ r.up
  first : v (.ct 1) = 0

/-- `generateMinMaxOffsets` and `ctnewMinMax` (periodic_fixed.cpp:478-751) for the tasks left, given the answers of the solver;
after a failure the offsets of the following tasks stay empty (`&&` in line 489). -/
def minmaxTasks (solve : KTask → Option (MMVar → ℚ)) : Bool → List KTask → Bool × Offsets
  | work, [] => (work, [])
  | work, t :: l =>
    if work then
      if t.durations.length ≤ 1 then
        let r := minmaxTasks solve true l
        (r.1, (t.id, [0]) :: r.2)
      else match solve t with
        | some v =>
          let r := minmaxTasks solve true l
          (r.1, (t.id, (List.range t.durations.length).map fun k => v (.ct (k + 1))) :: r.2)
        | none =>
          let r := minmaxTasks solve false l
          (r.1, (t.id, []) :: r.2)
    else
      let r := minmaxTasks solve false l
      (r.1, (t.id, []) :: r.2)

/-! ### The functions that use offsets -/

/-- The `OFFSET` parameter (periodic_fixed.cpp:168-185). -/
inductive OffsetKind where
  | burst | average | wiggers | minmax
deriving DecidableEq, Repr

/-- The offsets of `compute_fixed_offset_buffer_sizing` (periodic_fixed.cpp:158-187): return values are ignored, then the
offsets are checked. -/
def fixedOffsets (solve : KTask → Option (MMVar → ℚ)) (B : BaseGraph) (period : ℚ) (kind : OffsetKind) : Option Offsets := do
  let o ← match kind with
    | .burst => burstOffsets B
    | .average => averageOffsets B period
    | .wiggers => wiggersOffsets B period
    | .minmax => some (minmaxTasks solve true B.tasks).2
  checkOffsets period o B.tasks
  pure o

/-- The offsets of `speriodic_memory_sizing_csdf` (periodic_fixed.cpp:56-70); `some none` is the invalid result of line 68. -/
def strictOffsets (B : BaseGraph) (period : ℚ) : Option (Option Offsets) := do
  if period ≤ 0 then none
  else
    let r ← strictlyPeriodicOffsets B period
    if r.1 then do
      checkOffsets period r.2 B.tasks
      pure (some r.2)
    else pure none

/-- `speriodic_memory_sizing_csdf` (periodic_fixed.cpp:56-71); the solver is a parameter. -/
def strictSizing (solve : List LPRow → Option (LPVar → ℚ)) (B : BaseGraph) (tokenSizes : List Int) (period : ℚ)
    (ilp genOnly : Bool) : Option SizingResult := do
  match ← strictOffsets B period with
  | none => pure ⟨false, 0, []⟩
  | some o =>
    let rows ← fixedRows B o.get period
    fixedResult B tokenSizes ilp genOnly (solve rows)

/-- The result of `compute_fixed_offset_buffer_sizing` (periodic_fixed.cpp:158-195) for a given period; only the total size is
printed. -/
def fixedSizing (solveMM : KTask → Option (MMVar → ℚ)) (solve : List LPRow → Option (LPVar → ℚ)) (B : BaseGraph)
    (tokenSizes : List Int) (period : ℚ) (kind : OffsetKind) (ilp genOnly : Bool) : Option SizingResult := do
  let o ← fixedOffsets solveMM B period kind
  let rows ← fixedRows B o.get period
  fixedResult B tokenSizes ilp genOnly (solve rows)

/-- The sizes `add_vbuffers` uses (periodic_fixed.cpp:116-126): unlike `speriodic_memory_sizing_csdf` it ignores the return value
of the generator, and relies on the check. -/
def vbufferSizes (solve : List LPRow → Option (LPVar → ℚ)) (B : BaseGraph) (period : ℚ) (ilp genOnly : Bool) :
    Option SizingResult := do
  if period ≤ 0 then none
  else
    let r ← strictlyPeriodicOffsets B period
    checkOffsets period r.2 B.tasks
    let rows ← fixedRows B (Offsets.get r.2) period
    fixedResult B [] ilp genOnly (solve rows)

/-- `add_vbuffers` (periodic_fixed.cpp:112-155): one reversed channel per channel, with the free places of the buffer as initial
tokens; `get_edge_size` of an edge without recorded size gives 0. `mul` is the multiplier, converted to an integer. The validity
of the result is not tested. -/
def addVBuffers (solve : List LPRow → Option (LPVar → ℚ)) (B : BaseGraph) (period : ℚ) (mul : Int) (ilp genOnly : Bool) :
    Option BaseGraph := do
  let r ← vbufferSizes solve B period ilp genOnly
  pure ⟨B.tasks, B.channels ++ (List.finRange B.m).map fun i => feedback B i (r.sizes.getD i 0 * mul)⟩

end Kiter
