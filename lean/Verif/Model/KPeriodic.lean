/-
Model of the K-periodic event graph generation
(src/libkiter/algorithms/throughput/kperiodic.cpp, lines 344-385 and 515-687).
`TIME_UNIT` is `ℚ`; lookups outside a vector (`std::vector::at` throws, VERBOSE_FAILURE) are `none`.
-/
import Verif.Model.Fraction

set_option autoImplicit false

namespace Kiter

/-- A scheduling event: task id, phase (1-based, ≤ 0 for initial phases), iteration
(models/EventGraph.h:36-82, `SchedulingEvent`). -/
structure Event where
  task : Int
  phase : Int
  iter : Int
deriving DecidableEq, Repr

/-- An event constraint as stored by `addEventConstraint(source,target,w,d,id)`
(models/EventGraph.h, `EventGraph::addEventConstraint`).  Its meaning for a period `ω` is
`S(dst) ≥ S(src) + d - ω * w` (models/EventGraph.h:363-448, `flow = d - omega*w`). -/
structure EvConstraint where
  src : Event
  dst : Event
  w : ℚ
  d : ℚ
  channel : Int
deriving DecidableEq, Repr

/-- A task: id, durations of the periodic and initial phases, reentrancy factor, `Ni`
(models/Dataflow.h, vertex properties read by the generator). -/
structure KTask where
  id : Int
  durations : List ℚ
  initDurations : List ℚ
  reentrancy : Int
  ni : Int
deriving Repr

/-- A channel: id, periodic and initial production (`in`) and consumption (`out`) rates, initial tokens and the
value returned by `getFineGCD`. -/
structure KChannel where
  id : Int
  inPhases : List Int
  outPhases : List Int
  inInit : List Int
  outInit : List Int
  preload : Int
  fineGCD : Int
deriving Repr

/-- `vec.at(k-1)` for a possibly non-positive `k` (out of range access throws). -/
def at1 {α : Type} (l : List α) (k : Int) : Option α :=
  if 1 ≤ k then l[(k - 1).toNat]? else none

/-- `getEdgeInPhase` / `getEdgeOutPhase` (models/Dataflow.h:720-735, 775-787): `k ≤ 0` reads the initial
phases. -/
def phaseRate (init per : List Int) (k : Int) : Option Int :=
  if k ≤ 0 then at1 init (k + init.length) else at1 per k

/-- `getVertexDuration(t,k)` (models/Dataflow.h:882-892): the periodic part is read modulo its size
(`% 0` is undefined). -/
def phaseDuration (t : KTask) (k : Int) : Option ℚ :=
  if k ≤ 0 then at1 t.initDurations (k + t.initDurations.length)
  else if t.durations.length = 0 then none
  else t.durations[((k - 1).toNat) % t.durations.length]?

/-- The (iteration, phase) pairs visited by the nested loops
`for k = 1..K, for p = (k==1 ? 1-init : 1) .. phases` (kperiodic.cpp:556-560 and 570-574). -/
def loopPairs (init phases : Nat) (K : Nat) : List (Int × Int) :=
  (List.range K).flatMap fun (k : Nat) =>
    let i := if k = 0 then init else 0
    (List.range (i + phases)).map fun (p : Nat) => ((k : Int) + 1, (p : Int) + 1 - i)

/-- Rounding to a multiple as done by the default build (kperiodic.cpp:586-587, 593-594) with the
C remainder. -/
def floorMult (l g : Int) : Int := let r := l.tmod g; if r ≥ 0 then l - r else l - r - g
def ceilMult (l g : Int) : Int := let r := l.tmod g; if r ≤ 0 then l - r else l - r + g

/-- `alphamin`/`alphamax` and the test `alphamin <= alphamax`: the value is `some alphamax` when the constraint
is added (kperiodic.cpp:585-608, default build, without the early `continue`). -/
def boundsDefault (lpimin lpimax g : Int) : Option Int :=
  if ceilMult lpimin g ≤ floorMult lpimax g then some (floorMult lpimax g) else none

/-- Same with `STRONGLY_OPTIMIZED` (kperiodic.cpp:590-592). -/
def boundsStrong (lpimin lpimax g : Int) : Option Int :=
  if lpimin > floorMult lpimax g then none
  else if ceilMult lpimin g ≤ floorMult lpimax g then some (floorMult lpimax g) else none

/-- Same with `NOT_OPTIMIZED` (kperiodic.cpp:580-582), through `commons::ceil` and `commons::floor`
(commons.h:463-466).  The outer `Option` is the undefined conversion for `g = 0`. -/
def boundsReference (lpimin lpimax g : Int) : Option (Option Int) := do
  let amin ← cCeil lpimin g
  let amax ← cFloor lpimax g
  pure (if amin ≤ amax then some amax else none)

/-- Everything the inner loops read that does not change (kperiodic.cpp:517-551). -/
structure KCtx where
  src : KTask
  dst : KTask
  ch : KChannel
  mop : Int
  wc : Int
  gcdz : Int
  kiPhases : ℚ          -- `source_phase_count * maxki`
  den : ℚ               -- `Wc * Ni(source)`

/-- Body and loop over the target executions (kperiodic.cpp:570-625). -/
def innerLoop (x : KCtx) (ki pi wak dapkm1 dapk : Int) (d : ℚ) :
    List (Int × Int) → Int → Option (List EvConstraint)
  | [], _ => some []
  | (kj, pj) :: rest, damkp => do
    let vakp ← phaseRate x.ch.outInit x.ch.outPhases pj
    let damkp' := damkp + vakp
    let lpimax := -x.mop - dapkm1 + damkp' - x.ch.fineGCD
    let lpimin := max 0 (wak - vakp) - x.mop - dapk + damkp'
    let tail ← innerLoop x ki pi wak dapkm1 dapk d rest damkp'
    match boundsDefault lpimin lpimax x.gcdz with
    | none => pure tail
    | some alphamax =>
      let w : ℚ := ((alphamax : ℚ) * x.kiPhases) / x.den
      pure ({ src := ⟨x.src.id, pi, ki⟩, dst := ⟨x.dst.id, pj, kj⟩, w := -w, d := d, channel := x.ch.id } :: tail)

/-- Loop over the source executions (kperiodic.cpp:556-628). -/
def outerLoop (x : KCtx) (targets : List (Int × Int)) :
    List (Int × Int) → (dapkm1 dapk : Int) → Option (List EvConstraint)
  | [], _, _ => some []
  | (ki, pi) :: rest, dapkm1, dapk => do
    let d ← phaseDuration x.src pi
    let wak ← phaseRate x.ch.inInit x.ch.inPhases pi
    let dapk' := dapk + wak
    let here ← innerLoop x ki pi wak dapkm1 dapk' d targets 0
    let tail ← outerLoop x targets rest dapk' dapk'
    pure (here ++ tail)

/-- `generateKPeriodicConstraint` (kperiodic.cpp:515-629).  `getEdgeIn`/`getEdgeOut` are the sums of the periodic
rates (C10).  `none`: division/remainder by zero or failed lookup. -/
def channelConstraints (src dst : KTask) (c : KChannel) (ki kj : Nat) : Option (List EvConstraint) := do
  let mop ← cFloor c.preload c.fineGCD
  let wc : Int := c.inPhases.sum * ki
  let rc : Int := c.outPhases.sum * kj
  let g : Int := Int.gcd wc rc
  if g = 0 ∨ wc * src.ni = 0 then none
  else
    let x : KCtx :=
      { src := src, dst := dst, ch := c, mop := mop, wc := wc, gcdz := g,
        kiPhases := (c.inPhases.length : ℚ) * ki, den := (wc : ℚ) * src.ni }
    outerLoop x (loopPairs c.outInit.length c.outPhases.length kj)
      (loopPairs c.inInit.length c.inPhases.length ki) 0 0

/-- The chain part of `generateKperiodicSelfloop` (kperiodic.cpp:641-661): walks through the executions of the
task; `prev`/`lti` are `source_event`/`lti`.  `timefactor` is 0 when the reentrancy factor is ≤ 0. -/
def chainLoop (t : KTask) (timefactor : ℚ) :
    List (Int × Int) → Event → ℚ → Option (List EvConstraint)
  | [], _, _ => some []
  | (i, p) :: rest, prev, lti => do
    let target : Event := ⟨t.id, p, i⟩
    let dur ← phaseDuration t p
    let tail ← chainLoop t timefactor rest target (timefactor * dur)
    pure ({ src := prev, dst := target, w := 0, d := lti, channel := 0 } :: tail)

/-- `generateKperiodicSelfloop` (kperiodic.cpp:632-687). `Ni = 0` divides by zero. The number of phases is the
length of the duration vector (Dataflow.h:894-902). -/
def selfLoopConstraints (t : KTask) (ki : Nat) : Option (List EvConstraint) := do
  let timefactor : ℚ := if t.reentrancy ≤ 0 then 0 else 1
  let d1 ← phaseDuration t 1
  let lti := timefactor * d1
  let pairs := loopPairs t.initDurations.length t.durations.length ki
  let chain ← match pairs with
    | [] => some []
    | (i, p) :: rest => chainLoop t timefactor rest ⟨t.id, p, i⟩ lti
  if t.reentrancy > 0 then
    if t.ni = 0 then none
    else
      let pq : Int := t.durations.length
      let dl ← phaseDuration t pq
      let w : ℚ := -(((pq : ℚ) * ki) / t.ni)
      pure (chain ++ [{ src := ⟨t.id, pq, ki⟩, dst := ⟨t.id, 1, 1⟩, w := -w, d := timefactor * dl, channel := 0 }])
  else pure chain

/-- A dataflow graph as the generator sees it: tasks with their periodicity `K`, and channels with their
source and target task. -/
structure KGraph where
  tasks : List (KTask × Nat)
  channels : List (KChannel × (KTask × Nat) × (KTask × Nat))

/-- The events created for a graph (kperiodic.cpp:351-364): initial phases `0, -1, ...`, then all phases of the `K`
iterations. -/
def graphEvents (g : KGraph) : List Event :=
  g.tasks.flatMap fun tk =>
    ((List.range tk.1.initDurations.length).map fun (i : Nat) => (⟨tk.1.id, -(i : Int), 1⟩ : Event)) ++
    (List.range tk.2).flatMap fun (j : Nat) =>
      (List.range tk.1.durations.length).map fun (i : Nat) => (⟨tk.1.id, (i : Int) + 1, (j : Int) + 1⟩ : Event)

/-- Sequence of generator calls, failing if one fails. -/
def collect {α : Type} (f : α → Option (List EvConstraint)) : List α → Option (List EvConstraint)
  | [] => some []
  | a :: l => do
    let x ← f a
    let y ← collect f l
    pure (x ++ y)

/-- `generateKPeriodicEventGraph` (kperiodic.cpp:344-385): self-loop constraints of all tasks, then the
constraints of all channels. -/
def eventGraph (g : KGraph) : Option (List EvConstraint) := do
  let a ← collect (fun tk => selfLoopConstraints tk.1 tk.2) g.tasks
  let b ← collect (fun c => channelConstraints c.2.1.1 c.2.2.1 c.1 c.2.1.2 c.2.2.2) g.channels
  pure (a ++ b)

end Kiter
