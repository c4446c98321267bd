/-
Specification of K-periodic schedules of graphs with initial phases: a task first runs each of its initial phases once and
then its periodic phases for ever. The periodic part is scheduled as in Spec/KPeriodic.lean; an initial phase has one
start.
-/
import Verif.Spec.KPeriodic

set_option autoImplicit false

namespace Kiter

/-- Tokens transferred by the `k`-th execution (from 0): first the initial rates, then the periodic ones. -/
def rateI (init per : List Int) (k : ℕ) : Int :=
  if k < init.length then init.getD k 0 else rate per (k - init.length)

/-- Duration of the `k`-th execution (from 0) of a task. -/
def KTask.durI (t : KTask) (k : ℕ) : ℚ :=
  if k < t.initDurations.length then t.initDurations.getD k 0 else t.dur (k - t.initDurations.length)

/-- Start of the `k`-th execution. The initial phases are numbered up to 0 and belong to the first iteration. -/
def execStartI (S : Event → ℚ) (Ω : ℚ) (t : KTask) (K k : ℕ) : ℚ :=
  if k < t.initDurations.length then S ⟨t.id, (k : Int) + 1 - t.initDurations.length, 1⟩
  else execStart S Ω t K (k - t.initDurations.length)

/-- Completion of the `k`-th execution. -/
def execEndI (S : Event → ℚ) (Ω : ℚ) (t : KTask) (K k : ℕ) : ℚ := execStartI S Ω t K k + t.durI k

/-- No two executions of the task overlap, and they run in order. -/
def NoOverlapI (S : Event → ℚ) (Ω : ℚ) (t : KTask) (K : ℕ) : Prop :=
  ∀ k, execEndI S Ω t K k ≤ execStartI S Ω t K (k + 1)

/-- The channel never goes below zero tokens under the schedule. -/
def ChannelSafeI (S : Event → ℚ) (Ω : ℚ) (c : KChannel) (src : KTask × ℕ) (dst : KTask × ℕ) : Prop :=
  NeverShort (rateI c.inInit c.inPhases) (rateI c.outInit c.outPhases) c.preload (execEndI S Ω src.1 src.2)
    (execStartI S Ω dst.1 dst.2)

/-- The schedule is valid for the graph. -/
def ValidScheduleI (g : KGraph) (S : Event → ℚ) (Ω : ℚ) : Prop :=
  (∀ tk ∈ g.tasks, NoOverlapI S Ω tk.1 tk.2) ∧ ∀ c ∈ g.channels, ChannelSafeI S Ω c.1 c.2.1 c.2.2

/-- A task as in `TaskOK`, possibly with initial phases. -/
structure TaskOKI (t : KTask) (K : ℕ) : Prop where
  phases : 0 < t.durations.length
  durNonneg : ∀ d ∈ t.durations, 0 ≤ d
  initNonneg : ∀ d ∈ t.initDurations, 0 ≤ d
  reentrancy : 0 < t.reentrancy
  ni : 0 < t.ni
  k : 0 < K

/-- A channel as in `ChannelOK`, possibly with initial rates, one per initial phase of the tasks. That the granularity
`fineGCD` divides the initial rates is not required here. -/
structure ChannelOKI (c : KChannel) (src dst : KTask) : Prop where
  srcPhases : src.durations.length = c.inPhases.length
  dstPhases : dst.durations.length = c.outPhases.length
  srcInit : src.initDurations.length = c.inInit.length
  dstInit : dst.initDurations.length = c.outInit.length
  inNonneg : ∀ r ∈ c.inPhases, 0 ≤ r
  outNonneg : ∀ r ∈ c.outPhases, 0 ≤ r
  inInitNonneg : ∀ r ∈ c.inInit, 0 ≤ r
  outInitNonneg : ∀ r ∈ c.outInit, 0 ≤ r
  inPos : 0 < c.inPhases.sum
  outPos : 0 < c.outPhases.sum
  gcdPos : 0 < c.fineGCD
  gcdIn : ∀ r ∈ c.inPhases, c.fineGCD ∣ r
  gcdOut : ∀ r ∈ c.outPhases, c.fineGCD ∣ r
  preload : 0 ≤ c.preload
  balance : c.inPhases.sum * src.ni * dst.durations.length = c.outPhases.sum * dst.ni * src.durations.length

/-- A graph of such tasks and channels. -/
structure GraphOKI (g : KGraph) : Prop where
  tasks : ∀ tk ∈ g.tasks, TaskOKI tk.1 tk.2
  channels : ∀ c ∈ g.channels, c.2.1 ∈ g.tasks ∧ c.2.2 ∈ g.tasks ∧ ChannelOKI c.1 c.2.1.1 c.2.2.1

end Kiter
