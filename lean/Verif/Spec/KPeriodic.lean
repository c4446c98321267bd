/-
Specification of K-periodic schedules of a dataflow graph, independent of how constraints are generated.

The `k`-th execution (k = 0, 1, 2, ...) of a task with `P` phases runs phase `k mod P`.  A K-periodic schedule
fixes the start of the first `P*K` executions and repeats them every `Ω * P * K / N` time units, where `N` is the
number of executions of the task per graph iteration, so that a graph iteration takes `Ω`.
-/
import Verif.Model.KPeriodic
import Mathlib.Algebra.BigOperators.Group.Finset.Basic

set_option autoImplicit false

namespace Kiter

/-- Tokens transferred by the `k`-th execution (from 0) with periodic rates `l`. -/
def rate (l : List Int) (k : ℕ) : Int := l.getD (k % l.length) 0

/-- Duration of the `k`-th execution (from 0) of a task. -/
def KTask.dur (t : KTask) (k : ℕ) : ℚ := t.durations.getD (k % t.durations.length) 0

/-- Start of the `k`-th execution of `t` in the infinite schedule given by `S` (start of the `p`-th phase in the
`i`-th iteration of the first period) and the graph period `Ω`. -/
def execStart (S : Event → ℚ) (Ω : ℚ) (t : KTask) (K k : ℕ) : ℚ :=
  S ⟨t.id, (k % t.durations.length : ℕ) + 1, ((k / t.durations.length) % K : ℕ) + 1⟩
    + ((k / (K * t.durations.length) : ℕ) : ℚ) * (Ω * (t.durations.length * K) / t.ni)

/-- Completion of the `k`-th execution. -/
def execEnd (S : Event → ℚ) (Ω : ℚ) (t : KTask) (K k : ℕ) : ℚ := execStart S Ω t K k + t.dur k

/-- No two executions of the task overlap, and they run in order. -/
def NoOverlap (S : Event → ℚ) (Ω : ℚ) (t : KTask) (K : ℕ) : Prop :=
  ∀ k, execEnd S Ω t K k ≤ execStart S Ω t K (k + 1)

/-- Tokens are never missing: whatever finite set `C` of consumer executions has started by time `x` (consumption
`v`, starts `t`), some set `P` of producer executions completed by `x` (production `f`, completions `e`) covers
it together with the initial tokens. -/
def NeverShort (f v : ℕ → Int) (preload : Int) (e t : ℕ → ℚ) : Prop :=
  ∀ (x : ℚ) (C : Finset ℕ), (∀ l ∈ C, t l ≤ x) →
    ∃ P : Finset ℕ, (∀ k ∈ P, e k ≤ x) ∧ ∑ l ∈ C, v l ≤ preload + ∑ k ∈ P, f k

/-- The channel never goes below zero tokens under the schedule. -/
def ChannelSafe (S : Event → ℚ) (Ω : ℚ) (c : KChannel) (src : KTask × ℕ) (dst : KTask × ℕ) : Prop :=
  NeverShort (rate c.inPhases) (rate c.outPhases) c.preload (execEnd S Ω src.1 src.2) (execStart S Ω dst.1 dst.2)

/-- The schedule is valid for the graph: non-overlapping ordered executions, no channel ever short of tokens. -/
def ValidSchedule (g : KGraph) (S : Event → ℚ) (Ω : ℚ) : Prop :=
  (∀ tk ∈ g.tasks, NoOverlap S Ω tk.1 tk.2) ∧ ∀ c ∈ g.channels, ChannelSafe S Ω c.1 c.2.1 c.2.2

/-- Meaning of an event constraint for the period `Ω`. -/
def Satisfies (S : Event → ℚ) (Ω : ℚ) (c : EvConstraint) : Prop := S c.src + c.d - Ω * c.w ≤ S c.dst

/-- The constraints `p` lead one after the other from event `u` to event `v`. -/
def IsWalk (cs : List EvConstraint) : Event → List EvConstraint → Event → Prop
  | u, [], v => u = v
  | u, e :: p, v => e ∈ cs ∧ e.src = u ∧ IsWalk cs e.dst p v

/-- A task the theorems cover: at least one phase, no initial phases, non-negative durations, non-reentrant
(reentrancy factor at least 1), positive repetition count and positive periodicity. -/
structure TaskOK (t : KTask) (K : ℕ) : Prop where
  phases : 0 < t.durations.length
  noInit : t.initDurations = []
  durNonneg : ∀ d ∈ t.durations, 0 ≤ d
  reentrancy : 0 < t.reentrancy
  ni : 0 < t.ni
  k : 0 < K

/-- A channel the theorems cover: rates are non-negative, not all zero, one per phase of the tasks, divisible by
the fine gcd; initial tokens are non-negative; production and consumption balance over a graph iteration. -/
structure ChannelOK (c : KChannel) (src dst : KTask) : Prop where
  noInInit : c.inInit = []
  noOutInit : c.outInit = []
  srcPhases : src.durations.length = c.inPhases.length
  dstPhases : dst.durations.length = c.outPhases.length
  inNonneg : ∀ r ∈ c.inPhases, 0 ≤ r
  outNonneg : ∀ r ∈ c.outPhases, 0 ≤ r
  inPos : 0 < c.inPhases.sum
  outPos : 0 < c.outPhases.sum
  gcdPos : 0 < c.fineGCD
  gcdIn : ∀ r ∈ c.inPhases, c.fineGCD ∣ r
  gcdOut : ∀ r ∈ c.outPhases, c.fineGCD ∣ r
  preload : 0 ≤ c.preload
  balance : c.inPhases.sum * src.ni * dst.durations.length = c.outPhases.sum * dst.ni * src.durations.length

/-- A graph the theorems cover. -/
structure GraphOK (g : KGraph) : Prop where
  tasks : ∀ tk ∈ g.tasks, TaskOK tk.1 tk.2
  channels : ∀ c ∈ g.channels, c.2.1 ∈ g.tasks ∧ c.2.2 ∈ g.tasks ∧ ChannelOK c.1 c.2.1.1 c.2.2.1

end Kiter
