/-
Specification of the schedules of the graph that an SDF3 file describes (Model/SDF3.lean: tasks by their position in the
file, channels with the positions of their ends), independent of the graphs of the analyses.
-/
import Verif.Model.SDF3
import Verif.Spec.KPeriodic

set_option autoImplicit false

namespace Kiter

/-- How long the `k`-th execution (from 0) of a task takes: its phases follow each other round and round. -/
def SDF3.Actor.lasts (a : SDF3.Actor) (k : ℕ) : ℚ := ((a.durs.getD (k % a.durs.length) 0 : Int) : ℚ)

/-- `σ i k` is the start of the `k`-th execution of the `i`-th task. The executions of a task do not overlap and no
execution starts before the tokens it needs are there. -/
structure FileSchedule (g : SDF3.Graph) (σ : ℕ → ℕ → ℚ) : Prop where
  nonneg : ∀ i < g.actors.length, ∀ k, 0 ≤ σ i k
  noOverlap : ∀ (i : ℕ) (a : SDF3.Actor), g.actors[i]? = some a → ∀ k, σ i k + a.lasts k ≤ σ i (k + 1)
  tokens : ∀ e ∈ g.chans, ∀ a : SDF3.Actor, g.actors[e.src]? = some a →
    NeverShort (rate e.ins) (rate e.outs) e.preload (fun k => σ e.src k + a.lasts k) (σ e.tgt)

/-- The same for tasks some of which are reentrant (reentrancy factor 0): these may run several executions at once, which
start in order. -/
structure FileReentrant (g : SDF3.Graph) (σ : ℕ → ℕ → ℚ) : Prop where
  nonneg : ∀ i < g.actors.length, ∀ k, 0 ≤ σ i k
  ordered : ∀ i < g.actors.length, ∀ k, σ i k ≤ σ i (k + 1)
  noOverlap : ∀ (i : ℕ) (a : SDF3.Actor), g.actors[i]? = some a → 0 < a.reent → ∀ k, σ i k + a.lasts k ≤ σ i (k + 1)
  tokens : ∀ e ∈ g.chans, ∀ a : SDF3.Actor, g.actors[e.src]? = some a →
    NeverShort (rate e.ins) (rate e.outs) e.preload (fun k => σ e.src k + a.lasts k) (σ e.tgt)

/-- `q i` rounds of the phases of every task `i` leave every channel as it was; together they are one iteration. -/
structure FileIteration (g : SDF3.Graph) (q : ℕ → Int) : Prop where
  pos : ∀ i < g.actors.length, 0 < q i
  balanced : ∀ e ∈ g.chans, e.ins.sum * q e.src = e.outs.sum * q e.tgt

/-- The schedule completes an iteration every `Ω` time units on average. -/
def FileSustains (g : SDF3.Graph) (q : ℕ → Int) (σ : ℕ → ℕ → ℚ) (Ω : ℚ) : Prop :=
  ∀ (i : ℕ) (a : SDF3.Actor), g.actors[i]? = some a → ∃ C, ∀ k : ℕ, σ i k ≤ Ω * k / (q i * a.phases) + C

/-- The times per iteration that some schedule sustains. -/
def FilePeriods (g : SDF3.Graph) (q : ℕ → Int) : Set ℚ := {Ω | ∃ σ, FileSchedule g σ ∧ FileSustains g q σ Ω}

/-- Two tasks share a channel. -/
def FileLinked (g : SDF3.Graph) (i j : ℕ) : Prop := ∃ e ∈ g.chans, e.src = i ∧ e.tgt = j ∨ e.src = j ∧ e.tgt = i

/-- The smallest iteration of a graph: no other is a proper part of it, and it is the only smallest one when the graph is
connected. -/
structure FileSmallest (g : SDF3.Graph) (q : ℕ → Int) : Prop where
  iteration : FileIteration g q
  coprime : ∀ d : Int, (∀ i < g.actors.length, d ∣ q i) → d ∣ 1
  least : (∀ i < g.actors.length, ∀ j < g.actors.length, Relation.ReflTransGen (FileLinked g) i j) →
    ∀ q', FileIteration g q' → ∃ k : Int, 0 < k ∧ ∀ i < g.actors.length, q' i = k * q i

/-- The graphs of the theorems: at least one task, no initial phases, one duration per phase and one rate per phase of the
ends of a channel, nothing negative, channels with different identifiers, and a task with several phases has a channel. -/
structure Analysable (g : SDF3.Graph) : Prop where
  tasks : g.actors ≠ []
  durs : ∀ a ∈ g.actors, 0 < a.phases ∧ a.durs.length = a.phases ∧ a.idurs = [] ∧ ∀ d ∈ a.durs, 0 ≤ d
  ids : (g.chans.map SDF3.Chan.id).Nodup
  src : ∀ e ∈ g.chans, ∃ a, g.actors[e.src]? = some a ∧ e.ins.length = a.phases
  tgt : ∀ e ∈ g.chans, ∃ a, g.actors[e.tgt]? = some a ∧ e.outs.length = a.phases
  noInit : ∀ e ∈ g.chans, e.iins = [] ∧ e.iouts = []
  nonneg : ∀ e ∈ g.chans, 0 ≤ e.preload ∧ ∀ r ∈ e.ins ++ e.outs, 0 ≤ r
  attached : ∀ (i : ℕ) (a : SDF3.Actor), g.actors[i]? = some a → a.phases = 1 ∨ ∃ e ∈ g.chans, e.src = i ∨ e.tgt = i

/-- A graph without deadlock by rates: some iteration exists and every channel moves tokens. -/
def FileConsistent (g : SDF3.Graph) : Prop :=
  (∀ e ∈ g.chans, 0 < e.ins.sum ∧ 0 < e.outs.sum) ∧ ∃ q, FileIteration g q

end Kiter
