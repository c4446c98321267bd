/-
Specification of comparisons between graphs: what it means that a graph asks for less than another one, and the edits
that leave its schedules as they are.
-/
import Verif.Spec.Throughput

set_option autoImplicit false

namespace Kiter

/-- `B'` asks for less than `B`: every task of `B'` (with id `i`) is the task `φ i` of `B`, with the same number of
executions per iteration and phases that last at most as long; every channel of `B'` is a channel of `B` between the
corresponding tasks, with the same rates and at least as many initial tokens. `B` can have more tasks and channels. -/
structure Eased (φ : Int → Int) (B B' : BaseGraph) : Prop where
  tasks : ∀ t' ∈ B'.tasks, ∃ t ∈ B.tasks, t.id = φ t'.id ∧ t.ni = t'.ni ∧ List.Forall₂ (· ≤ ·) t'.durations t.durations
  channels : ∀ c' ∈ B'.channels, ∃ c ∈ B.channels, c.2.1.id = φ c'.2.1.id ∧ c.2.2.id = φ c'.2.2.id ∧
    List.Forall₂ (· ≤ ·) c'.2.1.durations c.2.1.durations ∧
    c'.1.inPhases = c.1.inPhases ∧ c'.1.outPhases = c.1.outPhases ∧ c.1.preload ≤ c'.1.preload

/-- All durations multiplied by `q`. -/
def BaseGraph.slowed (B : BaseGraph) (q : ℚ) : BaseGraph :=
  let f := fun t : KTask => { t with durations := t.durations.map (q * ·) }
  ⟨B.tasks.map f, B.channels.map fun c => (c.1, f c.2.1, f c.2.2)⟩

/-- Channels edited one by one, tasks unchanged. -/
def BaseGraph.mapChannels (B : BaseGraph) (f : KChannel → KChannel) : BaseGraph :=
  ⟨B.tasks, B.channels.map fun c => (f c.1, c.2)⟩

/-- The channel counts its tokens in a unit `m c.id` times smaller: all rates and the initial tokens are multiplied. -/
def KChannel.finer (m : Int → Int) (c : KChannel) : KChannel :=
  { c with inPhases := c.inPhases.map (m c.id * ·), outPhases := c.outPhases.map (m c.id * ·)
           preload := m c.id * c.preload, fineGCD := m c.id * c.fineGCD }

/-- The channel without the initial tokens that do not make up a multiple of the granularity of its rates. -/
def KChannel.rounded (c : KChannel) : KChannel := { c with preload := c.fineGCD * (c.preload / c.fineGCD) }

/-- The solver answers the cycle ratio problem of every event graph that the analysis of `B` can meet. -/
def ExactFor (B : BaseGraph) (solve : List EvConstraint → Option (ℚ × List EvConstraint)) : Prop :=
  ∀ K cs th p, ((∀ i, 0 < K i) ∧ ∀ t ∈ B.tasks, K t.id ∣ reps t) →
    (∃ cs0, eventGraph (B.withK K) = some cs0 ∧ ∀ c, c ∈ cs ↔ c ∈ cs0) → solve cs = some (th, p) → CycleAnswer cs th p

end Kiter
