/-
Specification side of the self-timed execution: which graphs are covered, what executions transfer, and executions in
which starts, ends and time advances happen in any order.
-/
import Verif.Model.SymbolicExecution
import Verif.Spec.KPeriodic
import Mathlib.Logic.Relation

set_option autoImplicit false

namespace Kiter.Sim
open Finset

variable {nV nE : Nat}

/-- Tokens transferred by the first `n` executions with periodic rates `l`. -/
def cum (l : List Int) (n : ℕ) : Int := ∑ k ∈ range n, rate l k

/-- Graphs covered by the theorems: one non-negative rate per phase (the setters of `Dataflow` enforce the number),
at least one phase, one non-negative duration per phase, below `LONG_MAX`, non-negative initial tokens, and channels
from a task to itself produce what they consume in each phase. -/
structure OK (g : Graph nV nE) : Prop where
  prodLen : ∀ e, (g.prod e).length = g.phases (g.src e)
  consLen : ∀ e, (g.cons e).length = g.phases (g.tgt e)
  phases : ∀ a, 0 < g.phases a
  durLen : ∀ a, (g.dur a).length = g.phases a
  durNonneg : ∀ a, ∀ d ∈ g.dur a, 0 ≤ d
  durMax : ∀ a, ∀ d ∈ g.dur a, d < longMax
  prodNonneg : ∀ e, ∀ r ∈ g.prod e, 0 ≤ r
  consNonneg : ∀ e, ∀ r ∈ g.cons e, 0 ≤ r
  preload : ∀ e, 0 ≤ g.preload e
  selfEdge : ∀ e, g.src e = g.tgt e → g.prod e = g.cons e

/-- The channels that `isReadyForExec` looks at: the inputs, and the outputs when buffers are bounded. An actor with
none is always ready and the loop that starts executions never ends. -/
def Guarded (g : Graph nV nE) (cap : Option (Fin nE → Int)) : Prop :=
  ∀ a, ∃ e, g.tgt e = a ∨ (cap.isSome ∧ g.src e = a)

/-- The part of a machine state that executions act on. -/
structure Core (nV nE : Nat) where
  acts : Fin nV → Act
  st : St nV nE
  completed : Fin nV → Nat

def Machine.core (m : Machine nV nE) : Core nV nE := ⟨m.acts, m.st, m.completed⟩

/-- The initial situation. -/
def Core.init (g : Graph nV nE) (cap : Option (Fin nE → Int)) : Core nV nE :=
  ⟨fun _ => ⟨0, false⟩, ⟨fun _ => [], fun a => 0 % g.phases a + 1, g.preload,
    fun e => (cap.elim 0 fun k => k e) - g.preload e, 0⟩, fun _ => 0⟩

/-- One start of a ready actor, one end of an execution with no remaining time, one time advance, or a reset of the
elapsed time, in any order. -/
inductive Move (g : Graph nV nE) (cap : Option (Fin nE → Int)) : Core nV nE → Core nV nE → Prop where
  | start (x : Core nV nE) (a : Fin nV) (h : ready g cap x.acts x.st a = true) :
      Move g cap x ⟨(execStart g cap x.acts x.st a).1,
        updateState g (execStart g cap x.acts x.st a).1 (execStart g cap x.acts x.st a).2, x.completed⟩
  | finish (x : Core nV nE) (a : Fin nV) (h : readyToEnd x.st a = true) :
      Move g cap x ⟨(execEnd g cap x.acts x.st a).1,
        updateState g (execEnd g cap x.acts x.st a).1 (execEnd g cap x.acts x.st a).2,
        Function.update x.completed a (x.completed a + 1)⟩
  | advance (x : Core nV nE) : Move g cap x ⟨x.acts, (advanceTime x.st).1, x.completed⟩
  | reset (x : Core nV nE) : Move g cap x ⟨x.acts, { x.st with elapsed := 0 }, x.completed⟩

/-- Reached by some sequence of moves. -/
def Reachable (g : Graph nV nE) (cap : Option (Fin nE → Int)) (x : Core nV nE) : Prop :=
  Relation.ReflTransGen (Move g cap) (Core.init g cap) x

/-- The same execution, carried on forever instead of stopping at a recurrent state. -/
def Cfg.free (c : Cfg nV nE) : Cfg nV nE := ⟨c.g, c.cap, c.minActor, false⟩

end Kiter.Sim
