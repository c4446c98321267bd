/-
Specification of schedules of a graph simulated by the self-timed execution, independent of the simulator: when each
execution starts, what makes a schedule valid, and at which steps of a run executions start and end.
-/
import Verif.Spec.SymbolicExecution

set_option autoImplicit false

namespace Kiter.Sim
open Finset

variable {nV nE : Nat}

/-- Duration of the `k`-th execution (from 0) of an actor. -/
def Graph.execDur (g : Graph nV nE) (a : Fin nV) (k : ℕ) : ℚ := (g.dur a).getD (k % (g.dur a).length) 0

/-- A schedule (start of the `k`-th execution of each actor) is valid: starts are non-negative, executions of an actor
run in order without overlap, no channel is ever short of tokens (consumed at the start, produced at the end) and, with
bounded buffers, none is ever short of room (taken at the start of the producer, given back at the end of the
consumer). -/
structure Valid (g : Graph nV nE) (cap : Option (Fin nE → Int)) (σ : Fin nV → ℕ → ℚ) : Prop where
  nonneg : ∀ a k, 0 ≤ σ a k
  noOverlap : ∀ a k, σ a k + g.execDur a k ≤ σ a (k + 1)
  tokens : ∀ e, NeverShort (rate (g.prod e)) (rate (g.cons e)) (g.preload e)
    (fun k => σ (g.src e) k + g.execDur (g.src e) k) (σ (g.tgt e))
  room : ∀ w, cap = some w → ∀ e, NeverShort (rate (g.cons e)) (rate (g.prod e)) (w e - g.preload e)
    (fun k => σ (g.tgt e) k + g.execDur (g.tgt e) k) (σ (g.src e))

/-- A valid schedule is causal when the executions that provide what an execution takes come before it in some
well-founded order. Without it, executions of zero duration could provide each other's tokens at the same instant. -/
structure Causal (g : Graph nV nE) (cap : Option (Fin nE → Int)) (σ : Fin nV → ℕ → ℚ) : Prop where
  order : ∃ r : Fin nV × ℕ → Fin nV × ℕ → Prop, WellFounded r ∧ (∀ a k, r (a, k) (a, k + 1)) ∧
    (∀ e k, ∃ P : Finset ℕ, (∀ j ∈ P, r (g.src e, j) (g.tgt e, k) ∧
        σ (g.src e) j + g.execDur (g.src e) j ≤ σ (g.tgt e) k) ∧
      ∑ l ∈ range (k + 1), rate (g.cons e) l ≤ g.preload e + ∑ j ∈ P, rate (g.prod e) j) ∧
    ∀ w, cap = some w → ∀ e k, ∃ P : Finset ℕ, (∀ j ∈ P, r (g.tgt e, j) (g.src e, k) ∧
        σ (g.tgt e) j + g.execDur (g.tgt e) j ≤ σ (g.src e) k) ∧
      ∑ l ∈ range (k + 1), rate (g.prod e) l ≤ w e - g.preload e + ∑ j ∈ P, rate (g.cons e) j

/-- The `n`-th step of the run starts the `k`-th execution of `a`, at time `t`. -/
def StartsAt (c : Cfg nV nE) (m : Machine nV nE) (n : ℕ) (a : Fin nV) (k : ℕ) (t : ℚ) : Prop :=
  ((run c m n).acts a).numExecs = k ∧ ((run c m (n + 1)).acts a).numExecs = k + 1 ∧ (run c m n).clock = t

/-- The `n`-th step of the run ends the `k`-th execution of `a`, at time `t`. -/
def EndsAt (c : Cfg nV nE) (m : Machine nV nE) (n : ℕ) (a : Fin nV) (k : ℕ) (t : ℚ) : Prop :=
  (run c m n).completed a = k ∧ (run c m (n + 1)).completed a = k + 1 ∧ (run c m n).clock = t

/-- The schedule completes a graph iteration every `Ω` time units on average: actor `a`, which executes `ni` times per
iteration, starts its `k`-th execution at the latest at `Ω * k / ni`, up to a constant delay. -/
def Sustained (g : Graph nV nE) (σ : Fin nV → ℕ → ℚ) (Ω : ℚ) : Prop :=
  ∀ a, ∃ C, ∀ k : ℕ, σ a k ≤ Ω * k / g.ni a + C

end Kiter.Sim
