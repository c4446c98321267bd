/-
Model of the buffer sizing of the command BackPressureSizing: `compute_backpressure_memory_sizing`
(src/libkiter/algorithms/buffersizing/backpressure.cpp).

Simplifications: times are rationals; the files printed in debug mode (lines 380-595) are left out; the linear program is
given by its rows, its solution is a parameter. Infinite values, kept when a loop finds no phase, are `none`. Phases are numbered
from 0. The consistency of the graph is a hypothesis of the theorems.
-/
import Verif.Model.KIter
import Mathlib.Data.Rat.Floor

set_option autoImplicit false

namespace Kiter.BackPressure

/-- `commons::ceil(v, c)` and `commons::floor(v, c)` (commons/commons.h:459-466): the next multiple of `c`. -/
def ceilTo (v : ℚ) (c : Int) : Int := ⌈v / c⌉ * c
def floorTo (v : Int) (c : Int) : Int := ⌊(v : ℚ) / c⌋ * c

/-- `mu`: duration of a period of a task (lines 33-37). -/
def mu (period : ℚ) (t : KTask) : ℚ := period / t.ni * t.durations.length

/-- `s`: starts of the phases in a burst (lines 41-50). -/
def burst (t : KTask) (k : ℕ) : ℚ := (t.durations.take k).sum

/-- The duration of phase `k`. -/
def dur (t : KTask) (k : ℕ) : ℚ := t.durations.getD k 0

/-- `alpha`: tokens per unit of time (line 66). -/
def alpha (period : ℚ) (c : BChannel) : ℚ := c.1.inPhases.sum / mu period c.2.1

/-- `lambda_prod`, `lambda_cons` (lines 59-78). -/
def lambdaProd (c : BChannel) : Int := c.1.outPhases.foldl (fun a x => (Int.gcd a x : Int)) c.1.inPhases.sum
def lambdaCons (c : BChannel) : Int := c.1.inPhases.foldl (fun a x => (Int.gcd a x : Int)) c.1.outPhases.sum

/-- Tokens of the first `k` phases. -/
def cumul (l : List Int) (k : ℕ) : Int := (l.take k).sum

/-- `beta_prod` (lines 86-114): the loop stops at the first phase by which `lambda_prod` tokens are produced. -/
def betaProd (period : ℚ) (c : BChannel) : Option ℚ :=
  ((List.range c.1.inPhases.length).find? fun k => decide (lambdaProd c ≤ cumul c.1.inPhases (k + 1))).map fun k =>
    (ceilTo (cumul c.1.inPhases k) (lambdaProd c) + 1 : Int) - alpha period c * (burst c.2.1 k + dur c.2.1 k)

/-- The bound on the end of phase `k` given by an output channel (lines 131, 151-158). -/
def endBound (period : ℚ) (k : ℕ) (c : BChannel) : Option ℚ :=
  (betaProd period c).map fun b => ((ceilTo (cumul c.1.inPhases k + 1) (lambdaProd c) : ℚ) - b) / alpha period c

/-- The minimum of a time and of the bounds of the output channels (lines 129-132, 150-161). -/
def retimed (B : BaseGraph) (period : ℚ) (t : KTask) (k : ℕ) (x : ℚ) : Option ℚ :=
  (B.channels.filter fun c => decide (c.2.1.id = t.id)).foldlM (fun x c => (endBound period k c).map fun b => min x b) x

/-- `h` of the phase `j` places before the last one (lines 124-167): phases are put one before the other from the end of the period. -/
def endFrom (B : BaseGraph) (period : ℚ) (t : KTask) : ℕ → Option ℚ
  | 0 => retimed B period t (t.durations.length - 1) (mu period t)
  | j + 1 => (endFrom B period t j).bind fun h =>
      retimed B period t (t.durations.length - 1 - (j + 1)) (h - dur t (t.durations.length - 1 - j))

/-- `h`: ends of the phases; that of a single phase starts at 0 (lines 179-186). -/
def phaseEnd (B : BaseGraph) (period : ℚ) (t : KTask) (k : ℕ) : Option ℚ :=
  if t.durations.length = 1 then some (0 + dur t 0) else endFrom B period t (t.durations.length - 1 - k)

/-- `g`: starts of the phases. -/
def phaseStart (B : BaseGraph) (period : ℚ) (t : KTask) (k : ℕ) : Option ℚ :=
  if t.durations.length = 1 then some 0 else (phaseEnd B period t k).map fun h => h - dur t k

/-- The greatest, or the least, of the values of a loop over phases: phases by which less than `lambda` tokens have been counted are
skipped (lines 223-230, 343-351, 356-363). -/
def best (f : ℚ → ℚ → ℚ) (l : List Int) (lambda : Int) (value : ℕ → Option ℚ) : Option ℚ :=
  ((List.range l.length).foldlM (fun (acc : Option ℚ) k =>
    if lambda ≤ cumul l (k + 1) then (value k).map fun x => some ((acc.map fun a => f a x).getD x) else some acc) none).join

/-- `beta_cons` (lines 207-234). -/
def betaCons (B : BaseGraph) (period : ℚ) (c : BChannel) : Option ℚ :=
  best max c.1.outPhases (lambdaCons c) fun k =>
    (phaseStart B period c.2.2 k).map fun g => (cumul c.1.outPhases (k + 1) : ℚ) - alpha period c * g

/-- `beta_ij` (lines 237-249): a duration, less a number of tokens. -/
def betaIJ (B : BaseGraph) (period : ℚ) (c : BChannel) : Option ℚ :=
  (betaCons B period c).bind fun bc => (betaProd period c).map fun bp =>
    (bc - bp) / alpha period c - floorTo c.1.preload c.1.fineGCD

/-- A row of the linear program (lines 267-285): a row of a channel from a task to itself has no variable. -/
def Row (B : BaseGraph) (period : ℚ) (s : Int → ℚ) (c : BChannel) : Prop :=
  ∃ b, betaIJ B period c = some b ∧ (if c.2.1.id = c.2.2.id then 0 else s c.2.1.id - s c.2.2.id) ≤ -b

/-- `s` is a solution of the linear program (lines 255-285), minimal or not. -/
def Solution (B : BaseGraph) (period : ℚ) (s : Int → ℚ) : Prop :=
  (∀ t ∈ B.tasks, 0 ≤ s t.id) ∧ ∀ c ∈ B.channels, Row B period s c

/-- `beta_f_prod` (lines 338-351). -/
def feedbackProd (B : BaseGraph) (period : ℚ) (s : Int → ℚ) (c : BChannel) : Option ℚ :=
  best min c.1.outPhases (lambdaCons c) fun k => (phaseEnd B period c.2.2 k).map fun h =>
    ((cumul c.1.outPhases (k + 1) + 1 - c.1.outPhases.getD k 0 : Int) : ℚ) - alpha period c * (s c.2.2.id + h)

/-- `beta_f_cons` (lines 353-363). -/
def feedbackCons (B : BaseGraph) (period : ℚ) (s : Int → ℚ) (c : BChannel) : Option ℚ :=
  best max c.1.inPhases (lambdaProd c) fun k => (phaseStart B period c.2.1 k).map fun g =>
    (cumul c.1.inPhases (k + 1) : ℚ) - alpha period c * (s c.2.1.id + g)

/-- `bsize`: the size of a channel (lines 367-368). -/
def size (B : BaseGraph) (period : ℚ) (s : Int → ℚ) (c : BChannel) : Option Int :=
  (feedbackProd B period s c).bind fun bp => (feedbackCons B period s c).map fun bc => ceilTo (-(bp - bc)) c.1.fineGCD

/-- The size printed: that of all the channels and 2 for each task (lines 369-378). -/
def total (B : BaseGraph) (period : ℚ) (s : Int → ℚ) : Option Int :=
  (B.channels.mapM (size B period s)).map fun l => l.sum + 2 * B.tasks.length

end Kiter.BackPressure
