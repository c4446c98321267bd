/-
Model of the buffer exploration with K-periodic analysis (src/libkiter/algorithms/dse/dse.cpp:27-460 with the bounded
buffers modelled by feedback channels, and dse/kperiodic.cpp:24-186, the analysis it calls).

`m` is the number of channels of the graph. The extended graph `dataflow_prime` has the `m` channels, in order, then one
feedback channel per channel (dse.cpp:94-109), so its edges are `Fin (m + m)`.
-/
import Verif.Model.KIter
import Verif.Model.Storage
import Verif.Model.ChannelSize

set_option autoImplicit false

namespace Kiter

/-- Number of channels (`getEdgesCount`). -/
abbrev BaseGraph.m (B : BaseGraph) : ℕ := B.channels.length

/-- The feedback channel of channel `i` for the capacity `q` (dse.cpp:97-109, 181-187, 334-340): target to source, rates
exchanged, no initial phases, next free id (models/Dataflow.h addEdge), and the free space as initial tokens. -/
def feedback (B : BaseGraph) (i : Fin B.m) (q : Int) : BChannel :=
  (⟨B.m + 1 + i, B.channels[i].1.outPhases, B.channels[i].1.inPhases, [], [], q - B.channels[i].1.preload,
    B.channels[i].1.fineGCD⟩, B.channels[i].2.2, B.channels[i].2.1)

/-- The extended graph with given quantities (dse.cpp:94-109, 176-188, 332-341). The quantities of the original channels are
not used. -/
def BaseGraph.bounded (B : BaseGraph) (q : Fin (B.m + B.m) → Int) : BaseGraph :=
  ⟨B.tasks, B.channels ++ (List.finRange B.m).map fun i => feedback B i (q (Fin.natAdd B.m i))⟩

/-- Id of an edge of the extended graph. -/
def primeId (B : BaseGraph) (e : Fin (B.m + B.m)) : Int :=
  Fin.addCases (fun i => B.channels[i].1.id) (fun i => (B.m : Int) + 1 + i.val) e

/-- The loop of `compute_Kperiodic_throughput_and_cycles` (dse/kperiodic.cpp:104-166). It differs from the loop of
`compute_Kperiodic_throughput` in what it returns: the throughput and the critical channels. The outer `Option`s are a
failed assertion or a failing solver; running out of fuel is `some none`. -/
def cyclesLoop (solve : List EvConstraint → Option (ℚ × List EvConstraint)) (B : BaseGraph) :
    ℕ → (Int → ℕ) → List EvConstraint → List BChannel → ℚ → Option (Option (ℚ × List BChannel))
  | 0, _, _, _, _ => some none
  | fuel + 1, K, cs, cc, th => do
    match ← updateEventGraph B K cc cs with
    | none => pure (some (th, cc))
    | some (K', cs') =>
      let r ← solve cs'
      let cc' := criticalEdges B r.2
      if sameset cc' cc then pure (some (r.1, cc'))
      else cyclesLoop solve B fuel K' cs' cc' r.1

/-- `compute_Kperiodic_throughput_and_cycles` (dse/kperiodic.cpp:24-186). -/
def cycles (solve : List EvConstraint → Option (ℚ × List EvConstraint)) (B : BaseGraph) (fuel : ℕ) :
    Option (Option (ℚ × List BChannel)) := do
  let cs ← eventGraph (B.withK fun _ => 1)
  let r ← solve cs
  let cc := criticalEdges B r.2
  if cc.isEmpty then pure (some (r.1, cc))
  else cyclesLoop solve B fuel (fun _ => 1) cs cc r.1

/-- The analysis of one storage distribution (dse.cpp:332-352): throughput and critical edges, as edges of the extended
graph. -/
def analyseBounded (solve : List EvConstraint → Option (ℚ × List EvConstraint)) (B : BaseGraph) (fuel : ℕ)
    (q : Fin (B.m + B.m) → Int) : Option (Option (ℚ × List (Fin (B.m + B.m)))) :=
  (cycles solve (B.bounded q) fuel).map fun o => o.map fun r =>
    (r.1, (List.finRange (B.m + B.m)).filter fun e => r.2.any fun c => c.1.id == primeId B e)

/-- `D` explored from `init` is what `throughput_buffering_tradeoff_dse` does on the graph `B`, without the parameters `THR`,
`COARSE`, `B_M_OPT` and `SYMB_EXEC_*`: the edges with an id above the number of channels are the modelled ones
(dse.cpp:383), the steps and the lower bounds are those of `initSearchParameters` on the extended graph (dse.cpp:119-123),
original channels have quantity 0 (dse.cpp:142-149), the size is the sum (dse.cpp:151), the target is the throughput
without bounds (dse.cpp:195-203), and each distribution above the initial one is analysed on the extended graph. -/
structure Explores (solve : List EvConstraint → Option (ℚ × List EvConstraint)) (B : BaseGraph) (fuel : ℕ)
    (D : DSE (B.m + B.m)) (init : SD (B.m + B.m)) : Prop where
  modelled : ∀ e, D.modelled e = decide ((B.m : Int) < primeId B e)
  step : ∀ i, findMinimumStepSz B.channels[i].1.outPhases B.channels[i].1.inPhases = some (D.step (Fin.natAdd B.m i))
  start : ∀ i, findMinimumChannelSz B.channels[i].1.outPhases B.channels[i].1.inPhases B.channels[i].1.preload =
    some (init.quantity (Fin.natAdd B.m i))
  original : ∀ i, init.quantity (Fin.castAdd B.m i) = 0
  size : init.size = (List.finRange (B.m + B.m)).foldl (fun acc e => acc + init.quantity e) 0
  target : ∃ cc, cycles solve B fuel = some (some (D.target, cc))
  analyse : ∀ q, (∀ e, init.quantity e ≤ q e) → analyseBounded solve B fuel q = some (some (D.analyse q))

end Kiter
