/-
Model of the buffer exploration with the self-timed analysis (src/libkiter/algorithms/dse/dse.cpp:27-460 with the parameter
SYMB_EXEC_ORIGINAL or SYMB_EXEC_CORRECTED): the loop is the one of Model/Storage.lean, on the channels of the graph itself.
-/
import Verif.Model.AsapThroughput
import Verif.Model.StorageDeps
import Verif.Model.Storage
import Verif.Model.ChannelSize

set_option autoImplicit false

namespace Kiter.Sim

variable {nV nE : Nat}

/-- `compute_asap_throughput_and_cycles` (throughput/symbolic_execution.cpp:175-203) with the channel sizes `w`: throughput
and critical channels, if the main loop returns within `n` loop tests and the replay of a period within `k`. -/
def analyseSized (g : Graph nV nE) (id : Fin nV → Int) (corrected : Bool) (n k : Nat) (w : Fin nE → Int) :
    Option (ℚ × List (Fin nE)) := do
  let g ← g.repeated
  let s ← start g (some w) true
  let thr ← (result (run s.1 s.2 n)).join
  let R ← criticalEdges id corrected s.1 s.2 n k
  some (thr, R)

/-- `D` explored from `init` is what `throughput_buffering_tradeoff_dse` does on the graph `g` with one of the parameters
`SYMB_EXEC_*`, without `THR`, `COARSE` and `B_M_OPT`: every channel can grow (dse.cpp:405-424), the steps and the lower
bounds are those of `initSearchParameters` (lines 125-127), the size is the sum (line 151), the target is the throughput
without bounds (lines 199, 203), and every analysis returns (line 348). -/
structure Explores (g : Graph nV nE) (id : Fin nV → Int) (corrected : Bool) (D : DSE nE) (init : SD nE) : Prop where
  modelled : ∀ e, D.modelled e = true
  step : ∀ e, findMinimumStepSz (g.prod e) (g.cons e) = some (D.step e)
  start : ∀ e, findMinimumChannelSz (g.prod e) (g.cons e) (g.preload e) = some (init.quantity e)
  size : init.size = (List.finRange nE).foldl (fun acc e => acc + init.quantity e) 0
  target : ∃ n, asapThroughput g id n = some D.target
  analyse : ∀ q, (∀ e, init.quantity e ≤ q e) → ∃ n k, analyseSized g id corrected n k q = some (D.analyse q)

end Kiter.Sim
