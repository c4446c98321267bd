/-
Model of the statistics that the replay of packets prints at its end (src/libkiter/algorithms/scheduling/TDMAScheduler.cpp:270-302).

`data p` is `packet_profile[p][DATA]`, the cycle in which packet `p` is delivered. `float` is `ℚ` (no rounding). The lines printed for
the packets themselves are not modelled.
-/
import Verif.Model.TDMA
import Mathlib.Algebra.Order.Ring.Rat

set_option autoImplicit false

namespace Kiter.TDMA

/-- The variables of the loop (TDMAScheduler.cpp:270-275); `prev_start` is never read. -/
structure Stats where
  iter : Int
  start : Int
  stop : Int
  exec : Int
  thro : Int
deriving DecidableEq

/-- One packet (TDMAScheduler.cpp:280-294); the remainder by zero is excluded by `stats`. -/
def Stats.packet (h : Nat) (data : Nat → Int) (s : Stats) (p : Nat) : Stats :=
  let s := if p % h = 0 then { s with iter := s.iter + 1, start := data p } else s
  if (p + 1) % h = 0 then
    { s with stop := data p, exec := s.exec + (data p - s.start), thro := s.thro + (data p - s.stop) }
  else s

/-- The loop over `n` packets (TDMAScheduler.cpp:278-299). -/
def Stats.loop (h : Nat) (data : Nat → Int) (n : Nat) : Stats := (List.range n).foldl (Stats.packet h data) ⟨0, 0, 0, 0, 0⟩

/-- The last line (TDMAScheduler.cpp:301), `thro` and `exec_time`; `h` is the number of packets of an iteration (`HYPER_PERIOD` of the
file). Without packets the code prints `0/0`, with `h = 0` it divides by zero: `none`. -/
def stats (h : Nat) (data : Nat → Int) (n : Nat) : Option (ℚ × ℚ) :=
  if n = 0 ∨ h = 0 then none
  else some ((Stats.loop h data n).thro / (Stats.loop h data n).iter, (Stats.loop h data n).exec / (Stats.loop h data n).iter)

end Kiter.TDMA
