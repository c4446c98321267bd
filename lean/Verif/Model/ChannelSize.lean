/-
Model of the step and lower-bound computations that start the exploration
(src/libkiter/algorithms/dse/buffer_sizing.cpp:834-891). Rates of one channel are given as the vectors of production
(`getEdgeInVector`) and consumption (`getEdgeOutVector`); `t` is the preload.
-/
import Mathlib.Data.Int.GCD

set_option autoImplicit false

namespace Kiter

/-- `findMinimumStepSz` (buffer_sizing.cpp:834-848) for one channel; `in[0]` on an empty vector is undefined. -/
def findMinimumStepSz (inV outV : List Int) : Option Int :=
  match inV with
  | [] => none
  | p :: _ => some (outV.foldl (fun g r => (Int.gcd g r : Int)) (inV.foldl (fun g r => (Int.gcd g r : Int)) p))

/-- The bound for one pair of rates (buffer_sizing.cpp:862-880). -/
def channelBound (p c t : Int) : Int :=
  let lower := if Int.gcd p c ≠ 0 then p + c - Int.gcd p c + t.tmod (Int.gcd p c) else p + c - Int.gcd p c
  if lower > t then lower else t

/-- The minimisation loop (buffer_sizing.cpp:861-886) from index `i`; a zero phase count is a division by zero. -/
def minChannelLoop (inV outV : List Int) (t : Int) : ℕ → ℕ → Int → Option Int
  | 0, _, best => some best
  | k + 1, i, best =>
    if inV.length = 0 ∨ outV.length = 0 then none
    else do
      let p ← inV[i % inV.length]?
      let c ← outV[i % outV.length]?
      let b := channelBound p c t
      minChannelLoop inV outV t k (i + 1) (if b < best then b else best)

/-- `findMinimumChannelSz` (buffer_sizing.cpp:852-891) for one channel: the capacity component, started at `INT_MAX`. -/
def findMinimumChannelSz (inV outV : List Int) (t : Int) : Option Int :=
  minChannelLoop inV outV t (Nat.gcd inV.length outV.length) 0 2147483647

end Kiter
