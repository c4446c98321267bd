/-
Model of the exploration of buffer sizes by periodic schedules: `compute_csdf_dse_from_function`
(src/libkiter/algorithms/dse/periodic.cpp:88-212), called by `compute_csdf_dse_periodic` and `compute_csdf_dse_speriodic`.

`FREQUENCY`, the throughput of the 1-periodic schedule (line 106), and the sizing function are parameters; the sizing function
gives the total size of a period, 0 when there is no solution (algorithms/buffersizing.h:25). `TIME_UNIT` is `ℚ`. Timings and the
log are not modelled: the log has one line per call of the sizing function, in the order of the calls.
-/
import Mathlib.Algebra.Field.Rat
import Mathlib.Algebra.Order.Ring.Rat

set_option autoImplicit false

namespace Kiter.Freq

/-- `m[k] = v` for a `std::map`, listed in the order of its keys. -/
def mapSet {α β : Type} [LT α] [DecidableLT α] (k : α) (v : β) : List (α × β) → List (α × β)
  | [] => [(k, v)]
  | (k', v') :: l => if k < k' then (k, v) :: (k', v') :: l else if k' < k then (k', v') :: mapSet k v l else (k, v) :: l

/-- `m.count(k)` and `m[k]`: the value of a key, if it is there. -/
def mapGet {α β : Type} [DecidableEq α] (k : α) : List (α × β) → Option β
  | [] => none
  | (k', v) :: l => if k' = k then some v else mapGet k l

/-- `range_to_explore` and `space` (periodic.cpp:111-115). -/
structure State where
  queue : List (ℚ × ℚ)
  space : List (ℚ × Int)
deriving DecidableEq

/-- `if (not space.count(f)) space[f] = sizing_fun(dataflow, 1/f).total_size()` (periodic.cpp:143-147, 159-163). -/
def ensure (size : ℚ → Int) (f : ℚ) (space : List (ℚ × Int)) : List (ℚ × Int) :=
  if (mapGet f space).isNone then mapSet f (size (1 / f)) space else space

/-- One turn of the `while` loop (periodic.cpp:123-190) with the granularity `G`; a state with an empty queue is left as it
is. -/
def step (size : ℚ → Int) (G : ℚ) (s : State) : State :=
  match s.queue with
  | [] => s
  | (l, r) :: q =>
    if r - l < G then ⟨q, s.space⟩                                                    -- lines 138-142
    else
      let space := ensure size r (ensure size l s.space)                              -- lines 143-176
      if mapGet l space ≠ mapGet r space ∨ l = 0 then                                 -- line 183
        ⟨q ++ [(l, l + (r - l) / 2), (l + (r - l) / 2, r)], space⟩                    -- lines 185-186
      else ⟨q, space⟩

/-- The loop after `n` turns. -/
def run (size : ℚ → Int) (G : ℚ) (s : State) : ℕ → State
  | 0 => s
  | n + 1 => step size G (run size G s n)

/-- The variables before the loop (periodic.cpp:111-115). -/
def init (F : ℚ) : State := ⟨[(0, F)], [(0, 0)]⟩

/-- `MAX_GRANULARITY` (periodic.cpp:107). -/
def granularity (F : ℚ) : ℚ := F / 10000

/-- One turn of the second loop (periodic.cpp:195-203): the least period of each size. -/
def paretoStep (pareto : List (Int × ℚ)) (item : ℚ × Int) : List (Int × ℚ) :=
  if item.1 = 0 then pareto
  else
    let P := 1 / item.1
    let pareto := if (mapGet item.2 pareto).isNone then mapSet item.2 P pareto else pareto
    match mapGet item.2 pareto with
    | some p => if P < p then mapSet item.2 P pareto else pareto
    | none => pareto

/-- What is printed, as pairs of a period and a size (periodic.cpp:194-209). -/
def output (space : List (ℚ × Int)) : List (ℚ × Int) :=
  ((space.foldl paretoStep []).filter fun p => decide (0 < p.1)).map fun p => (p.2, p.1)

/-- `compute_csdf_dse_from_function`, if the loop ends within `n` turns. -/
def explore (size : ℚ → Int) (F : ℚ) (n : ℕ) : Option (List (ℚ × Int)) :=
  let s := run size (granularity F) (init F) n
  if s.queue = [] then some (output s.space) else none

end Kiter.Freq
