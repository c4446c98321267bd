/-
Model of the commands that put a graph on a mesh network, one after the other: `createNoC`
(src/libkiter/algorithms/mapping/createNoC.cpp), `randomMapping` or `moduloMapping` (randomMapping.cpp, moduloMapping.cpp)
and `xyRouting` (xyRouting.cpp), for all tasks and channels of a graph.

A graph is the list of the names and ids of its tasks, and the list of its channels as pairs of positions. The parameters of
the mapping commands are given as pairs of a task name and the node read from the text.
-/
import Verif.Model.NoC
import Mathlib.Data.Nat.Sqrt

set_option autoImplicit false

namespace Kiter.NoC

/-- `(int)ceil(sqrt((double) n))` with the correction below 2 (createNoC.cpp:14-16). The floating point square root is taken
to be exact, which holds below 2^52: it is correctly rounded, and `k*k + 1` has a root above `k` that does not round to `k`. -/
def meshSide (n : Nat) : Nat :=
  let r := if Nat.sqrt n * Nat.sqrt n = n then Nat.sqrt n else Nat.sqrt n + 1
  if r ≤ 2 then 2 else r

/-- `createNoC` (createNoC.cpp:11-20). -/
def createNoC (tasks : Nat) : Net := generate (meshSide tasks) (meshSide tasks)

/-- The loop of `randomMapping` (randomMapping.cpp:14-21): a task with a parameter goes where the parameter says; the others
use up the values of `std::rand()`, given as a list. -/
def randomMapping (xs ys : Nat) (params : List (String × Int)) : List (String × Int) → List Nat → Option (List Int)
  | [], _ => some []
  | t :: ts, draws =>
    match params.lookup t.1 with
    | some v => (randomMapping xs ys params ts draws).map fun r => v :: r
    | none =>
      match draws with
      | [] => none
      | d :: ds => (randomMap xs ys d).bind fun v => (randomMapping xs ys params ts ds).map fun r => v :: r

/-- The loop of `moduloMapping` (moduloMapping.cpp:17-24). -/
def moduloMapping (xs ys : Nat) (params : List (String × Int)) (tasks : List (String × Int)) : Option (List Int) :=
  tasks.mapM fun t =>
    match params.lookup t.1 with
    | some v => some v
    | none => moduloMap xs ys t.2

/-- `xyRouting` (xyRouting.cpp:11-73): a route for every channel; `f` bounds the loops of each. -/
def xyRouting (n : Net) (f : Nat) (mapping : List Int) (channels : List (Nat × Nat)) : Option (List (List Int)) :=
  channels.mapM fun c => (mapping[c.1]?).bind fun a => (mapping[c.2]?).bind fun b => xyRoute n f a b

end Kiter.NoC
