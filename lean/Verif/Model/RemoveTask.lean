/-
Model of `algorithms::transformation::remove_task` (src/libkiter/algorithms/transformation/bug_explorer.cpp:47-71), the
command `remove`.

Simplification: the parameters are given as the lists that `commons::split` and `commons::fromString` produce; a parameter
that is not given is the empty list.
-/
import Verif.Model.Dataflow

set_option autoImplicit false

namespace Kiter.RT

open DF

/-- The loop over the names (bug_explorer.cpp:52-56). -/
def byNames (s : State) : List String → Option State
  | [] => some s
  | n :: ns => (vertexByName s n).bind fun v => (removeVertex s v).bind fun t => byNames t ns

/-- The loop over the ids (bug_explorer.cpp:62-67). -/
def byIds (s : State) : List Int → Option State
  | [] => some s
  | i :: is => (vertexById s i).bind fun v => (removeVertex s v).bind fun t => byIds t is

/-- `remove_task` (bug_explorer.cpp:47-71): first the names, then the ids. -/
def removeTasks (s : State) (names : List String) (ids : List Int) : Option State :=
  (byNames s names).bind fun t => byIds t ids

end Kiter.RT
