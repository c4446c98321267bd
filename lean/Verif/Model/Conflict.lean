/-
Model of the search for conflicting transfers in src/libkiter/algorithms/software_noc.cpp (`gcdExtended` 197-213,
`getPrevAndNextVertex` 1854-1882, `checkForConflicts` 1885-1994, `isConflictPresent` 2072-2091), used by the command
`SoftwareControlledNoCBufferless` to decide whether a schedule is free of conflicts. `LARGE_INT` is `Int` without
overflow, `TIME_UNIT` is `ℚ`. The other steps of the command are not modelled here.
-/
import Mathlib.Data.Rat.Defs
import Mathlib.Algebra.Order.Ring.Rat
import Mathlib.Algebra.Order.Field.Basic

set_option autoImplicit false

namespace Kiter.SNoC

/-- `gcdExtended` (software_noc.cpp:197-213) on arguments that are not negative (they are results of `myabs`): the value
and the two coefficients. Running out of fuel is `none`. -/
def gcdExtended : ℕ → ℕ → ℕ → Option (ℕ × Int × Int)
  | 0, _, _ => none
  | fuel + 1, x, y =>
    if x = 0 then some (y, 0, 1)
    else (gcdExtended fuel (y % x) x).map fun r => (r.1, r.2.2 - ((y / x : ℕ) : Int) * r.2.1, r.2.1)

/-- The conversion of a time to an integer, towards 0. -/
def trunc (q : ℚ) : Int := q.num.tdiv q.den

/-- `isConflictPresent` (software_noc.cpp:2072-2091): `none` is the remainder by 0. -/
def isConflictPresent (HP : Int) (si : ℚ) (ni : Int) (sj : ℚ) (nj : Int) : Option Bool :=
  (gcdExtended (ni.natAbs + 1) ni.natAbs nj.natAbs).bind fun g =>
    if si = sj then some true
    else if HP * g.1 = 0 then none
    else if ((trunc (si - sj) * ni * nj).natAbs : Int).tmod (HP * g.1) ≠ 0 then some false
    else some true

/-- What is read of the graph and of the schedule: the starts of a task in one period, its repetition number, and its
only predecessor. `prev t` is `none` when the task has not exactly one incoming and one outgoing edge: the program exits
on several edges, and reads an old or uninitialised variable without one. -/
structure Net where
  starts : ℕ → List ℚ
  ni : ℕ → Int
  prev : ℕ → Option ℕ

/-- A loop that returns from the function when its body finds something: `some none` goes on. -/
def search {α β : Type} (f : α → Option (Option β)) : List α → Option (Option β)
  | [] => some none
  | x :: l =>
    match f x with
    | none => none
    | some (some b) => some (some b)
    | some none => search f l

/-- The body of the loop over two starts (software_noc.cpp:1927-1964). -/
def startsCheck (N : Net) (HP : ℚ) (ti tj : ℕ) (si sj : ℚ) : Option (Option (List ℕ)) :=
  (isConflictPresent (trunc HP) si (N.ni ti) sj (N.ni tj)).bind fun c =>
    if c then
      (N.prev ti).bind fun p => (N.prev tj).bind fun q => if q = p then some none else some (some [ti, tj])
    else some none

/-- The two tasks of positions `i` and `j` of a link (software_noc.cpp:1903-1966). -/
def pairCheck (N : Net) (HP : ℚ) (l : List ℕ) (i j : ℕ) : Option (Option (List ℕ)) :=
  if i ≤ j then some none
  else
    match l[i]?, l[j]? with
    | some ti, some tj => search (fun si => search (startsCheck N HP ti tj si) (N.starts tj)) (N.starts ti)
    | _, _ => none

/-- `checkForConflicts` (software_noc.cpp:1885-1994); the map of links is the list of its values in the order of the keys.
Left out: the repetition vectors are computed before, and the numbers printed at the end. -/
def checkForConflicts (N : Net) (HP : ℚ) (links : List (List ℕ)) : Option (List ℕ) :=
  (search (fun l => if l.length ≤ 1 then some none else
    search (fun i => search (fun j => pairCheck N HP l i j) (List.range l.length)) (List.range l.length)) links).map
    fun r => r.getD []

end Kiter.SNoC
