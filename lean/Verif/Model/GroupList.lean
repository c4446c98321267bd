/-
Model of /repo/src/libkiter/commons/GroupList.h.

Simplifications.
* The two `std::map`s have the same keys; they are a list of keys and two functions.  The order in
  which a `std::map` is traversed is not modelled: `keys` is in order of insertion.
* A `std::set<R>*` is a number, `bags` is the memory it points to: `none` is memory that is not
  allocated, and reading it gives `none`.  A `std::set` is a list without regard to order.
-/
import Mathlib.Data.List.Basic
import Mathlib.Logic.Function.Basic

set_option autoImplicit false

namespace Kiter.GroupList

variable {T R : Type} [DecidableEq T] [DecidableEq R]

/-- GroupList.h 22-24: the three members (`_bags` only serves the destructor). -/
structure St (T R : Type) where
  keys : List T
  comp : T → T
  val : T → Nat
  bags : Nat → Option (List R)
  next : Nat

/-- GroupList.h 26: an empty list. -/
def empty [Inhabited T] : St T R := ⟨[], fun _ => default, fun _ => 0, fun _ => none, 0⟩

/-- GroupList.h 35-40 and 43-48: make sure that `t` has a group. -/
def ensure (s : St T R) (t : T) (v : R) : St T R :=
  if t ∈ s.keys then s
  else ⟨s.keys ++ [t], Function.update s.comp t t, Function.update s.val t s.next,
    Function.update s.bags s.next (some [v]), s.next + 1⟩

/-- `std::set::insert`. -/
def insertSet (l : List R) (v : R) : List R := if v ∈ l then l else l ++ [v]

/-- GroupList.h 51-72: merge the group of `r` into the one of `l`. -/
def merge (s : St T R) (l r : T) : Option (St T R) :=
  match s.bags (s.val l), s.bags (s.val r) with
  | some bl, some br =>
    let nvec := s.val l
    let oldlc := s.comp l
    let oldrc := s.comp r
    some ⟨s.keys,
      fun t => if t ∈ s.keys ∧ (s.comp t = oldlc ∨ s.comp t = oldrc) then l else s.comp t,
      fun t => if t ∈ s.keys ∧ (s.comp t = oldlc ∨ s.comp t = oldrc) then nvec else s.val t,
      Function.update (Function.update s.bags nvec (some (br.foldl insertSet bl))) (s.val r) none,
      s.next⟩
  | _, _ => none

/-- GroupList.h 78-80: insert in the common group. -/
def insertIn (s : St T R) (l : T) (v : R) : Option (St T R) :=
  match s.bags (s.val l) with
  | some bl => some { s with bags := Function.update s.bags (s.val l) (some (insertSet bl v)) }
  | none => none

/-- GroupList.h 32-81, `add`. -/
def add (s : St T R) (c : T × T × R) : Option (St T R) :=
  let s := ensure (ensure s c.1 c.2.2) c.2.1 c.2.2
  if s.val c.1 ≠ s.val c.2.1 then merge s c.1 c.2.1 else insertIn s c.1 c.2.2

/-- GroupList.h 83-92, `getall`. -/
def getall (s : St T R) : Option (List (List R)) :=
  (s.keys.filter fun t => decide (t = s.comp t)).mapM fun t => s.bags (s.val t)

/-- A history of calls of `add` from the empty list. -/
def run [Inhabited T] (h : List (T × T × R)) : Option (St T R) := h.foldlM add empty

end Kiter.GroupList
