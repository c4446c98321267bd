/-
What saving a graph in an SDF3 file and loading the file should give.
-/
import Verif.Model.SDF3
import Verif.Props.Text

set_option autoImplicit false

namespace Kiter.SDF3
open Kiter.Text

/-- The graphs that can be saved. Names are distinct and not empty, the ends of a channel are tasks, every task has at
least one phase, durations are not negative and the lengths of all vectors agree with the number of phases, and numbers
fit in a `long`. `Dataflow` enforces the names, the identifiers and the lengths. -/
structure Valid (g : Graph) : Prop where
  names : (g.actors.map Actor.name).Nodup
  named : ∀ a ∈ g.actors, a.name ≠ []
  chanNames : (g.chans.map Chan.name).Nodup
  chanNamed : ∀ e ∈ g.chans, e.name ≠ []
  ids : (g.chans.map Chan.id).Nodup
  durs : ∀ a ∈ g.actors, 0 < a.phases ∧ a.durs.length = a.phases ∧ a.idurs.length = a.iphases ∧
    (∀ d ∈ a.durs, 0 ≤ d) ∧ ∀ d ∈ a.idurs, 0 ≤ d
  src : ∀ e ∈ g.chans, ∃ a, g.actors[e.src]? = some a ∧ e.ins.length = a.phases ∧ e.iins.length = a.iphases
  tgt : ∀ e ∈ g.chans, ∃ a, g.actors[e.tgt]? = some a ∧ e.outs.length = a.phases ∧ e.iouts.length = a.iphases
  long : ∀ e ∈ g.chans, IsLong e.preload ∧ IsLong e.size ∧ ∀ r ∈ e.ins ++ e.iins ++ e.outs ++ e.iouts, IsLong r

instance (v : Int) : Decidable (IsLong v) := inferInstanceAs (Decidable (_ ∧ _))

/-- The texts that may be empty are not, or the library reads an empty attribute as the empty text. -/
def Readable (lib : Lib) (g : Graph) : Prop :=
  lib.empty = some [] ∨ (g.app ≠ [] ∧ g.gname ≠ [] ∧ g.gtype ≠ [] ∧ ∀ a ∈ g.actors, a.typ ≠ [])

/-- A channel from a task to itself with one initial token, where every phase produces and consumes one token. -/
def UnitLoop (e : Chan) : Prop := e.src = e.tgt ∧ e.preload = 1 ∧ ∀ r ∈ e.ins ++ e.iins ++ e.outs ++ e.iouts, r = 1

instance (e : Chan) : Decidable (UnitLoop e) := inferInstanceAs (Decidable (_ ∧ _ ∧ _))

/-- A saved channel: it gets a new identifier, and ports named after the old one. -/
def savedChan (i : Nat) (e : Chan) : Chan := { e with id := i + 1, inPort := inName e.id, outPort := outName e.id }

/-- Everything but the identifiers and the names of the ports of the channels. -/
def plain (g : Graph) : Graph := { g with chans := g.chans.map fun e => { e with id := 0, inPort := [], outPort := [] } }

/-- What a file keeps of a graph: a unit loop becomes reentrancy 1 of its task, and so does every reentrancy that is not
0; the channels are numbered again. -/
def saved (g : Graph) : Graph :=
  { g with
    actors := g.actors.mapIdx fun i a =>
      { a with reent := if a.reent ≠ 0 ∨ ∃ e ∈ g.chans, UnitLoop e ∧ e.src = i then 1 else 0 }
    chans := (g.chans.filter fun e => ¬ UnitLoop e).mapIdx savedChan }

end Kiter.SDF3
