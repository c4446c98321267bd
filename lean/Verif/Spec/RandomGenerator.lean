/-
What a generated graph looks like (specification of C45), and which sequences of draws and configurations are meant.
-/
import Verif.Model.RandomGenerator

set_option autoImplicit false

namespace Kiter.Gen

open DF

/-- The configurations the generator accepts (RandomGenerator.cpp:79-84). -/
structure Config.Supported (c : Config) : Prop where
  vertices : c.minV ≤ c.maxV
  edges : c.minE ≤ c.maxE
  duration : 1 ≤ c.maxDuration
  weight : 1 ≤ c.maxWeight
  phases : 1 ≤ c.maxPhases
  initial : 0 ≤ c.maxInit

/-- The task at position `j`: number and name, phase counts within the limits, one duration per phase and per initial phase,
within the limits. -/
structure TaskOK (c : Config) (j : Nat) (x : Vtx) : Prop where
  id : x.id = j + 1
  name : x.name = "Node_" ++ toString (j + 1)
  phases1 : 1 ≤ x.phases
  phases2 : x.phases ≤ c.maxPhases
  iphases1 : 0 ≤ x.iphases
  iphases2 : x.iphases ≤ c.maxInit
  ni : x.ni = 0
  dursLen : (x.durs.length : Int) = x.phases
  durs : ∀ d ∈ x.durs, ∃ n : Int, 1 ≤ n ∧ n ≤ c.maxDuration ∧ d = n
  idursLen : (x.idurs.length : Int) = x.iphases
  idurs : ∀ d ∈ x.idurs, ∃ n : Int, 1 ≤ n ∧ n ≤ c.maxDuration ∧ d = n

/-- The channel at position `j` of a graph with tasks `vs`: number and name, ends that are tasks (and different if asked
for), one rate per phase on each end, no negative rate, totals between 1 and the largest weight. -/
structure ChannelOK (c : Config) (vs : List Vtx) (j : Nat) (e : Edg) : Prop where
  id : e.id = j + 1
  name : e.name = "buffer_" ++ toString (j + 1)
  loop : c.noSelfLoop = true → e.src ≠ e.tgt
  src : ∃ x, vs[e.src]? = some x ∧ (e.ins.length : Int) = x.phases ∧ (e.iins.length : Int) = x.iphases
  tgt : ∃ x, vs[e.tgt]? = some x ∧ (e.outs.length : Int) = x.phases ∧ (e.iouts.length : Int) = x.iphases
  rates : ∀ x, x ∈ e.ins ∨ x ∈ e.outs ∨ x ∈ e.iins ∨ x ∈ e.iouts → 0 ≤ x
  inTotal : 1 ≤ e.ins.sum ∧ e.ins.sum ≤ c.maxWeight
  outTotal : 1 ≤ e.outs.sum ∧ e.outs.sum ≤ c.maxWeight
  iinTotal : e.iins ≠ [] → 1 ≤ e.iins.sum ∧ e.iins.sum ≤ c.maxWeight
  ioutTotal : e.iouts ≠ [] → 1 ≤ e.iouts.sum ∧ e.iouts.sum ≤ c.maxWeight

/-- The draws never repeat one value of a range of two or more values for ever. -/
def Varied (r : Nat → Nat) : Prop := ∀ n : Int, 2 ≤ n → ∀ (x : Int) (i : Nat), ∃ j, i ≤ j ∧ 1 + (r j : Int) % n ≠ x

end Kiter.Gen
