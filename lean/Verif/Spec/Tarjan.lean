/-
Specification for C117: strongly connected components of an event graph.
-/
import Verif.Model.Tarjan
import Mathlib.Logic.Relation

set_option autoImplicit false

namespace Kiter.Tarjan

/-- The edges join vertices of the graph. -/
def Graph.OK (g : Graph) : Prop := ∀ e ∈ g.edges, e.src < g.events.length ∧ e.dst < g.events.length

/-- There is a path from `u` to `v`, possibly empty. -/
def Graph.Path (g : Graph) : Nat → Nat → Prop :=
  Relation.ReflTransGen fun u v => ∃ e ∈ g.edges, e.src = u ∧ e.dst = v

/-- Each is reached from the other: same strongly connected component. -/
def Graph.Together (g : Graph) (u v : Nat) : Prop := g.Path u v ∧ g.Path v u

/-- The constraints of an event graph, each with its source event, target event, weight, duration and channel. -/
def Graph.constraints (g : Graph) (es : List Edge) : List (Option Event × Option Event × ℚ × ℚ × Int) :=
  es.map fun e => (g.events[e.src]?, g.events[e.dst]?, e.w, e.d, e.channel)

end Kiter.Tarjan
