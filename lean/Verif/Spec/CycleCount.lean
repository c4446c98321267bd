/-
What the command CycleCount is to print.
-/
import Verif.Model.CycleCount

set_option autoImplicit false

namespace Kiter.CycleCount

/-- Distinct ids of tasks and of channels, and channels between tasks of the graph. -/
structure Valid (g : Graph) : Prop where
  tasks : g.ids.Nodup
  chans : (g.channels.map fun c => c.id).Nodup
  ends : ∀ c ∈ g.channels, c.src ∈ g.ids ∧ c.dst ∈ g.ids

/-- The channels lead from `u` to `v`, each from where the previous one ends. -/
def Trail : Int → List Channel → Int → Prop
  | u, [], v => u = v
  | u, c :: p, v => c.src = u ∧ Trail c.dst p v

/-- A simple cycle: channels that lead from a task back to it, through pairwise different tasks. Channels in parallel give different
cycles. -/
structure IsCycle (g : Graph) (p : List Channel) : Prop where
  nonempty : p ≠ []
  chans : ∀ c ∈ p, c ∈ g.channels
  closed : ∃ u, Trail u p u
  simple : (p.map fun c => c.src).Nodup

/-- The tasks of a cycle, the first one repeated at the end: a line printed. -/
def tasksOf (p : List Channel) : List Int := p.map (fun c => c.src) ++ (p.head?.map fun c => c.src).toList

/-- The cycle is written from its task of least id. -/
def LeastFirst (p : List Channel) : Prop := ∀ a ∈ p.head?, ∀ c ∈ p, a.src ≤ c.src

end Kiter.CycleCount
