/-
Specification of paths in a directed graph whose nodes are numbers.
-/
import Mathlib.Data.List.Chain
import Mathlib.Algebra.Order.Ring.Int

set_option autoImplicit false

namespace Kiter.NoC

/-- A path from `u` to `d`: a list of nodes, the first `u`, the last `d`, consecutive ones linked. -/
structure IsPath (R : ℕ → ℕ → Prop) (p : List ℕ) (u d : ℕ) : Prop where
  first : p.head? = some u
  last : p.getLast? = some d
  chain : p.IsChain R

/-- `p` is a shortest path: no path from `u` to `d` has fewer nodes. -/
def IsShortest (R : ℕ → ℕ → Prop) (p : List ℕ) (u d : ℕ) : Prop :=
  IsPath R p u d ∧ ∀ q, IsPath R q u d → p.length ≤ q.length

/-- Each node of `p` after the first is entered by a link that is used the least, among the links that end a path from
`u` to this node as short as `p` is up to it. -/
def LeastUsedLinks (R : ℕ → ℕ → Prop) (w : ℕ → ℕ → Int) (p : List ℕ) (u : ℕ) : Prop :=
  ∀ pre a b post, p = pre ++ a :: b :: post → ∀ q a', IsPath R (q ++ [a', b]) u b → q.length = pre.length → w a b ≤ w a' b

end Kiter.NoC
