/-
Vocabulary of the TDMA properties: well-formed inputs, walks on a mesh, delivered packets.
-/
import Verif.Model.TDMA

set_option autoImplicit false

namespace Kiter.TDMA

/-- A well-formed input: a mesh, at least one slot, durations that are not negative,
dependencies that name packets of the list, and for every packet that crosses the network two
nodes of the mesh with a slot in the table. -/
structure Cfg.Ok (c : Cfg) : Prop where
  rows : 0 < c.rows
  cols : 0 < c.cols
  total : 0 < c.total
  dur : ∀ pk ∈ c.pkts, 0 ≤ pk.duration
  deps : ∀ pk ∈ c.pkts, ∀ d ∈ pk.deps, d < c.pkts.length
  ends : ∀ pk ∈ c.pkts, pk.src < c.rows * c.cols ∧ pk.dest < c.rows * c.cols
  slot : ∀ pk ∈ c.pkts, pk.src ≠ pk.dest → 0 ≤ c.slot (c.key pk) ∧ c.slot (c.key pk) < c.total

end Kiter.TDMA

namespace Kiter

open TDMA

/-- Two nodes of a mesh of `rows` rows of `cols` nodes, numbered row after row, are neighbours:
same row and consecutive columns, or same column and consecutive rows. -/
def MeshAdj (rows cols a b : Nat) : Prop :=
  a < rows * cols ∧ b < rows * cols ∧
    ((a / cols = b / cols ∧ (a % cols + 1 = b % cols ∨ b % cols + 1 = a % cols)) ∨
     (a % cols = b % cols ∧ (a / cols + 1 = b / cols ∨ b / cols + 1 = a / cols)))

/-- A walk of `n` hops. -/
inductive MeshWalk (rows cols : Nat) : Nat → Nat → Nat → Prop
  | refl (a : Nat) : MeshWalk rows cols 0 a a
  | step {n a b d : Nat} : MeshWalk rows cols n a b → MeshAdj rows cols b d →
      MeshWalk rows cols (n + 1) a d

/-- A packet has been delivered: it is no longer queued. -/
def TDMA.Delivered (s : St) (p : Nat) : Prop := ∀ e ∈ s.heap, e.pkt ≠ p

end Kiter
