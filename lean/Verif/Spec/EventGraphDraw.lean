import Verif.Model.EventGraphDraw

set_option autoImplicit false

/-! # What a reader of a Graphviz text sees

The text is a list of statements. Braces open and close the graph and the clusters. A drawing is well formed when every
brace that closes matches one that opens and all are closed at the end. The innermost open brace is where a node is. -/

namespace Kiter.EGDraw

/-- A block of the text: the whole graph or the cluster of a task. -/
inductive Block where
  | whole
  | task (id : Int)
deriving DecidableEq, Repr

/-- Reads the nodes with the blocks that are open around them, innermost first; `none` when the braces do not match. -/
def nodesOf : List Block → List Line → Option (List (ℕ × Event × List Block))
  | [], [] => some []
  | _ :: _, [] => none
  | st, .graph :: l => nodesOf (.whole :: st) l
  | st, .cluster t :: l => nodesOf (.task t :: st) l
  | [], .close :: _ => none
  | _ :: st, .close :: l => nodesOf st l
  | st, .node v e _ _ _ :: l => (nodesOf st l).map fun r => (v, e, st) :: r
  | st, .edge _ _ _ _ _ :: l => nodesOf st l

/-- The clusters that a text opens, in order. -/
def clustersOf (l : List Line) : List Int := l.filterMap fun x => match x with
  | .cluster t => some t
  | _ => none

/-- The edges of a text: ends, weight and duration. -/
def edgesOf (l : List Line) : List (ℕ × ℕ × ℚ × ℚ) := l.filterMap fun x => match x with
  | .edge s t w d _ => some (s, t, w, d)
  | _ => none

/-- The edges of a text that are drawn thick. -/
def thickOf (l : List Line) : List (ℕ × ℕ) := l.filterMap fun x => match x with
  | .edge s t _ _ true => some (s, t)
  | _ => none

/-- The places of the nodes of a text. -/
def placesOf (l : List Line) : List (Int × Int) := l.filterMap fun x => match x with
  | .node _ _ _ x y => some (x, y)
  | _ => none

end Kiter.EGDraw
