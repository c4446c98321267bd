/-
Model of the drawing of a mapped graph on its network: `printers::GenerateNoCDOT` (src/libkiter/printers/stdout.cpp:252-528),
the text written by the command PrintMapping (stdout.cpp:604-630).

The text is a list of nodes, links, task sprites and arcs.  The model keeps names, positions, labels and colours, and drops
the other attributes and the spelling of numbers.  `double` is `ℚ`.  A channel is named by its rank.
-/
import Verif.Model.NoC
import Mathlib.Data.Rat.Floor
import Mathlib.Data.List.Dedup

set_option autoImplicit false

namespace Kiter.NoCDraw
open Kiter.NoC

/-- What the function reads of a task: id and mapping. -/
structure Task where
  id : Int
  mapping : Int

/-- What it reads of a channel: ranks of its ends and its route. -/
structure Chan where
  src : ℕ
  dst : ℕ
  route : List Int

/-- A graph with a mapping and routes. -/
structure Mapped where
  tasks : List Task
  chans : List Chan

/-- `available_colors` (stdout.cpp:337-339). -/
def palette : List String :=
  ["#ACFF54", "#41E869", "#53FFEE", "#4191E8", "#4191E8", "#634BFA",
   "#DB42FF", "#E83154", "#FF7843", "#E8A131", "#FADC39", "#8736FF"]

/-- `link_usage[id]` (stdout.cpp:303-325): the channels whose route passes the link, once for each passage. -/
def usage (chans : List Chan) (id : Int) : List ℕ :=
  chans.zipIdx.flatMap fun p => (p.1.route.filter fun e => e = id).map fun _ => p.2

/-- `edge_color` (stdout.cpp:336): the colours given so far. -/
abbrev Colours := List (ℕ × String)

/-- The body of the loop over the channels of a link (stdout.cpp:349-356): a channel without colour gets the next of the
palette (since C++17 the size is read before the element is created). -/
def colourStep (s : Colours × List String) (c : ℕ) : Colours × List String :=
  match s.1.lookup c with
  | some k => (s.1, s.2 ++ [k])
  | none =>
    let k := palette.getD (s.1.length % palette.length) ""
    ((c, k) :: s.1, s.2 ++ [k])

/-- A drawn link (stdout.cpp:343-360): its ends and the colours of its line, none for a plain line. -/
structure Line where
  src : Int
  dst : Int
  colours : List String
deriving DecidableEq

/-- The body of the loop over the links (stdout.cpp:343-360). -/
def linkStep (chans : List Chan) (colour : Bool) (s : Colours × List Line) (l : Link) : Colours × List Line :=
  if (usage chans l.id).length = 0 ∨ colour = false then (s.1, s.2 ++ [⟨l.src, l.dst, []⟩])
  else
    let r := (usage chans l.id).foldl colourStep (s.1, [])
    (r.1, s.2 ++ [⟨l.src, l.dst, r.2⟩])

/-- The links (stdout.cpp:303-360).  A route with an unknown link throws: `none`. -/
def drawLinks (n : Net) (chans : List Chan) (colour : Bool) : Option (List Line) :=
  if ∀ c ∈ chans, ∀ e ∈ c.route, e ∈ n.links.map fun l => l.id then some (n.links.foldl (linkStep chans colour) ([], [])).2
  else none

/-- `TaskSprite` (stdout.cpp:248-257). -/
structure Sprite where
  id : Int
  x : ℚ
  y : ℚ
  small : Bool
deriving DecidableEq

/-- Position of a node in the drawing (stdout.cpp:287-288, 380-381). -/
def place (xs ys : ℕ) (v : Node) : ℚ × ℚ := ((xs : ℚ) - v.x, (ys : ℚ) - v.y)

/-- What a neighbour adds to the sums (stdout.cpp:389-394, 401-406): nothing when it is not mapped; a mapping to an unknown
node fails an assertion. -/
def neighbourPlace (n : Net) (xs ys : ℕ) (m : Int) : Option (ℚ × ℚ) :=
  if 0 ≤ m then (getNode n m).map (place xs ys) else some (0, 0)

/-- Mappings of the sources of the inputs, then of the targets of the outputs (stdout.cpp:387-388, 399-400). -/
def neighbours (g : Mapped) (v : ℕ) : List Int :=
  (g.chans.filter fun c => c.dst = v).map (fun c => ((g.tasks[c.src]?).map Task.mapping).getD (-1)) ++
  (g.chans.filter fun c => c.src = v).map fun c => ((g.tasks[c.dst]?).map Task.mapping).getD (-1)

/-- A task that is not mapped (stdout.cpp:384-412): the sums divided by the degree.  Without channel this is 0/0, which is
then converted to a `long` (undefined): `none`. -/
def freeSprite (n : Net) (xs ys : ℕ) (g : Mapped) (v : ℕ) (id : Int) : Option Sprite := do
  let ps ← (neighbours g v).mapM (neighbourPlace n xs ys)
  if ps.length = 0 then none
  else some ⟨id, (ps.map Prod.fst).sum / ps.length, (ps.map Prod.snd).sum / ps.length, true⟩

/-- The sprite of a task (stdout.cpp:371-416). -/
def sprite (n : Net) (xs ys : ℕ) (g : Mapped) (v : ℕ) (t : Task) : Option Sprite :=
  if 0 ≤ t.mapping then
    match getNode n t.mapping with
    | some w => some ⟨t.id, (place xs ys w).1, (place xs ys w).2, w.router⟩
    | none => freeSprite n xs ys g v t.id
  else freeSprite n xs ys g v t.id

/-- `std::round`: halves away from zero. -/
def round (q : ℚ) : Int := if 0 ≤ q then ⌊q + 1 / 2⌋ else ⌈q - 1 / 2⌉

/-- The key of a sprite (stdout.cpp:425-426). -/
def key (s : Sprite) : Int × Int := (round (s.x * 100), round (s.y * 100))

/-- What is added to the position of the sprite of rank `i` in a group of `n` (stdout.cpp:439-482). -/
def offset (n i : ℕ) : ℚ × ℚ :=
  if n = 1 then (0, 0)
  else if n = 2 then ([(5 / 100, -5 / 100), (-5 / 100, 5 / 100)] : List (ℚ × ℚ)).getD i (0, 0)
  else if n = 3 then ([(0, -8 / 100), (-8 / 100, 2 / 100), (45 / 1000, 45 / 1000)] : List (ℚ × ℚ)).getD i (0, 0)
  else if n = 4 then
    ([(6 / 100, -6 / 100), (-6 / 100, 6 / 100), (6 / 100, 6 / 100), (-6 / 100, -6 / 100)] : List (ℚ × ℚ)).getD i (0, 0)
  else (-6 / 100 + 12 / 100 * ((i : ℚ) / (n : ℚ)), -6 / 100 + 12 / 100 * ((i : ℚ) / (n : ℚ)))

/-- One group moved apart (stdout.cpp:434-483). -/
def spread (l : List Sprite) : List Sprite :=
  l.zipIdx.map fun p => ⟨p.1.id, p.1.x + (offset l.length p.2).1, p.1.y + (offset l.length p.2).2, p.1.small⟩

/-- The sprites moved apart (stdout.cpp:421-483).  The groups are in the order in which they appear, not in that of the keys:
only the order of the printed lines changes. -/
def spreadAll (l : List Sprite) : List Sprite :=
  ((l.map key).dedup).flatMap fun k => spread (l.filter fun s => key s = k)

/-- The drawing: nodes with label and position (stdout.cpp:286-296), links, sprites (stdout.cpp:488-502), arcs between tasks
(stdout.cpp:505-518). -/
structure Drawing where
  nodes : List (Int × Int × ℚ × ℚ)
  links : List Line
  sprites : List Sprite
  arcs : List (Int × Int)

/-- The label and position of a node (stdout.cpp:283-296); `routeur_count` is the number of all nodes. -/
def drawNode (n : Net) (xs ys : ℕ) (v : Node) : Int × Int × ℚ × ℚ :=
  (v.id, if v.router then v.id else v.id - ((n.nodes.length / 2 : ℕ) : Int), place xs ys v)

/-- The arc of a channel (stdout.cpp:505-518). -/
def arc (g : Mapped) (c : Chan) : Option (Int × Int) := do
  let a ← g.tasks[c.src]?
  let b ← g.tasks[c.dst]?
  some (a.id, b.id)

/-- `GenerateNoCDOT` (stdout.cpp:259-528). -/
def draw (n : Net) (xs ys : ℕ) (g : Mapped) (connect colour : Bool) : Option Drawing := do
  let links ← drawLinks n g.chans colour
  let sprites ← g.tasks.zipIdx.mapM fun p => sprite n xs ys g p.2 p.1
  let arcs ← if connect then g.chans.mapM (arc g) else some []
  some ⟨n.nodes.map (drawNode n xs ys), links, spreadAll sprites, arcs⟩

end Kiter.NoCDraw
