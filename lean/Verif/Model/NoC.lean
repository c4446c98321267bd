/-
Model of the mesh network (src/libkiter/models/NoC.h, NoC.cpp), of the routing passes
(algorithms/mapping/xyRouting.cpp, randomRouting.cpp) and of the link index of models/NoCGraph.h.

Coordinates (`double` in the code, halves of small integers) are rationals. A neighbour lookup that finds nothing runs off
the end of a function that must return a reference (undefined): `none`.
-/
import Mathlib.Data.Rat.Defs
import Mathlib.Algebra.Order.Ring.Rat

set_option autoImplicit false

namespace Kiter.NoC

/-- `NetworkNode` (NoC.h:33-39); `router` is `type == Router`, otherwise the type is `Core`. -/
structure Node where
  id : Int
  router : Bool
  x : ℚ
  y : ℚ
deriving DecidableEq, Repr

/-- `NetworkEdge` (NoC.h:52-59). -/
structure Link where
  id : Int
  src : Int
  dst : Int
deriving DecidableEq, Repr

/-- `NoC` (NoC.h:66-77): the vectors; the maps `_mnodes`, `_medges` keep the first element inserted under a key. -/
structure Net where
  nodes : List Node
  links : List Link

/-- The nodes added by one iteration of the loops of `generate` (NoC.cpp:59-64). -/
def cellNodes (xs ys : Nat) (X Y : Nat) : List Node :=
  let s : Int := X + Y * xs
  let c : Int := s + xs * ys
  [⟨s, true, X + 1/2, Y + 1/2⟩, ⟨c, false, X, Y⟩]

/-- The links added by one iteration (NoC.cpp:66-87). -/
def cellLinks (xs ys : Nat) (X Y : Nat) : List Link :=
  let n : Int := xs * ys * 2
  let s : Int := X + Y * xs
  let c : Int := s + xs * ys
  let r : Int := (X + 1) + Y * xs
  let b : Int := X + (Y + 1) * xs
  [⟨n + s * n + c, s, c⟩, ⟨n + c * n + s, c, s⟩] ++
    (if (X : Int) < xs - 1 then [⟨n + s * n + r, s, r⟩, ⟨n + r * n + s, r, s⟩] else []) ++
    (if (Y : Int) < ys - 1 then [⟨n + s * n + b, s, b⟩, ⟨n + b * n + s, b, s⟩] else [])

/-- `generate` (NoC.cpp:36-95). -/
def generate (xs ys : Nat) : Net :=
  ⟨(List.range xs).flatMap fun X => (List.range ys).flatMap fun Y => cellNodes xs ys X Y,
    (List.range xs).flatMap fun X => (List.range ys).flatMap fun Y => cellLinks xs ys X Y⟩

/-- The insertions of `check_ids` (NoC.cpp:18-27): fails on the first repeated id. -/
def checkInsert (seen : List Int) (id : Int) : Option (List Int) := if id ∈ seen then none else some (id :: seen)

/-- `check_ids` (NoC.cpp:12-34). -/
def checkIds (n : Net) : Option Bool := do
  let a ← (n.links.map fun l => l.id).foldlM checkInsert []
  let b ← (n.nodes.map fun v => v.id).foldlM checkInsert a
  some (b.length == n.links.length + n.nodes.length)

/-- `getNode` (NoC.h:86-89). -/
def getNode (n : Net) (id : Int) : Option Node := n.nodes.find? fun v => v.id == id

/-- `getEdge(src, dst)` (NoC.h:92-96). -/
def getLink (n : Net) (src dst : Int) : Option Link := n.links.find? fun l => l.src == src && l.dst == dst

/-- The loop of the four neighbour lookups (NoC.h:99-130); `ok` is the comparison of the two end points. -/
def neighbour (n : Net) (ok : Node → Node → Bool) (src : Int) : List Link → Option Link
  | [] => none
  | l :: ls =>
    if l.src = src then do
      let a ← getNode n l.src
      let b ← getNode n l.dst
      if ok a b then some l else neighbour n ok src ls
    else neighbour n ok src ls

/-- `getLeftNeighbour` (NoC.h:99-106). -/
def left (n : Net) (src : Int) : Option Link := neighbour n (fun a b => a.y = b.y ∧ a.x > b.x) src n.links
/-- `getRightNeighbour` (NoC.h:107-114). -/
def right (n : Net) (src : Int) : Option Link := neighbour n (fun a b => a.y = b.y ∧ a.x < b.x) src n.links
/-- `getTopNeighbour` (NoC.h:115-122). -/
def top (n : Net) (src : Int) : Option Link := neighbour n (fun a b => a.x = b.x ∧ a.y < b.y) src n.links
/-- `getBottomNeighbour` (NoC.h:123-130). -/
def bottom (n : Net) (src : Int) : Option Link := neighbour n (fun a b => a.x = b.x ∧ a.y > b.y) src n.links
/-- `getSrcNeighbour` (NoC.h:131-138). -/
def srcLink (n : Net) (src : Int) : Option Link := n.links.find? fun l => l.src == src
/-- `getDstNeighbour` (NoC.h:139-146). -/
def dstLink (n : Net) (dst : Int) : Option Link := n.links.find? fun l => l.dst == dst

/-- One of the four loops of xyRouting (xyRouting.cpp:30-57) on (path, node). The loop of the code has no bound; the counter
stops it with `none`, which `C39_route` shows does not happen. -/
def walk (n : Net) (nb : Int → Option Link) (stop : Node → Bool) : Nat → List Int × Node → Option (List Int × Node)
  | 0, s => if stop s.2 then some s else none
  | f + 1, s =>
    if stop s.2 then some s
    else do
      let l ← nb s.2.id
      let v ← getNode n l.dst
      walk n nb stop f (s.1 ++ [l.id], v)

/-- The route of one channel between two mapped nodes (xyRouting.cpp:16-72); `f` bounds each loop. -/
def xyRoute (n : Net) (f : Nat) (a b : Int) : Option (List Int) := do
  let start ← srcLink n a
  let node ← getNode n start.dst
  let last ← dstLink n b
  let dest ← getNode n last.src
  let s ← walk n (if node.x < dest.x then right n else left n) (fun v => v.x = dest.x) f ([start.id], node)
  let s ← walk n (if s.2.y < dest.y then top n else bottom n) (fun v => v.y = dest.y) f s
  some (s.1 ++ [last.id])

/-- `path.push_back(nb.id); node = getNode(nb.dst)`. -/
def step (n : Net) (nb : Int → Option Link) (s : List Int × Node) : Option (List Int × Node) := do
  let l ← nb s.2.id
  let v ← getNode n l.dst
  some (s.1 ++ [l.id], v)

/-- A draw on the x axis (randomRouting.cpp:31-43). -/
def drawX (n : Net) (dest : Node) (s : List Int × Node) : Option (List Int × Node) :=
  (if s.2.x < dest.x then step n (right n) s else some s).bind fun s =>
    if s.2.x > dest.x then step n (left n) s else some s

/-- A draw on the y axis (randomRouting.cpp:44-57). -/
def drawY (n : Net) (dest : Node) (s : List Int × Node) : Option (List Int × Node) :=
  (if s.2.y < dest.y then step n (top n) s else some s).bind fun s =>
    if s.2.y > dest.y then step n (bottom n) s else some s

/-- The loop of randomRouting (randomRouting.cpp:29-59); the list holds the successive values of `std::rand() % 2`, and
`none` stands for the end of the list (or an undefined lookup). -/
def randomWalk (n : Net) (dest : Node) : List Bool → List Int × Node → Option (List Int × Node)
  | [], s => if s.2.x ≠ dest.x ∨ s.2.y ≠ dest.y then none else some s
  | d :: ds, s =>
    if s.2.x ≠ dest.x ∨ s.2.y ≠ dest.y then
      (if d then drawX n dest s else drawY n dest s).bind fun s => randomWalk n dest ds s
    else some s

/-- The route of one channel (randomRouting.cpp:17-60). -/
def randomRoute (n : Net) (ds : List Bool) (a b : Int) : Option (List Int) := do
  let start ← srcLink n a
  let node ← getNode n start.dst
  let last ← dstLink n b
  let dest ← getNode n last.src
  let s ← randomWalk n dest ds ([start.id], node)
  some (s.1 ++ [last.id])

/-- `getMapIndex` (NoCGraph.h:82). -/
def mapIndex (V x y : Int) : Int := V + (x * V + y)

/-- `getMapIndexPair` (NoCGraph.h:83). -/
def mapIndexPair (V i : Int) : Option (Int × Int) := if V = 0 then none else some ((i - V).tdiv V, (i - V).tmod V)

/-- `moduloMapping` (moduloMapping.cpp:16-24) for a task without parameter. -/
def moduloMap (xs ys : Nat) (id : Int) : Option Int := if xs * ys = 0 then none else some ((id - 1).tmod (xs * ys : Nat))

/-- `randomMapping` (randomMapping.cpp:13-21) for a task without parameter; `r` is the value of `std::rand()`. -/
def randomMap (xs ys : Nat) (r : Nat) : Option Int :=
  if xs * ys = 0 then none else some ((xs * ys : Nat) + ((r % (xs * ys) : Nat) : Int))

end Kiter.NoC
