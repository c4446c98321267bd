/-
Model of `removeOrphanNodes` (src/libkiter/algorithms/software_noc.cpp:1826-1852), which `SoftwareControlledNoCBufferless` calls after
it has replaced channels and merged router tasks, and of `findHP` (2005-2067), which it calls at the end.

Simplifications: a graph is the list of its task identifiers in the order of the vertices, and of its channels as pairs of
identifiers; the map of conflicts is a function, a missing key being the empty list (`operator[]` creates it); messages are left out.
-/
import Mathlib.Data.Rat.Defs
import Mathlib.Data.Finset.Basic

set_option autoImplicit false

namespace Kiter.Orphan

/-- The graph and `conflictEdgeMap`. -/
structure Net where
  tasks : List ℕ
  channels : List (ℕ × ℕ)
  conflicts : ℕ → List ℕ

/-- `getVertexDegree` (models/Dataflow.h:289): incoming and outgoing channels. -/
def Net.degree (g : Net) (v : ℕ) : ℕ := g.channels.countP (fun c => c.1 == v) + g.channels.countP (fun c => c.2 == v)

/-- The task is removed, and the first entry for it in the list of its link (software_noc.cpp:1835-1845); `link` is
`vid_to_conflict_map`. -/
def Net.remove (link : ℕ → Option ℕ) (g : Net) (v : ℕ) : Net :=
  ⟨g.tasks.erase v, g.channels, match link v with
    | none => g.conflicts
    | some e => fun x => if x = e then (g.conflicts x).erase v else g.conflicts x⟩

/-- `removeOrphanNodes` (software_noc.cpp:1828-1851): each turn looks for the first task without channel. If there is one it is
removed and another turn follows; otherwise the last task looked at has set `removeme` to false. Without tasks nothing sets it, and
another turn follows. `none`: not finished after `fuel` turns. -/
def removeOrphans (link : ℕ → Option ℕ) : ℕ → Net → Option Net
  | 0, _ => none
  | fuel + 1, g =>
    match g.tasks.find? fun v => g.degree v == 0 with
    | some v => removeOrphans link fuel (g.remove link v)
    | none => if g.tasks.isEmpty then removeOrphans link fuel g else some g

/-! ### The hyperperiod -/

/-- What `findHP` uses of a task of the schedule, in the order of the identifiers: its identifier, its repetition counts in the graph
with the network and in the original graph (`none` for tasks of the network), and its entry in the schedule: the period and the
number of starts. -/
structure Task where
  id : ℕ
  ni : ℕ
  orig : Option ℕ
  period : ℚ
  starts : ℕ
deriving DecidableEq, Repr

/-- `ratio_arr[task]` (software_noc.cpp:2015-2020, 2050): 0 for a task that the first loop did not meet. `float` is `ℚ`. -/
def ratio (t : Task) : ℚ := match t.orig with
  | none => 0
  | some n => t.ni / n

/-- `*HP` (software_noc.cpp:2057) for a task; `none` is a division by zero: the value is infinite. -/
def hpOf (t : Task) : Option ℚ :=
  if ratio t * t.starts = 0 then none else some (t.period * t.ni / (ratio t * t.starts))

/-- The second loop of `findHP` (software_noc.cpp:2044-2064): the value of the last task stays, the least common multiple grows. -/
def hpLoop : List Task → Option ℚ → ℕ → Option ℚ × ℕ
  | [], hp, l => (hp, l)
  | t :: ts, _, l => hpLoop ts (hpOf t) (Nat.lcm l t.ni)

/-- The assertion of the first loop (software_noc.cpp:2025-2026): the number of starts divides the repetition count of the original
graph (a remainder by zero is undefined). That these tasks have one phase (2027) is assumed. -/
def supported (t : Task) : Bool := match t.orig with
  | none => true
  | some n => t.starts != 0 && n % t.starts == 0

/-- `findHP` (software_noc.cpp:2005-2067): `*HP` and `*LCM`. The conversion of an infinite value to an integer (line 2066) is
undefined: `none`. -/
def findHP (ts : List Task) : Option (ℚ × ℕ) := do
  if ts.all supported then
    let r := hpLoop ts (some 0) 1
    let hp ← r.1
    pure (hp, Nat.lcm r.2 (hp.num / hp.den).toNat)
  else none

end Kiter.Orphan
