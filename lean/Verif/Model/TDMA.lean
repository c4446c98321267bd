/-
Model of /repo/src/libkiter/algorithms/scheduling/TDMAScheduler.h and .cpp:
the slot arithmetic, and the event loop that replays a list of packets over a
time-division network.

Simplifications common to the file.
* `long` is `Int`; ids, which are vector indices, are `Nat`.
* A vector is a function together with an explicit bound check where the code indexes
  it; an index out of bounds gives `none`.
* The text files are not modelled: the model starts after they have been read.
-/
import Mathlib.Data.List.Basic
import Mathlib.Order.Basic
import Mathlib.Algebra.Order.Group.Unbundled.Int
import Mathlib.Logic.Function.Basic

set_option autoImplicit false

namespace Kiter.TDMA

/-- TDMAScheduler.cpp 12-18, `findEventCycle`. -/
def findEventCycle (curr my total : Int) : Int :=
  if my ≥ curr then my - curr else (total - curr) + my

/-- TDMAScheduler.cpp 20-26, `getDistance`.  Division by zero is `none`. -/
def getDistance (src des rows cols : Int) : Option Int :=
  if rows = 0 ∨ cols = 0 then none
  else some (|src.tdiv rows - des.tdiv rows| + |src.tmod cols - des.tmod cols| + 1)

/-- TDMAScheduler.h 57-61, `packet_struct` (the bank id is never read). -/
structure Packet where
  src : Nat
  dest : Nat
  duration : Int
  deps : List Nat

/-- What has been read from the three files (TDMAScheduler.cpp 30-155): the packets, the
mesh, `TOTAL_SLOTS` and `slot_table` (of size `OFFSET * OFFSET`, `OFFSET = rows * cols`). -/
structure Cfg where
  rows : Nat
  cols : Nat
  total : Int
  slot : Nat → Int
  pkts : List Packet

/-- TDMAScheduler.h 46-48, `pq_struct`. -/
structure Ev where
  cycle : Int
  pkt : Nat
  comp : Bool
deriving DecidableEq

/-- One row of `packet_profile` (TDMAScheduler.h 40-43: `DEPS`, `COMP`, `SLOT`, `DATA`). -/
structure Prof where
  deps : Int
  comp : Int
  slot : Int
  data : Int
deriving DecidableEq

/-- The variables of the event loop. -/
structure St where
  heap : List Ev
  done : Nat → Int
  lock : Nat → Int
  prof : Nat → Prof

/-- TDMAScheduler.h 52-56, `operator<` read as "`a` is taken from the queue before `b`". -/
def before (a b : Ev) : Bool :=
  if a.cycle = b.cycle then decide (a.pkt < b.pkt) else decide (a.cycle < b.cycle)

/-- `myheap.top()`: an element that no other one precedes.  (No packet is ever queued
twice, so that the element is unique and the choice among equals is immaterial.) -/
def top : List Ev → Option Ev
  | [] => none
  | e :: l => match top l with
    | none => some e
    | some e' => if before e' e then some e' else some e

/-- TDMAScheduler.h 79-82, `get_slot_table_index`. -/
def Cfg.key (c : Cfg) (p : Packet) : Nat := p.src * (c.rows * c.cols) + p.dest

/-- Bound of `slot_table` and `slotlock` (TDMAScheduler.cpp 124-128). -/
def Cfg.tableSize (c : Cfg) : Nat := (c.rows * c.cols) * (c.rows * c.cols)

/-- TDMAScheduler.h 85-98, `isDepsDone`. -/
def depsDone (c : Cfg) (done : Nat → Int) (cycle : Int) : List Nat → Option Bool
  | [] => some true
  | d :: l =>
    if c.pkts.length ≤ d then none
    else if done d = -1 then some false
    else if done d > cycle then some false
    else depsDone c done cycle l

/-- `myheap.push(...)`. -/
def St.push (s : St) (e : Ev) : St := { s with heap := e :: s.heap }

/-- `packet_profile[p] = q`. -/
def St.setProf (s : St) (p : Nat) (q : Prof) : St :=
  { s with prof := Function.update s.prof p q }

/-- TDMAScheduler.cpp 204-212: source and destination on the same node, `LOCAL_LAT` is 0. -/
def sendLocal (s : St) (e : Ev) : St :=
  { s with
    done := Function.update s.done e.pkt (e.cycle + 0)
    prof := Function.update s.prof e.pkt
      { s.prof e.pkt with data := e.cycle + 0, slot := e.cycle } }

/-- TDMAScheduler.cpp 220-243: the packet is sent in this cycle. -/
def sendRemote (c : Cfg) (s : St) (e : Ev) (p : Packet) : Option St :=
  (getDistance p.src p.dest c.rows c.cols).map fun left =>
    let q := s.prof e.pkt
    { s with
      done := Function.update s.done e.pkt (e.cycle + left)
      lock := Function.update s.lock (c.key p) e.cycle
      prof := Function.update s.prof e.pkt
        { q with slot := (if q.slot = -1 then e.cycle else q.slot), data := e.cycle + left } }

/-- TDMAScheduler.cpp 215-219: another packet took the slot, wait for its next round. -/
def waitRound (c : Cfg) (s : St) (e : Ev) : St :=
  (s.setProf e.pkt { s.prof e.pkt with slot := e.cycle + c.total }).push
    ⟨e.cycle + c.total, e.pkt, e.comp⟩

/-- TDMAScheduler.cpp 245-257: it is not the packet's slot; wait for it (or, when it has
already waited, print "error2" and come back in the next cycle). -/
def waitSlot (c : Cfg) (s : St) (e : Ev) (p : Packet) : St :=
  if (s.prof e.pkt).slot = -1 then
    let w := findEventCycle (e.cycle.tmod c.total) (c.slot (c.key p)) c.total
    (s.setProf e.pkt { s.prof e.pkt with slot := e.cycle + w }).push
      ⟨e.cycle + w, e.pkt, e.comp⟩
  else s.push ⟨e.cycle + 1, e.pkt, e.comp⟩

/-- TDMAScheduler.cpp 196-258: the computation is finished. -/
def transfer (c : Cfg) (s : St) (e : Ev) (p : Packet) : Option St :=
  let s : St := if (s.prof e.pkt).comp = -1 then
      s.setProf e.pkt { s.prof e.pkt with comp := e.cycle }
    else s
  if c.total = 0 then none
  else if p.src = p.dest then some (sendLocal s e)
  else if c.tableSize ≤ c.key p then none
  else if e.cycle.tmod c.total = c.slot (c.key p) then
    if e.cycle = s.lock (c.key p) then some (waitRound c s e) else sendRemote c s e p
  else some (waitSlot c s e p)

/-- TDMAScheduler.cpp 191-268: the body of the loop once the event `e` has been popped. -/
def handle (c : Cfg) (s : St) (e : Ev) : Option St :=
  match c.pkts[e.pkt]? with
  | none => none
  | some p =>
    match depsDone c s.done e.cycle p.deps with
    | none => none
    | some false => some (s.push ⟨e.cycle + 1, e.pkt, e.comp⟩)
    | some true =>
      let s : St := if (s.prof e.pkt).deps = -1 then
          s.setProf e.pkt { s.prof e.pkt with deps := e.cycle }
        else s
      if e.comp then transfer c s e p
      else some (s.push ⟨e.cycle + p.duration, e.pkt, true⟩)

/-- TDMAScheduler.cpp 173-269: one turn of `while (myheap.size() != 0)`; the state is
unchanged when the queue is empty. -/
def step (c : Cfg) (s : St) : Option St :=
  match top s.heap with
  | none => some s
  | some e => handle c { s with heap := s.heap.erase e } e

/-- TDMAScheduler.cpp 158-168: every packet is queued at cycle 0. -/
def initial (c : Cfg) : St where
  heap := (List.range c.pkts.length).map fun p => ⟨0, p, false⟩
  done := fun _ => -1
  lock := fun _ => -1
  prof := fun _ => ⟨-1, -1, -1, -1⟩

/-- `n` turns of the loop. -/
def run (c : Cfg) : Nat → Option St
  | 0 => some (initial c)
  | n + 1 => (run c n).bind (step c)

end Kiter.TDMA
