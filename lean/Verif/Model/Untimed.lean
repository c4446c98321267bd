/-
Model of the untimed execution of a graph: `algorithms::symbolic_execution` and `symbolic_execution_with_packets`
(src/libkiter/algorithms/symbolic_execution.cpp), the commands SymbolicExecution and SymbolicExecutionWP.

Simplifications: arrays indexed by identifiers are functions of the identifier (identifiers start at 1 and are below the sizes of
the arrays, models/Dataflow.h:302, 366, 479, 492, 521-522); the consistency of the graph, asserted first, is a hypothesis of the
theorems. The input and output edges of a task are listed in the order of the edges of the graph.
-/
import Verif.Model.KIter
import Mathlib.Logic.Function.Basic

set_option autoImplicit false

namespace Kiter.Untimed

/-- `getEdgeIn`, `getEdgeOut`: tokens produced or consumed by all the phases of a task (models/Dataflow.h). -/
def made (c : BChannel) : Int := c.1.inPhases.sum
def used (c : BChannel) : Int := c.1.outPhases.sum

/-- `ForInputEdges`, `ForOutputEdges`. -/
def inputs (B : BaseGraph) (t : KTask) : List BChannel := B.channels.filter fun c => decide (c.2.2.id = t.id)
def outputs (B : BaseGraph) (t : KTask) : List BChannel := B.channels.filter fun c => decide (c.2.1.id = t.id)

/-- `total`, `remained_execution`, `buffer_content` (symbolic_execution.cpp:86-99, 202-214). -/
structure Exec where
  total : Int
  remained : Int → Int
  content : Int → Int

/-- The variables before the loop, for `iterations` iterations (lines 86-99; 1 iteration in lines 202-214). -/
def start (B : BaseGraph) (iterations : Int) : Exec :=
  ⟨(B.tasks.map fun t => t.ni * iterations).sum,
   fun i => ((B.tasks.find? fun t => t.id = i).map fun t => t.ni * iterations).getD 0,
   fun i => ((B.channels.find? fun c => c.1.id = i).map fun c => c.1.preload).getD 0⟩

/-- `can_execute` (lines 119-131, 222-234). -/
def canExecute (B : BaseGraph) (s : Exec) (t : KTask) : Bool :=
  decide (0 < s.remained t.id) && (inputs B t).all fun c => decide (used c ≤ s.content c.1.id)

/-- Tokens are taken from the inputs (lines 141-144, 241-243). -/
def take (l : List BChannel) (m : Int → Int) : Int → Int :=
  l.foldl (fun m c => Function.update m c.1.id (m c.1.id - used c)) m

/-- Tokens are put in the outputs (lines 158-159, 245-247). -/
def put (l : List BChannel) (m : Int → Int) : Int → Int :=
  l.foldl (fun m c => Function.update m c.1.id (m c.1.id + made c)) m

/-- An execution of `t` (lines 133-185, 236-249). -/
def execute (B : BaseGraph) (s : Exec) (t : KTask) : Exec :=
  ⟨s.total - 1, Function.update s.remained t.id (s.remained t.id - 1), put (outputs B t) (take (inputs B t) s.content)⟩

/-- The body of the loop over the tasks. -/
def visit (B : BaseGraph) (s : Exec) (t : KTask) : Exec := if canExecute B s t then execute B s t else s

/-- A turn of the `while` loop (lines 219-253). -/
def pass (B : BaseGraph) (s : Exec) : Exec := B.tasks.foldl (visit B) s

/-- `n` turns of `while (total > 0)`, or less. -/
def passes (B : BaseGraph) (s : Exec) : ℕ → Exec
  | 0 => s
  | n + 1 => if 0 < (passes B s n).total then pass B (passes B s n) else passes B s n

/-- `symbolic_execution`, if the loop ends within `n` turns: `return total == 0` (line 257). -/
def symbolicExecution (B : BaseGraph) (n : ℕ) : Option Bool :=
  let s := passes B (start B 1) n
  if 0 < s.total then none else some (decide (s.total = 0))

/-! ### With packets -/

/-- A line of `print_packet_line` (lines 18-40): `src`, `dst`, duration, packet number and dependencies; the bank number is 0. The
line shows `(src - 1) % 16` and `(dst - 1) % 16`. -/
structure Packet where
  src : Int
  dst : Int
  duration : ℚ
  pid : ℕ
  deps : List ℕ
deriving DecidableEq, Repr

/-- The variables of the loop (lines 110-112), the value of `psize`, and what has been printed. -/
structure Trace where
  exec : Exec
  psize : Int
  count : ℕ
  edge : Int → Option ℕ
  last : Int → Option ℕ
  lines : List Packet

/-- The loop `while (datatotransfert)` (lines 174-182) over the `n` packets of an edge: each depends on `deps` and on the previous
one. -/
def sendPackets (src dst : Int) (deps : List ℕ) : ℕ → ℕ → ℕ → List Packet
  | 0, _, _ => []
  | n + 1, previous, count => ⟨src, dst, 0, count, deps ++ [previous]⟩ :: sendPackets src dst deps n count (count + 1)

/-- The body of the loop over the output edges (lines 158-183); the content is updated by `put`. Packets of unset size take the
size of the first transfer for all that follow (line 167). `datatotransfert` reaches 0 only when it is a multiple of the
size of packets: otherwise the loop does not end, which is `none`. -/
def send (t : KTask) (deps : List ℕ) (compute : ℕ) (s : Trace) (c : BChannel) : Option Trace :=
  let psize := if s.psize = 0 then made c else s.psize
  if made c = 0 then some { s with psize := psize }
  else if 0 < psize ∧ 0 ≤ made c ∧ psize ∣ made c then
    let n := (made c / psize).toNat
    some { s with psize := psize, count := s.count + n, edge := Function.update s.edge c.1.id (some (s.count + n - 1)),
                  lines := s.lines ++ sendPackets t.id c.2.2.id deps n compute s.count }
  else none

/-- The body of the loop over the tasks (lines 118-186). -/
def visitP (B : BaseGraph) (s : Trace) (t : KTask) : Option Trace :=
  if canExecute B s.exec t then
    let deps := (inputs B t).filterMap fun c => s.edge c.1.id                                -- lines 141-144
    let line : Packet := ⟨t.id, t.id, t.durations.sum, s.count, deps ++ (s.last t.id).toList⟩   -- lines 147-154
    (outputs B t).foldlM (send t deps s.count)
      { s with exec := execute B s.exec t, count := s.count + 1, last := Function.update s.last t.id (some s.count),
               lines := s.lines ++ [line] }
  else some s

/-- `n` turns of the loop, or less. -/
def passesP (B : BaseGraph) (s : Trace) : ℕ → Option Trace
  | 0 => some s
  | n + 1 => (passesP B s n).bind fun s => if 0 < s.exec.total then B.tasks.foldlM (visitP B) s else some s

/-- `symbolic_execution_with_packets`: the lines printed, if the loop ends within `n` turns. Only tasks with one phase are supported
(line 49). -/
def packetTrace (B : BaseGraph) (psize iterations : Int) (n : ℕ) : Option (List Packet) :=
  if B.tasks.all (fun t => t.durations.length = 1) then
    (passesP B ⟨start B iterations, psize, 0, fun _ => none, fun _ => none, []⟩ n).bind fun s =>
      if 0 < s.exec.total then none else some s.lines
  else none

end Kiter.Untimed
