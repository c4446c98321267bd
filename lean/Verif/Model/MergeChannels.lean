/-
Model of the part of `mergeCSDFFromSchedule` (src/libkiter/algorithms/transformation/merging.cpp) that takes the merged tasks out of the
graph and puts the new task with its channels in (193-224, 308-357, 521-571, 598-693).

Simplifications: a graph is the list of its task identifiers and of its channels; the channels of a task are listed in the order of
the graph; names of tasks, durations and the reentrancy factor are left out (durations: Model/Merging.lean). `none` is a failed
assertion or an access out of bounds.
-/
import Verif.Model.Merging
import Mathlib.Data.List.Sort

set_option autoImplicit false

namespace Kiter.MergeChan

/-- `edge_infos` (merging.cpp:193-224), a channel as stored. -/
structure Chan where
  id : ℕ
  name : String
  src : ℕ
  dst : ℕ
  inPer : List Int
  inIni : List Int
  outPer : List Int
  outIni : List Int
  preload : Int
  type : ℕ

/-- The graph and `auto_vertex_num`. -/
structure Net where
  tasks : List ℕ
  chans : List Chan
  auto : ℕ

/-- `input_edges` (for `fin = Chan.dst`) and `output_edges` (for `fin = Chan.src`) in the order in which they are gone through, which is
that of the keys of a map (merging.cpp:314-334, 524-525, 608-614). -/
def stored (fin : Chan → ℕ) (g : Net) (ids : List ℕ) : List Chan :=
  (ids.insertionSort (· ≤ ·)).flatMap fun v => g.chans.filter fun c => decide (fin c = v)

/-- The merged tasks are removed one by one, with their channels (merging.cpp:351-357, Dataflow.h:402). -/
def removeAll (g : Net) : List ℕ → Option Net
  | [] => some g
  | v :: rest =>
    if v ∈ g.tasks then
      removeAll ⟨g.tasks.erase v, g.chans.filter fun c => decide (c.src ≠ v) && decide (c.dst ≠ v), g.auto⟩ rest
    else none

/-- `addVertex()`: the identifier of the new task (Dataflow.h:363-367). -/
def freshId (auto : ℕ) (tasks : List ℕ) : ℕ := tasks.foldl (fun a v => if v ≥ a then v + 1 else a) auto

/-- `new_input_edge_rates` and `new_output_edge_rates`, maps with the identifiers of the channels as keys (merging.cpp:524-547,
550-571). -/
def ratesMap (rates : Chan → Option (List Int)) : List Chan → (ℕ → Option (List Int)) → Option (ℕ → Option (List Int))
  | [], m => some m
  | c :: rest, m =>
    match rates c with
    | none => none
    | some r => ratesMap rates rest (fun k => if k = c.id then some r else m k)

/-- The two loops that put the channels in (merging.cpp:610-646 with `other = Chan.src`, 650-691 with `other = Chan.dst`): channels
between merged tasks are skipped, the other end must be in the graph and the rates in the map. -/
def addSide (ids tasks : List ℕ) (other : Chan → ℕ) (make : Chan → List Int → Chan) (m : ℕ → Option (List Int)) :
    List Chan → List Chan → Option (List Chan)
  | [], acc => some acc
  | c :: rest, acc =>
    if c.src ∈ ids ∧ c.dst ∈ ids then addSide ids tasks other make m rest acc
    else if other c ∈ tasks then
      match m c.id with
      | none => none
      | some r => addSide ids tasks other make m rest (acc ++ [make c r])
    else none

/-- The new channel into the merged task (merging.cpp:625-644). -/
def makeInput (new e : ℕ) (c : Chan) (r : List Int) : Chan :=
  ⟨c.id, c.name, c.src, new, c.inPer, c.inIni, (Merging.cutRates e r).2, (Merging.cutRates e r).1, c.preload, c.type⟩

/-- The new channel out of the merged task (merging.cpp:667-689). -/
def makeOutput (new e : ℕ) (c : Chan) (r : List Int) : Chan :=
  ⟨c.id, c.name, new, c.dst, (Merging.cutRates e r).2, (Merging.cutRates e r).1, c.outPer, c.outIni, c.preload, c.type⟩

/-- The whole change of the graph, for the executions `seq` of which the first `e` are initial phases (merging.cpp:308-357, 521-571,
598-693). -/
def mergeChannels (g : Net) (ids : List ℕ) (seq : List Merging.Exec) (e : ℕ) : Option Net :=
  match removeAll g ids with
  | none => none
  | some g1 =>
    let new := freshId g1.auto g1.tasks
    let tasks := g1.tasks ++ [new]
    match ratesMap (fun c => Merging.mergedRates seq c.dst c.outIni c.outPer) (stored Chan.dst g ids) (fun _ => none),
      ratesMap (fun c => Merging.mergedRates seq c.src c.inIni c.inPer) (stored Chan.src g ids) (fun _ => none) with
    | some mi, some mo =>
      match addSide ids tasks Chan.src (makeInput new e) mi (stored Chan.dst g ids) g1.chans with
      | none => none
      | some l =>
        match addSide ids tasks Chan.dst (makeOutput new e) mo (stored Chan.src g ids) l with
        | none => none
        | some l' => some ⟨tasks, l', new + 1⟩
    | _, _ => none

end Kiter.MergeChan
