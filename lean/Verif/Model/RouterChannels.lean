/-
Model of the last loop of `mergeConfigNodesInit` (src/libkiter/algorithms/software_noc.cpp:1543-1608), which takes the channels of the merged
routers off and attaches them to the new one.

Simplifications: the channels of the graph are a list, the first channel of a task is the first of the list; identifiers and names
of channels are left out (the new ones get new ones). `none` is a task without input or output (its other end is then not
initialised) or a failed assertion.
-/
import Mathlib.Data.List.Basic

set_option autoImplicit false

namespace Kiter.RouterChan

/-- What the loop reads and writes of a channel (software_noc.cpp:1566-1583). -/
structure Chan where
  src : ℕ
  dst : ℕ
  inPer : List ℕ
  inIni : List ℕ
  outPer : List ℕ
  outIni : List ℕ
  preload : ℕ
  type : ℕ

/-- `periodic_token_vec` and `init_token_vec` (software_noc.cpp:1524-1538). -/
structure Tokens where
  per : ℕ → List ℕ
  ini : ℕ → List ℕ

/-- One turn of the loop (software_noc.cpp:1546-1607): the first input and then the first output of the router are removed, a channel
from the source of the first to the new task and one from the new task to the target of the second are added; `init` is the number of
initial phases of the new task, compared in the two assertions (1594, 1601). -/
def reattach (tok : Tokens) (init middle v : ℕ) (l : List Chan) : Option (List Chan) :=
  match l.find? fun c => decide (c.dst = v) with
  | none => none
  | some i =>
    let l1 := l.eraseP fun c => decide (c.dst = v)
    match l1.find? fun c => decide (c.src = v) with
    | none => none
    | some o =>
      let l2 := l1.eraseP fun c => decide (c.src = v)
      if (tok.ini v).length = init then
        some (l2 ++ [⟨i.src, middle, i.inPer, i.inIni, tok.per v, tok.ini v, i.preload, i.type⟩,
          ⟨middle, o.dst, tok.per v, tok.ini v, o.outPer, o.outIni, o.preload, o.type⟩])
      else none

/-- The loop over `mergeNodes` (software_noc.cpp:1543-1608). -/
def reattachAll (tok : Tokens) (init middle : ℕ) : List ℕ → List Chan → Option (List Chan)
  | [], l => some l
  | v :: rest, l =>
    match reattach tok init middle v l with
    | none => none
    | some l' => reattachAll tok init middle rest l'

end Kiter.RouterChan
