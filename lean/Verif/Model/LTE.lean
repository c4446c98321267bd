/-
The generator of LTE graphs (generators/LTEGeneator.cpp).
-/
import Verif.Model.KIter
import Verif.Model.Repetition

set_option autoImplicit false

namespace Kiter.LTE

/-- `phase_info` (LTEGenerator.h:20-25). -/
structure Layer where
  thds : Int
  time : ℚ
  pkts : Int
  name : String
deriving DecidableEq

/-- Number of turns of `for (int j = 0; j < ph_thds; j++)` (LTEGeneator.cpp:36). -/
def Layer.width (L : Layer) : ℕ := L.thds.toNat

/-- The parameters and the four layers (LTEGeneator.cpp:14-25); `param` gives the value of a parameter that was passed, as a number. -/
def layers (param : String → Option Int) : List Layer :=
  [⟨(param "miwf").getD 64, 392504, 16, "miwf"⟩, ⟨(param "cwac").getD 75, 230635, 32, "cwac"⟩,
   ⟨(param "ifft").getD 24, 353448, 32, "ifft"⟩, ⟨(param "dd").getD 75, 267559, 32, "dd"⟩]

/-- The vertices in the order of their creation (LTEGeneator.cpp:28-49): name and duration. The vertex number `v` has the id `v + 1`
(`addVertex`, Dataflow.h:302, 363-367). -/
def vertices (ls : List Layer) : List (String × ℚ) :=
  ls.flatMap fun L => (List.range L.width).map fun j => (L.name ++ "_" ++ toString j, L.time)

/-- The edges in the order of their creation (LTEGeneator.cpp:52-69): numbers of source and target, and packets; `n` is the number of
the first vertex of the first layer. The edge number `e` has the id `e + 1` and the name `channel_` followed by the id. -/
def edges : ℕ → List Layer → List (ℕ × ℕ × Int)
  | n, L :: L' :: ls =>
    ((List.range L.width).flatMap fun j => (List.range L'.width).map fun k => (n + j, n + L.width + k, L.pkts)) ++ edges (n + L.width) (L' :: ls)
  | _, _ => []

/-- The graph as `computeRepetitionVector` reads it: one phase per task, `pkts` produced and consumed. -/
def repOf (n : ℕ) (es : List (ℕ × ℕ × Int)) : Option (Rep.Graph n es.length) :=
  if h : ∀ i : Fin es.length, es[i].1 < n ∧ es[i].2.1 < n then
    some ⟨fun i => ⟨es[i].1, (h i).1⟩, fun i => ⟨es[i].2.1, (h i).2⟩, fun i => [es[i].2.2], fun i => [es[i].2.2], fun _ => 1⟩
  else none

/-- The tasks with their numbers of executions, reentrancy 1 (LTEGeneator.cpp:43-45). -/
def tasks (vs : List (String × ℚ)) (N : Fin vs.length → Int) : List KTask :=
  (List.finRange vs.length).map fun v : Fin vs.length => ⟨((v : ℕ) : Int) + 1, [vs[v].2], [], 1, N v⟩

/-- The channels with their end tasks (LTEGeneator.cpp:59-66), no initial tokens; the greatest common divisor of the two equal rates is
the rate. -/
def channels (ts : List KTask) (es : List (ℕ × ℕ × Int)) : Option (List BChannel) :=
  es.zipIdx.mapM fun e => (ts[e.1.1]?).bind fun s => (ts[e.1.2.1]?).map fun t => (⟨(e.2 : Int) + 1, [e.1.2.2], [e.1.2.2], [], [], 0, e.1.2.2⟩, s, t)

/-- `generate_lte_sdf` followed by `computeRepetitionVector`: the graph the analyses see. `none` when the repetition vector fails. -/
def generate (param : String → Option Int) : Option BaseGraph :=
  let vs := vertices (layers param)
  let es := edges 0 (layers param)
  (repOf vs.length es).bind fun g => (Rep.compute g).bind fun o => o.bind fun N =>
    (channels (tasks vs N) es).map fun cs => ⟨tasks vs N, cs⟩

end Kiter.LTE
