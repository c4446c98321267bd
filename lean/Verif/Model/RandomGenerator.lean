/-
Model of the random generator, src/libkiter/generators/RandomGenerator.cpp.

The random engine is an arbitrary sequence of numbers `r`; `uniform_int_distribution(a, b)` takes the next one into the
range from `a` to `b` (and every value of the range is taken for some sequence). With `b < a` the distribution is
undefined: `none`. The reentrancy factors, the names of the graph and what is printed are left out.
`max_duration` is its integral part (it is cast to an integer when used; the check `1 <= max_duration` is the same).
-/
import Verif.Model.Dataflow
import Mathlib.Data.List.Sort

set_option autoImplicit false

namespace Kiter.Gen

open DF

/-- `RandomGeneratorConfiguration` (RandomGenerator.h:15-29). -/
structure Config where
  minV : Int
  minE : Int
  maxV : Int
  maxE : Int
  maxWeight : Int
  maxDuration : Int
  maxPhases : Int
  maxInit : Int
  noSelfLoop : Bool
deriving DecidableEq

/-- A computation that draws: the position in the sequence of draws is its state. -/
abbrev M := StateT Nat Option

/-- One draw from `uniform_int_distribution(a, b)`. -/
def draw (r : Nat → Nat) (a b : Int) : M Int := fun i =>
  if a ≤ b then some (a + (r i : Int) % (b - a + 1), i + 1) else none

/-- `n` draws. -/
def draws (r : Nat → Nat) (a b : Int) : Nat → M (List Int)
  | 0 => pure []
  | n + 1 => do
    let x ← draw r a b
    let l ← draws r a b n
    pure (x :: l)

/-- The differences of a list of increasing cumulated values (RandomGenerator.cpp:224-228, 230-234, 236-240, 242-246). -/
def diffs : Int → List Int → List Int
  | _, [] => []
  | cumul, x :: l => (x - cumul) :: diffs (cumul + (x - cumul)) l

/-- The rates of `n` phases with the total `w` (RandomGenerator.cpp:180-182 with 194-213 and 216-246): draw `n - 1` values, add
`w`, sort, take the differences of the first `n` values. The distribution from 0 to `w` is constructed in any case.
`std::sort` is modelled by its result. The draws and the differences for the four lists of a channel are interleaved in the code; each list is made of its own
draws only. -/
def sections (r : Nat → Nat) (w : Int) (n : Int) : M (List Int) := do
  let l ← draws r 0 w (n - 1).toNat
  pure ((l ++ [w]).insertionSort (· ≤ ·))

/-- The first `n` differences of the sorted sections. -/
def rates (sec : List Int) (n : Int) : List Int := diffs 0 (sec.take n.toNat)

/-- One task (RandomGenerator.cpp:112-147). The result is the graph and the weight of the task. -/
def genTask (r : Nat → Nat) (c : Config) (s : State) (i : Nat) : M (State × Int) := do
  let v := s.verts.length
  let s ← addVertexId s i
  let s ← setVertexName s v ("Node_" ++ toString i)
  let ip ← draw r 0 c.maxInit
  let p ← draw r 1 c.maxPhases
  let s ← setIPhases s v ip
  let s ← setPhases s v p
  let idurs ← draws r 1 c.maxDuration ip.toNat
  let durs ← draws r 1 c.maxDuration p.toNat
  let s ← setDurs s v (durs.map fun x : Int => (x : ℚ))
  let s ← setIDurs s v (idurs.map fun x : Int => (x : ℚ))
  let z ← draw r 1 c.maxWeight
  pure (s, z)

/-- The tasks `i`, `i + 1`, … (`n` of them) with their weights. -/
def genTasks (r : Nat → Nat) (c : Config) : Nat → Nat → State → M (State × List Int)
  | 0, _, s => pure (s, [])
  | n + 1, i, s => do
    let (s, z) ← genTask r c s i
    let (s, zs) ← genTasks r c n (i + 1) s
    pure (s, z :: zs)

/-- The target is drawn again while it is the source (RandomGenerator.cpp:157-160), at most `fuel` times. -/
def redraw (r : Nat → Nat) (nV : Int) (noSelfLoop : Bool) (src : Int) : Nat → Int → M Int
  | 0, _ => fun _ => none
  | fuel + 1, dst =>
    if noSelfLoop = true ∧ src = dst then do
      let d ← draw r 1 nV
      redraw r nV noSelfLoop src fuel d
    else pure dst

/-- `a / b` of two positive `long` values. -/
def quot (a b : Int) : Option Int := if b = 0 then none else some (a.tdiv b)

/-- One channel (RandomGenerator.cpp:150-262), `zs` the weights of the tasks. `std::round` of an integer is that integer. -/
def genEdge (r : Nat → Nat) (c : Config) (nV : Int) (zs : List Int) (fuel : Nat) (s : State) (i : Nat) : M State := do
  let src ← draw r 1 nV
  let dst ← draw r 1 nV
  if c.noSelfLoop = true ∧ s.verts.length ≤ 1 then fun _ => none
  let dst ← redraw r nV c.noSelfLoop src fuel dst
  let a ← vertexById s src
  let b ← vertexById s dst
  let zin ← zs[(src - 1).toNat]?
  let zout ← zs[(dst - 1).toNat]?
  let g : Int := Int.gcd zin zout
  let kin ← quot zin g
  let kout ← quot zout g
  let f1 ← quot c.maxWeight kin
  let f2 ← quot c.maxWeight kout
  let factor ← draw r 1 (min f1 f2)
  let win := kin * factor
  let wout := kout * factor
  let winInit ← draw r 1 c.maxWeight
  let woutInit ← draw r 1 c.maxWeight
  let va ← s.verts[a]?
  let vb ← s.verts[b]?
  let insS ← sections r win va.phases
  let outsS ← sections r wout vb.phases
  let iinsS ← sections r winInit va.iphases
  let ioutsS ← sections r woutInit vb.iphases
  let k := s.nextKey
  let s ← namedE (addEdgeUnsafe s a b i) ("buffer_" ++ toString i)
  let s ← setEdgeIn s k (rates insS va.phases)
  let s ← setEdgeOut s k (rates outsS vb.phases)
  let s ← setEdgeIIn s k (rates iinsS va.iphases)
  let s ← setEdgeIOut s k (rates ioutsS vb.iphases)
  pure s

/-- The channels `i`, `i + 1`, … (`n` of them). -/
def genEdges (r : Nat → Nat) (c : Config) (nV : Int) (zs : List Int) (fuel : Nat) : Nat → Nat → State → M State
  | 0, _, s => pure s
  | n + 1, i, s => do
    let s ← genEdge r c nV zs fuel s i
    genEdges r c nV zs fuel n (i + 1) s

/-- `RandomGenerator::generate` (RandomGenerator.cpp:75-272) up to the initial marking. The distributions of lines 102 and
103 are constructed over 1 to the number of tasks and of channels. -/
def shape (r : Nat → Nat) (c : Config) (fuel : Nat) : M State := do
  if ¬ (c.minV ≤ c.maxV ∧ c.minE ≤ c.maxE ∧ 1 ≤ c.maxDuration ∧ 1 ≤ c.maxWeight ∧ 1 ≤ c.maxPhases ∧ 0 ≤ c.maxInit) then
    fun _ => none
  let nV ← draw r c.minV c.maxV
  let nE ← draw r c.minE c.maxE
  if nV < 1 ∨ nE < 1 then fun _ => none
  let (s, zs) ← genTasks r c nV.toNat 1 empty
  genEdges r c nV zs fuel nE.toNat 1 s

/-- `set_initial_marking` (RandomGenerator.cpp:46-72), at most `fuel` turns. `critical` stands for the K-periodic analysis: it
returns nothing when the throughput is positive, else the first channel of the critical circuit; it may also fail. The
throughput analysis makes the graph read-only and may fill caches; `computeRV` does so here. -/
def marking (critical : State → Option (Option Nat)) : Nat → State → Option State
  | 0, _ => none
  | fuel + 1, s => do
    let (ok, s) ← computeRV s
    if ok then
      (critical s).bind fun c =>
        match c with
        | none => some s
        | some k => do
          let e ← edge s k
          let s := reset s
          let (g, s) ← getFineGCD s k
          let s ← setPreload s k (e.preload + g)
          marking critical fuel s
    else none

/-- `RandomGenerator::generate` (RandomGenerator.cpp:75-289), with a bound for the draws of targets and one for the turns of the
initial marking. -/
def generate (r : Nat → Nat) (c : Config) (critical : State → Option (Option Nat)) (fuel turns : Nat) : Option State := do
  let (s, _) ← (shape r c fuel).run 0
  marking critical turns s

end Kiter.Gen
