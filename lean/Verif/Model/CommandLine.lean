/-
Model of the registry of algorithms, /repo/src/libkiter/commons/KiterRegistry.h, and of the command
line of the tool, /repo/src/kiter/main.cpp.

Simplifications.
* `std::map<std::string, X>` is a partial function.
* The options are the sequence that `getopt` delivers for "f:g:a:v:p:h"; an unknown option and a
  missing argument are `other`.  `-v` only changes what is printed.
* A graph is an element of a type `G`; reading a file and running a generator or an algorithm are
  functions given from outside that return (an algorithm that ends the process itself is not
  modelled).  What is printed and the durations measured are left out.
-/
import Mathlib.Data.List.Basic
import Mathlib.Logic.Function.Basic

set_option autoImplicit false

namespace Kiter.Cli

abbrev Str := List Char

/-! ### The registry -/

/-- KiterRegistry.h 68-71: the map, empty at the start. -/
abbrev Registry (E : Type) := Str → Option E

/-- KiterRegistry.h 45-50, `add`: the result and the map afterwards. -/
def regAdd {E : Type} (name : E → Str) (m : Registry E) (t : E) : Bool × Registry E :=
  if (m (name t)).isSome then (false, m) else (true, Function.update m (name t) (some t))

/-- KiterRegistry.h 52-56, `get`. -/
def regGet {E : Type} (m : Registry E) (name : Str) : Option E :=
  if (m name).isNone then none else m name

/-- The results of a sequence of registrations and the map at the end. -/
def regAll {E : Type} (name : E → Str) : Registry E → List E → List Bool × Registry E
  | m, [] => ([], m)
  | m, t :: l =>
    let r := regAdd name m t
    let rest := regAll name r.2 l
    (r.1 :: rest.1, rest.2)

/-! ### The command line -/

/-- main.cpp 60: what `getopt` delivers. -/
inductive Opt
  | f (arg : Str) | g (arg : Str) | a (arg : Str) | v (arg : Str) | p (arg : Str) | h | other
  deriving DecidableEq

/-- KiterRegistry.h, `parameters_list_t`. -/
abbrev Params := Str → Option Str

/-- main.cpp 52-55: the variables of `main`. -/
structure Args where
  filename : Str
  algos : List (Str × Params)
  generators : List (Str × Params)
  parameters : Params

/-- main.cpp 52-55: their initial values. -/
def start : Args := ⟨[], [], [], fun _ => none⟩

/-- main.cpp 77-82: the position of the first `=` splits the argument; without one it is ignored. -/
def setParam (m : Params) (arg : Str) : Params :=
  if '=' ∈ arg then
    Function.update m (arg.takeWhile (· ≠ '=')) (some ((arg.dropWhile (· ≠ '=')).drop 1))
  else m

/-- main.cpp 60-92: the loop; `none` is the exit after the usage text. -/
def parse : Args → List Opt → Option Args
  | s, [] => some s
  | s, .f x :: l => parse { s with filename := x } l
  | s, .a x :: l =>
    parse { s with algos := s.algos ++ [(x, s.parameters)], parameters := fun _ => none } l
  | s, .g x :: l =>
    parse { s with generators := s.generators ++ [(x, s.parameters)], parameters := fun _ => none } l
  | s, .v _ :: l => parse s l
  | s, .p x :: l => parse { s with parameters := setParam s.parameters x } l
  | _, .h :: _ => none
  | s, .other :: l => parse s l

/-- main.cpp 166: `insert` keeps the entries that exist. -/
def insertAll (own leftover : Params) : Params := fun k =>
  match own k with
  | some v => some v
  | none => leftover k

/-- The functions that `main` calls. -/
structure Env (G : Type) where
  read : Str → Option G
  generator : Str → Option (Params → Option G)
  algorithm : Str → Option (Params → G → G)

/-- What a run did: the generators and algorithms called, with the parameters they received, in
order; the graph at the end; the exit code. -/
structure Run (G : Type) where
  generated : List (Str × Params)
  calls : List (Str × Params)
  graph : Option G
  code : Nat

/-- main.cpp 121-136: the generators, in order; the flag says that an unknown one was met. -/
def runGenerators {G : Type} (env : Env G) :
    Option G → List (Str × Params) → List (Str × Params) × Option G × Bool
  | g, [] => ([], g, true)
  | g, (name, ps) :: l =>
    match env.generator name with
    | none => ([], g, false)
    | some fn =>
      let r := runGenerators env (fn ps) l
      ((name, ps) :: r.1, r.2)

/-- main.cpp 156-171: the algorithms, in order. -/
def runAlgorithms {G : Type} (env : Env G) (leftover : Params) :
    G → List (Str × Params) → List (Str × Params) × G × Bool
  | g, [] => ([], g, true)
  | g, (name, own) :: l =>
    match env.algorithm name with
    | none => ([], g, false)
    | some fn =>
      let ps := insertAll own leftover
      let r := runAlgorithms env leftover (fn ps g) l
      ((name, ps) :: r.1, r.2)

/-- main.cpp 104-175, once the arguments are known. -/
def execute {G : Type} (env : Env G) (s : Args) : Run G :=
  let file : Option G := if s.filename ≠ [] then env.read s.filename else none
  let gen : List (Str × Params) × Option G × Bool :=
    match file with
    | some g => ([], some g, true)
    | none => runGenerators env none s.generators
  if gen.2.2 then
    match gen.2.1 with
    | none => ⟨gen.1, [], none, 1⟩
    | some g =>
      let r := runAlgorithms env s.parameters g s.algos
      ⟨gen.1, r.1, some r.2.1, if r.2.2 then 0 else 1⟩
  else ⟨gen.1, [], gen.2.1, 1⟩

/-- main.cpp 48-177, `main`. -/
def main {G : Type} (env : Env G) (options : List Opt) : Run G :=
  match parse start options with
  | none => ⟨[], [], none, 0⟩
  | some s => execute env s

end Kiter.Cli
