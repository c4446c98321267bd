/-
Model of the comparison with SDF3 (src/libkiter/algorithms/throughput/SDF3Wrapper.cpp:13-44 and
transformation/bug_explorer.cpp:20-45).

What the SDF3 program prints is an input (`Str`, the bytes it writes to its standard output). Reading a floating point number
from a word (`stream >> t`) is a parameter `readT`. Kiter's own throughput is an input of `compare`; the writing of the graph and
the failure of `popen` are not modelled.
-/
import Verif.Model.Text
import Mathlib.Algebra.Order.Ring.Rat

set_option autoImplicit false

namespace Kiter
namespace Sdf3Run

open Text

/-- `fgets` with room for `k` characters (SDF3Wrapper.cpp:28): what is read, through the first newline, and what is left. -/
def fgets : ℕ → Str → Str × Str
  | 0, s => ([], s)
  | _ + 1, [] => ([], [])
  | k + 1, c :: s => if c = '\n' then ([c], s) else (c :: (fgets k s).1, (fgets k s).2)

/-- The loop on the pipe (SDF3Wrapper.cpp:26-30): the buffer has 128 bytes, one of them for the final zero, and is appended as a
C string, up to its first zero. `none`: out of fuel. -/
def drain : ℕ → Str → Str → Option Str
  | 0, _, _ => none
  | f + 1, s, result =>
    if s = [] then some result
    else drain f (fgets 127 s).2 (result ++ (fgets 127 s).1.takeWhile fun c => c ≠ Char.ofNat 0)

/-- The throughput found in the text (SDF3Wrapper.cpp:33-41). -/
def parse (readT : Str → ℚ) (result : Str) : ℚ :=
  match split result '\n' with
  | [l, _] => match split l '=' with
    | [_, v] => readT v
    | _ => 0
  | _ => 0

/-- `runSDF3Throughput` (SDF3Wrapper.cpp:13-44) when SDF3 prints `out`. -/
def runSDF3 (readT : Str → ℚ) (out : Str) : Option ℚ := (drain (out.length + 1) out []).map (parse readT)

/-- `compare_sdf3_throughput` (bug_explorer.cpp:31-45) when Kiter's throughput is `kiter` and SDF3 prints `out`: the printed `SDF3`
and `result`. -/
def compare (readT : Str → ℚ) (eps kiter : ℚ) (out : Str) : Option (ℚ × Bool) := do
  let sdf3 ← runSDF3 readT out
  some (sdf3, !decide (|sdf3 - kiter| > eps))

end Sdf3Run
end Kiter
