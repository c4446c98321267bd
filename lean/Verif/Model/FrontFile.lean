/-
Model of the file of Pareto points (src/libkiter/algorithms/dse/buffer_sizing.cpp:175-195, 796-812), written at the end of a
buffer exploration (dse.cpp:500-508).

The edges of a distribution are `Fin n`, in the order of the graph (`ForEachEdge`). A throughput goes through the stream's
formatting of floating point numbers, which is a parameter `fmt`. Failing writes are not modelled.
-/
import Verif.Model.KneeSearch
import Verif.Model.Text

set_option autoImplicit false

namespace Kiter
namespace FrontFile

open Text

variable {n : ℕ}

/-- The loop of `print_quantities_csv` (buffer_sizing.cpp:185-192): the text so far, the delimiter, the number of edges seen. -/
def quantitiesLoop (limit : ℕ) (d : SD n) : List (Fin n) → Str → Str → ℕ → Str
  | [], out, _, _ => out
  | e :: l, out, delim, count =>
    if count ≥ limit then quantitiesLoop limit d l (out ++ delim ++ showInt (d.quantity e)) [','] (count + 1)
    else quantitiesLoop limit d l out delim (count + 1)

/-- `StorageDistribution::print_quantities_csv` (buffer_sizing.cpp:175-195). -/
def quantitiesCsv (bounded : Bool) (d : SD n) : Str :=
  quantitiesLoop (if bounded then n / 2 else 0) d (List.finRange n) ['"'] [] 0 ++ ['"']

/-- The line of headers (buffer_sizing.cpp:802-804), without its end. -/
def headers : Str := "storage distribution size;throughput;channel quantities".toList

/-- One line (buffer_sizing.cpp:807-808): the size is the key of the bucket. -/
def line (fmt : ℚ → Str) (bounded : Bool) (key : Int) (d : SD n) : Str :=
  showInt key ++ [';'] ++ fmt d.thr ++ [';'] ++ quantitiesCsv bounded d ++ ['\n']

/-- `StorageDistributionSet::writeCSV` (buffer_sizing.cpp:796-812). -/
def writeCSV (fmt : ℚ → Str) (bounded : Bool) (s : SDSet n) : Str :=
  headers ++ ['\n'] ++ s.buckets.flatMap fun b => b.2.flatMap fun d => line fmt bounded b.1 d

end FrontFile
end Kiter
