/-
Model of the interface to the linear programming solver (src/libkiter/lp/glpsol.h, src/libkiter/lp/glpsol.cpp): how rows,
columns and coefficients are recorded, how the GLPK problem is made, how GLPK is called and how its values are read.

GLPK is modelled by what its manual says: a problem is a list of rows, a list of columns (numbered from 1) and a matrix;
new rows are free and new columns are fixed to 0; loading a matrix fails on numbers out of range. What GLPK answers is a
parameter. Simplifications: double is ℚ; `eps` is the machine epsilon of `commons::AreSame` (commons.h:446-448); exceptions,
failed assertions and GLPK aborts are `none`; maps are lists in order of insertion (no result depends on the order of the
names, because rows and columns carry their number); names of the problem, scaling, and the parameters of the methods
do not appear.
-/
import Mathlib.Data.Rat.Defs
import Mathlib.Algebra.Order.Field.Rat
import Mathlib.Algebra.Order.Ring.Abs

set_option autoImplicit false

namespace Kiter.LpB

/-- `ValueKind` (glpsol.h:101). -/
inductive Kind | continuous | boolean | integer
  deriving DecidableEq

/-- `BoundType` (glpsol.h:102). -/
inductive BoundType | free | fixed | upper | lower | double
  deriving DecidableEq

/-- `bound_s` (glpsol.h:138-149). -/
structure Bound where
  type : BoundType
  up : ℚ
  down : ℚ
  deriving DecidableEq

/-- `bound_s()` (glpsol.h:142). -/
def noBound : Bound := ⟨.free, 0, 0⟩

/-- `bound_s(bt, i)` (glpsol.h:143-144). -/
def oneBound (t : BoundType) (i : ℚ) : Option Bound := if t = .double then none else some ⟨t, i, i⟩

/-- `bound_s(bt, i, j)` (glpsol.h:146-147). -/
def twoBounds (t : BoundType) (i j : ℚ) : Option Bound := if t = .double then some ⟨t, i, j⟩ else none

/-- `row` (glpsol.h:165-172). -/
structure Row where
  name : String
  indice : ℕ
  bound : Bound
  critical : Bool
  deriving DecidableEq

/-- `column` (glpsol.h:153-163). -/
structure Column where
  name : String
  indice : ℕ
  kind : Kind
  bound : Bound
  found : ℚ
  intFound : ℚ
  coef : ℚ
  deriving DecidableEq

/-- `GLPSol` (glpsol.h:227-255): `rowsMap`, `columnsMap`, `coefs`, `coefs_size`, `integer`, `bounded`. -/
structure GLPSol where
  rows : List Row
  columns : List Column
  coefs : List (ℕ × ℕ × ℚ)
  size : ℕ
  integer : Bool
  bounded : Bool

/-- The constructor (glpsol.cpp:15-34). -/
def new : GLPSol := ⟨[], [], [], 0, false, false⟩

/-- `getRow` (glpsol.h:309-316). -/
def GLPSol.getRow (g : GLPSol) (s : String) : Option ℕ := (g.rows.find? fun r => decide (r.name = s)).map Row.indice

/-- `getColumn` (glpsol.h:317-325). -/
def GLPSol.getColumn (g : GLPSol) (s : String) : Option ℕ := (g.columns.find? fun c => decide (c.name = s)).map Column.indice

/-- `addRow` (glpsol.h:260-269): an existing name is refused. -/
def GLPSol.addRow (g : GLPSol) (s : String) (b : Bound) : Option (GLPSol × ℕ) :=
  if (g.getRow s).isSome then none
  else some ({ g with rows := g.rows ++ [⟨s, g.rows.length + 1, b, false⟩] }, g.rows.length + 1)

/-- `addColumn` (glpsol.h:273-279): `insert` does nothing for an existing name; the number returned is the next one anyway. -/
def GLPSol.addColumn (g : GLPSol) (s : String) (k : Kind) (b : Bound) (coef : ℚ) : GLPSol × ℕ :=
  (if (g.getColumn s).isSome then g else { g with columns := g.columns ++ [⟨s, g.columns.length + 1, k, b, 0, 0, coef⟩] },
    g.columns.length + 1)

/-- `coefs[r][c] = v`. -/
def setCoef (l : List (ℕ × ℕ × ℚ)) (r c : ℕ) (v : ℚ) : List (ℕ × ℕ × ℚ) :=
  if l.any fun e => decide (e.1 = r ∧ e.2.1 = c) then l.map fun e => if e.1 = r ∧ e.2.1 = c then (r, c, v) else e
  else l ++ [(r, c, v)]

/-- `fastAddCoef` (glpsol.h:280-285). -/
def GLPSol.fastAddCoef (eps : ℚ) (g : GLPSol) (r c : ℕ) (v : ℚ) : GLPSol :=
  if |v - 0| < eps then g else { g with coefs := setCoef g.coefs r c v, size := g.size + 1 }

/-- `addCoef` (glpsol.h:287-289). -/
def GLPSol.addCoef (eps : ℚ) (g : GLPSol) (r c : String) (v : ℚ) : Option GLPSol :=
  (g.getRow r).bind fun i => (g.getColumn c).map fun j => g.fastAddCoef eps i j v

/-- The calls by which a program describes a linear program. -/
inductive Call
  | row (s : String) (b : Bound)
  | column (s : String) (k : Kind) (b : Bound) (coef : ℚ)
  | coef (r c : String) (v : ℚ)

/-- One call. -/
def GLPSol.call (eps : ℚ) (g : GLPSol) : Call → Option GLPSol
  | .row s b => (g.addRow s b).map Prod.fst
  | .column s k b o => some (g.addColumn s k b o).1
  | .coef r c v => g.addCoef eps r c v

/-- A sequence of calls on a new object. -/
def build (eps : ℚ) (calls : List Call) : Option GLPSol := calls.foldlM (GLPSol.call eps) new

/-! ### GLPK -/

/-- A row or a column of GLPK: type, lower and upper bound, for a column also its kind and its coefficient in the objective. -/
structure GLine where
  type : BoundType
  lb : ℚ
  ub : ℚ
  kind : Kind
  obj : ℚ
  deriving DecidableEq

/-- A problem of GLPK. -/
structure Glpk where
  rows : List GLine
  columns : List GLine
  matrix : List (ℕ × ℕ × ℚ)
  deriving DecidableEq

/-- `glp_create_prob`. -/
def emptyGlpk : Glpk := ⟨[], [], []⟩

/-- Rows and columns added by `glp_add_rows` and `glp_add_cols`. -/
def freshRow : GLine := ⟨.free, 0, 0, .continuous, 0⟩
def freshColumn : GLine := ⟨.fixed, 0, 0, .continuous, 0⟩

/-- What is set for a row (glpsol.cpp:162-170): `glp_set_row_bnds(lp, i, type, lb = up, ub = down)`. -/
def rowLine (r : Row) : GLine := ⟨r.bound.type, r.bound.up, r.bound.down, .continuous, 0⟩

/-- What is set for a column (glpsol.cpp:172-182): `glp_set_col_bnds`, then `glp_set_col_kind`, which for a binary column sets the
bounds to 0 and 1, then `glp_set_obj_coef`. -/
def columnLine (c : Column) : GLine :=
  match c.kind with
  | .boolean => ⟨.double, 0, 1, .boolean, c.coef⟩
  | k => ⟨c.bound.type, c.bound.up, c.bound.down, k, c.coef⟩

/-- Sets the lines numbered by `idx`; GLPK aborts on numbers out of range. -/
def fill {α : Type} (idx : α → ℕ) (line : α → GLine) (items : List α) (lines : List GLine) : Option (List GLine) :=
  items.foldlM (fun l a => if 1 ≤ idx a ∧ idx a ≤ l.length then some (l.set (idx a - 1) (line a)) else none) lines

/-- `generateGLPKProblem` (glpsol.cpp:152-213) on a GLPK problem that may already have rows and columns. -/
def GLPSol.generate (g : GLPSol) (lp : Glpk) : Option (GLPSol × Glpk) :=
  (fill Row.indice rowLine g.rows (lp.rows ++ List.replicate g.rows.length freshRow)).bind fun rows =>
    (fill Column.indice columnLine g.columns (lp.columns ++ List.replicate g.columns.length freshColumn)).bind fun columns =>
      if g.coefs.length = g.size then                                                                 -- line 200
        if ∀ e ∈ g.coefs, 1 ≤ e.1 ∧ e.1 ≤ rows.length ∧ 1 ≤ e.2.1 ∧ e.2.1 ≤ columns.length then       -- line 201
          some ({ g with integer := g.integer || g.columns.any fun c => decide (c.kind ≠ .continuous) }, ⟨rows, columns, g.coefs⟩)
        else none
      else none

/-- The statuses of GLPK. -/
inductive Status | undefined | feasible | infeasible | noFeasible | optimal | unbounded | other
  deriving DecidableEq

/-- What GLPK answers on a problem: return codes and statuses of `glp_simplex`, `glp_exact`, `glp_interior`, `glp_intopt`, values of
the columns. -/
structure Answers where
  simplexRet : Int
  simplexStatus : Status
  exactRet : Int
  exactStatus : Status
  interiorRet : Int
  interiorStatus : Status
  intRet : Int
  mipStatus : Status
  prim : ℕ → ℚ
  interiorPrim : ℕ → ℚ
  mip : ℕ → ℚ

/-- `LinearAlgorithm` (glpsol.h:111-115). -/
inductive Algorithm | simplex | exact | interior
  deriving DecidableEq

/-- The `switch` on the status (glpsol.cpp:305-314 and 353-361): does the code go on? -/
def Status.goesOn : Status → Bool
  | .undefined => false
  | .feasible => true
  | .infeasible => false
  | .noFeasible => false
  | .optimal => true
  | .unbounded => true
  | .other => false

/-- The linear part (glpsol.cpp:235-305): the status if GLPK did not fail. -/
def linearStatus (alg : Algorithm) (a : Answers) : Option Status :=
  if alg = .interior then if a.interiorRet ≠ 0 then none else some a.interiorStatus
  else if a.simplexRet ≠ 0 then none
  else if a.simplexStatus = .noFeasible ∨ alg = .exact then if a.exactRet ≠ 0 then none else some a.exactStatus
  else some a.simplexStatus

/-- Reading the values (glpsol.cpp:368-372): `getColumnName` (lines 117-121) throws when no column has the number. -/
def GLPSol.readValues (g : GLPSol) (lp : Glpk) (alg : Algorithm) (a : Answers) : Option GLPSol :=
  if ∀ i ∈ List.range lp.columns.length, g.columns.any fun c => decide (c.indice = i + 1) then
    some { g with columns := g.columns.map fun c =>
      if 1 ≤ c.indice ∧ c.indice ≤ lp.columns.length then
        { c with found := (if alg = .interior then a.interiorPrim else a.prim) c.indice, intFound := a.mip c.indice }
      else c }
  else none

/-- `solve` (glpsol.cpp:215-375): result, object and GLPK problem afterwards. -/
def GLPSol.solve (glpk : Glpk → Answers) (alg : Algorithm) (g : GLPSol) (lp : Glpk) : Option (Bool × GLPSol × Glpk) :=
  (g.generate lp).bind fun gl =>
    match linearStatus alg (glpk gl.2) with
    | none => some (false, gl)
    | some s =>
      if !s.goesOn then some (false, gl)
      else if gl.1.integer && (decide ((glpk gl.2).intRet ≠ 0) || !(glpk gl.2).mipStatus.goesOn) then some (false, gl)
      else (gl.1.readValues gl.2 alg (glpk gl.2)).map fun g => (true, g, gl.2)

/-- `getValue` (glpsol.cpp:138-141). -/
def GLPSol.getValue (g : GLPSol) (s : String) : Option ℚ := (g.columns.find? fun c => decide (c.name = s)).map Column.found

/-- `getIntegerValue` (glpsol.cpp:146-149). -/
def GLPSol.getIntegerValue (g : GLPSol) (s : String) : Option ℚ := (g.columns.find? fun c => decide (c.name = s)).map Column.intFound

/-- The private `getValue` by number (glpsol.cpp:127-132), used for the values of the rows. -/
def GLPSol.valueOf (g : GLPSol) (i : ℕ) : Option ℚ :=
  (g.columns.find? fun c => decide (c.indice = i)).map fun c => if g.integer then c.intFound else c.found

/-- `compute_row` (glpsol.cpp:402-414). -/
def GLPSol.computeRow (g : GLPSol) (r : Row) : Option ℚ :=
  ((g.coefs.filter fun e => decide (e.1 = r.indice)).mapM fun e => (g.valueOf e.2.1).map fun x => x * e.2.2).map List.sum

/-- `checkBound` (glpsol.cpp:415-434). Rows that are free or have two bounds stop the program. -/
def GLPSol.checkBound (eps : ℚ) (g : GLPSol) : Option GLPSol :=
  if g.bounded then some g
  else
    (g.rows.mapM fun r => (g.computeRow r).bind fun x =>
      match r.bound.type with
      | .fixed => some { r with critical := decide (|x - r.bound.down| < eps) }
      | .upper => some { r with critical := decide (|x - r.bound.up| < eps) }
      | .lower => some { r with critical := decide (|x - r.bound.down| < eps) }
      | .free => none
      | .double => none).map fun rows => { g with rows := rows, bounded := true }

/-- `rowIsReach` (glpsol.cpp:109-114); an unknown name creates an empty row, which stops the program. -/
def GLPSol.rowIsReach (eps : ℚ) (g : GLPSol) (s : String) : Option Bool :=
  (if g.bounded then g.checkBound eps else some g).bind fun g => (g.rows.find? fun r => decide (r.name = s)).map Row.critical

/-- `writeMPSProblem` (glpsol.cpp:376-382): the problem written to the file. -/
def GLPSol.writeMPS (g : GLPSol) (lp : Glpk) : Option (GLPSol × Glpk) := g.generate lp

end Kiter.LpB
