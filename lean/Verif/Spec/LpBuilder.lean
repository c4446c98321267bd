/-
What a sequence of calls on the solver object describes: a linear program over named variables. What a GLPK problem
means. Both are independent of how the code numbers rows and columns.
-/
import Verif.Model.LpBuilder
import Mathlib.Algebra.BigOperators.Group.List.Basic

set_option autoImplicit false

namespace Kiter.LpB

/-- The bound as the caller means it: with two numbers, the first is the lower one. -/
def Bound.Holds (b : Bound) (x : ℚ) : Prop :=
  match b.type with
  | .free => True
  | .fixed => x = b.up
  | .upper => x ≤ b.up
  | .lower => b.down ≤ x
  | .double => b.up ≤ x ∧ x ≤ b.down

/-- The values allowed by the kind of a column. -/
def Kind.Allows : Kind → ℚ → Prop
  | .continuous, _ => True
  | .boolean, x => x = 0 ∨ x = 1
  | .integer, x => ∃ n : ℤ, x = n

/-- Value of the row `r` for the values `y` of the variables. -/
def rowValue (calls : List Call) (r : String) (y : String → ℚ) : ℚ :=
  (calls.map fun
    | .coef r' c v => if r' = r then v * y c else 0
    | _ => 0).sum

/-- Value of the objective. -/
def objective (calls : List Call) (y : String → ℚ) : ℚ :=
  (calls.map fun
    | .column c _ _ o => o * y c
    | _ => 0).sum

/-- The values `y` satisfy the program without the kinds of its columns (the relaxation). -/
structure Relaxed (calls : List Call) (y : String → ℚ) : Prop where
  rows : ∀ r b, Call.row r b ∈ calls → b.Holds (rowValue calls r y)
  bounds : ∀ c k b o, Call.column c k b o ∈ calls → b.Holds (y c)

/-- The values `y` satisfy the program. -/
structure Sat (calls : List Call) (y : String → ℚ) : Prop where
  relaxed : Relaxed calls y
  kinds : ∀ c k b o, Call.column c k b o ∈ calls → k.Allows (y c)

/-- Names given to rows and columns, in order. -/
def rowNames (calls : List Call) : List String := calls.filterMap fun
  | .row s _ => some s
  | _ => none

def columnNames (calls : List Call) : List String := calls.filterMap fun
  | .column s _ _ _ => some s
  | _ => none

/-- The coefficients that the solver object keeps. -/
def coefficients (eps : ℚ) (calls : List Call) : List (String × String × ℚ) := calls.filterMap fun
  | .coef r c v => if |v| < eps then none else some (r, c, v)
  | _ => none

/-- Bounds made by the constructors of the code. -/
def Bound.Made (b : Bound) : Prop := b.type ≠ .double → b.up = b.down

/-- Descriptions without surprises: a column is declared once, coefficients are 0 or not negligible, and the bounds of binary columns
leave them both values. -/
structure Plain (eps : ℚ) (calls : List Call) : Prop where
  columns : (columnNames calls).Nodup
  coefs : ∀ r c v, Call.coef r c v ∈ calls → v = 0 ∨ eps ≤ |v|
  rowBounds : ∀ r b, Call.row r b ∈ calls → b.Made
  columnBounds : ∀ c k b o, Call.column c k b o ∈ calls → b.Made
  binary : ∀ c b o, Call.column c .boolean b o ∈ calls → b = ⟨.double, 0, 1⟩

/-! ### GLPK problems -/

/-- GLPK's meaning of a type and two bounds. -/
def GLine.Allows (l : GLine) (x : ℚ) : Prop :=
  match l.type with
  | .free => True
  | .fixed => x = l.lb
  | .upper => x ≤ l.ub
  | .lower => l.lb ≤ x
  | .double => l.lb ≤ x ∧ x ≤ l.ub

/-- Value of the `i`-th row. -/
def Glpk.rowValue (P : Glpk) (i : ℕ) (x : ℕ → ℚ) : ℚ := (P.matrix.map fun e => if e.1 = i then e.2.2 * x e.2.1 else 0).sum

/-- The values `x` of the columns, numbered from 1, satisfy rows and bounds. -/
structure Glpk.Relaxed (P : Glpk) (x : ℕ → ℚ) : Prop where
  rows : ∀ (i : ℕ) (l : GLine), P.rows[i]? = some l → l.Allows (P.rowValue (i + 1) x)
  bounds : ∀ (j : ℕ) (l : GLine), P.columns[j]? = some l → l.Allows (x (j + 1))

/-- And the kinds of the columns. -/
structure Glpk.Sat (P : Glpk) (x : ℕ → ℚ) : Prop where
  relaxed : P.Relaxed x
  kinds : ∀ (j : ℕ) (l : GLine), P.columns[j]? = some l → l.kind.Allows (x (j + 1))

def Glpk.objective (P : Glpk) (x : ℕ → ℚ) : ℚ := (P.columns.mapIdx fun j l => l.obj * x (j + 1)).sum

/-- `better a b`: the objective value `a` is at least as good as `b`. -/
inductive Direction | min | max

def Direction.Better : Direction → ℚ → ℚ → Prop
  | .min, a, b => a ≤ b
  | .max, a, b => b ≤ a

/-- The best solutions of a program. -/
def Optimal {α : Type} (dir : Direction) (sat : α → Prop) (obj : α → ℚ) (a : α) : Prop :=
  sat a ∧ ∀ b, sat b → dir.Better (obj a) (obj b)

/-- What the user of GLPK may rely on: the linear methods report optima of the relaxation and the integer method optima of the
problem, when they say so, and they say that there is no solution only if there is none. -/
structure GlpkCorrect (dir : Direction) (P : Glpk) (a : Answers) : Prop where
  simplex : a.simplexRet = 0 → a.simplexStatus = .optimal → Optimal dir P.Relaxed P.objective a.prim
  exact : a.exactRet = 0 → a.exactStatus = .optimal → Optimal dir P.Relaxed P.objective a.prim
  interior : a.interiorRet = 0 → a.interiorStatus = .optimal → Optimal dir P.Relaxed P.objective a.interiorPrim
  mip : a.intRet = 0 → a.mipStatus = .optimal → Optimal dir P.Sat P.objective a.mip
  noSimplex : a.simplexRet = 0 → a.simplexStatus = .noFeasible → ∀ x, ¬ P.Relaxed x
  noExact : a.exactRet = 0 → a.exactStatus = .noFeasible → ∀ x, ¬ P.Relaxed x
  noInterior : a.interiorRet = 0 → a.interiorStatus = .noFeasible → ∀ x, ¬ P.Relaxed x
  noMip : a.intRet = 0 → a.mipStatus = .noFeasible → ∀ x, ¬ P.Sat x

end Kiter.LpB
