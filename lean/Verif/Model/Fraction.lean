/-
Model of `Fraction<V>` (src/libkiter/commons/commons.h, lines 42-295).
`V` is `long int` in the code base (`EXEC_COUNT_FRACT`, `TOKEN_FRACT`); it is modelled by `Int`
(no overflow).  C division and remainder are `Int.tdiv` and `Int.tmod`.
A failed `VERBOSE_ASSERT` and a division by zero are `none`.
-/
import Mathlib.Data.Int.GCD
import Mathlib.Data.Rat.Floor

set_option autoImplicit false

namespace Kiter

/-- The two data members of `Fraction<V>` (commons.h:44). -/
structure Frac where
  n : Int
  d : Int
deriving DecidableEq, Repr

namespace Frac

/-- Constructor `Fraction(V n, V d)` (commons.h:46).  `std::gcd(0,0) = 0`, so `n = d = 0` divides by zero. -/
def make (n d : Int) : Option Frac :=
  if Int.gcd n d = 0 then none
  else some ⟨n.tdiv (Int.gcd n d), d.tdiv (Int.gcd n d)⟩

/-- `operator==(const Fraction&)` (commons.h:56-58). -/
def eqv (a b : Frac) : Bool := a.n == b.n && a.d == b.d

/-- `while (r < zero) { r += d; --q; }` (commons.h:88, 89, 157).  The loop does not stop when `r < 0` and
`d ≤ 0`; the callers assert `d > 0` before, so that case is cut off here by returning the pair unchanged. -/
def normNeg (q r d : Int) : Int × Int :=
  if _h : r < 0 ∧ 0 < d then normNeg (q - 1) (r + d) d else (q, r)
termination_by (-r).toNat
decreasing_by omega

/-- The `for(;;)` loop and the final comparison of `operator<` (commons.h:92-136).
`td tq tr` are `ts.d ts.q ts.r`, `rd rq rr` are `rs.d rs.q rs.r`; `ts.n`, `rs.n` are only used to
recompute quotient and remainder.  The loop is total without any fuel: `|ts.r|` decreases. -/
def ltLoop (td tq tr rd rq rr : Int) (rev : Bool) : Bool :=
  if tq ≠ rq then
    (if rev then decide (tq > rq) else decide (tq < rq))
  else
    let rev' := !rev
    if _h : tr = 0 ∨ rr = 0 then
      if tr = rr then false
      else (decide (tr ≠ 0)) != rev'
    else
      ltLoop tr (td.tdiv tr) (td.tmod tr) rr (rd.tdiv rr) (rd.tmod rr) rev'
termination_by tr.natAbs
decreasing_by
  have h1 : tr ≠ 0 := fun h' => _h (Or.inl h')
  have := Int.natAbs_tmod td tr
  rw [this]
  exact Nat.mod_lt _ (Int.natAbs_pos.mpr h1)

/-- `operator<(const Fraction&)` (commons.h:62-137); both denominators are asserted positive (71-72). -/
def lt (a b : Frac) : Option Bool :=
  if a.d > 0 ∧ b.d > 0 then
    let t := normNeg (a.n.tdiv a.d) (a.n.tmod a.d) a.d
    let r := normNeg (b.n.tdiv b.d) (b.n.tmod b.d) b.d
    some (ltLoop a.d t.1 t.2 b.d r.1 r.2 false)
  else none

/-- `operator>(const Fraction&)` (commons.h:52-54); `and` short-circuits, so `<` (and its assertions)
is only evaluated when the fractions are not `==`. -/
def gt (a b : Frac) : Option Bool :=
  if eqv a b then some false else (lt a b).map (!·)

/-- `operator<=(Fraction, Fraction)` (commons.h:257-261). -/
def le (a b : Frac) : Option Bool := (gt a b).map (!·)

/-- `operator!=(Fraction, Fraction)` (commons.h:272-276). -/
def ne (a b : Frac) : Bool := !(a.n == b.n && a.d == b.d)

/-- `operator==(const V&)` (commons.h:146-148). -/
def eqI (a : Frac) (i : Int) : Bool := a.d == 1 && a.n == i

/-- `operator<(const V&)` (commons.h:149-164); `BOOST_ASSERT(d > 0)`. -/
def ltI (a : Frac) (i : Int) : Option Bool :=
  if a.d > 0 then some (decide ((normNeg (a.n.tdiv a.d) (a.n.tmod a.d) a.d).1 < i)) else none

/-- `operator>(const V&)` (commons.h:142-144). -/
def gtI (a : Frac) (i : Int) : Option Bool :=
  if eqI a i then some false else (ltI a i).map (!·)

/-- `operator*=(const Fraction&)` (commons.h:169-174) and `operator*` (285-289).
Divides by `gcd(n*rhs.n, d*rhs.d)`, which is 0 only if both products are 0. -/
def mul (a b : Frac) : Option Frac :=
  if Int.gcd (a.n * b.n) (a.d * b.d) = 0 then none
  else some ⟨(a.n * b.n).tdiv (Int.gcd (a.n * b.n) (a.d * b.d)),
             (a.d * b.d).tdiv (Int.gcd (a.n * b.n) (a.d * b.d))⟩

/-- `operator*(Fraction, V)` (commons.h:291-295): `lhs *= Fraction<V>(rhs)`. -/
def mulI (a : Frac) (i : Int) : Option Frac := (make i 1).bind (mul a)

/-- The sign correction at the end of both `operator/=` (commons.h:199-202, 222-225). -/
def fixSign (n d : Int) : Frac := if d < 0 then ⟨-n, -d⟩ else ⟨n, d⟩

/-- `operator/=(const Fraction&)` (commons.h:178-204) and `operator/` (279-283). -/
def div (a b : Frac) : Option Frac :=
  if b.n = 0 then none
  else if a.n = 0 then some a
  else
    let g1 : Int := Int.gcd a.n b.n
    let g2 : Int := Int.gcd b.d a.d
    -- `std::gcd(r_den, d)` is 0 only if both denominators are 0: division by zero
    if g2 = 0 then none
    else some (fixSign ((a.n.tdiv g1) * (b.d.tdiv g2)) ((a.d.tdiv g2) * (b.n.tdiv g1)))

/-- `operator/=(const V&)` (commons.h:210-228). -/
def divI (a : Frac) (i : Int) : Option Frac :=
  if i = 0 then none
  else if a.n = 0 then some a
  else
    let g : Int := Int.gcd a.n i
    some (fixSign (a.n.tdiv g) (a.d * (i.tdiv g)))

end Frac

/-- `commons::modulo` (commons.h:520-524); `% 0` is undefined. -/
def cModulo (a b : Int) : Option Int :=
  if b = 0 then none
  else some (if a.tmod b ≥ 0 then a.tmod b else a.tmod b + b)

/-- The `while` loop of `extended_euclide` (commons.h:546-551); returns `(r.first, s.first, t.first)`. -/
def euclidLoop (r1 r2 s1 s2 t1 t2 : Int) : Int × Int × Int :=
  if _h : r2 = 0 then (r1, s1, t1)
  else
    let q := r1.tdiv r2
    euclidLoop r2 (r1 - q * r2) s2 (s1 - q * s2) t2 (t1 - q * t2)
termination_by r2.natAbs
decreasing_by
  have e : r1 - r1.tdiv r2 * r2 = r1.tmod r2 := by
    have := Int.tmod_add_tdiv_mul r1 r2; omega
  rw [e, Int.natAbs_tmod]
  exact Nat.mod_lt _ (Int.natAbs_pos.mpr _h)

/-- `commons::extended_euclide` (commons.h:528-562): `none` when the assertion "No solution" fails or when
`_a = _b = 0` (division by zero). -/
def extendedEuclide (a b c : Int) : Option (Int × Int) :=
  let g : Int := Int.gcd a b
  if g = 0 then none
  else if c.tmod g ≠ 0 then none
  else
    let e := euclidLoop (a.tdiv g) (b.tdiv g) 1 0 0 1
    some (c.tdiv g * e.2.1, c.tdiv g * e.2.2)

/-- `commons::floor(entier v, entier c)` (commons.h:465-466).  Simplification: the `long double` quotient is
exact.  `c = 0` gives an infinite quotient converted to integer: undefined. -/
def cFloor (v c : Int) : Option Int := if c = 0 then none else some (Int.floor ((v : Rat) / c) * c)

/-- `commons::ceil(entier v, entier c)` (commons.h:463-464). Same simplification. -/
def cCeil (v c : Int) : Option Int := if c = 0 then none else some (Int.ceil ((v : Rat) / c) * c)

end Kiter
