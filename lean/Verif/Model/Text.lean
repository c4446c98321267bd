/-
Model of the text layer of the SDF3 reader and writer:
/repo/src/libkiter/commons/commons.h (`toString`, `fromString`, `split`),
/repo/src/libkiter/commons/commons.cpp (`splitSDF3List`) and
/repo/src/libkiter/printers/SDF3Wrapper.cpp (`vectorAsStr`, `stringlist2tokenlist`,
`StringRate2Vectors`).

Simplifications common to the file.
* A `std::string` is a list of characters; the locale is the default one, so that white space is
  the six characters of `isspace`.
* Failure (`VERBOSE_FAILURE`), an index out of bounds and a signed overflow are `none`.
-/
import Mathlib.Data.List.Basic
import Mathlib.Algebra.Order.Group.Unbundled.Int

set_option autoImplicit false

namespace Kiter.Text

abbrev Str := List Char

/-- `isspace` in the default locale. -/
def isSpace (c : Char) : Bool :=
  c = ' ' || c = '\t' || c = '\n' || c = Char.ofNat 11 || c = Char.ofNat 12 || c = '\r'

/-- The character of a decimal digit. -/
def digitChar (d : Nat) : Char := Char.ofNat (48 + d)

/-- Decimal digits of `n`; the first argument bounds their number. -/
def decAux : Nat → Nat → Str
  | 0, _ => []
  | f + 1, n => if n < 10 then [digitChar n] else decAux f (n / 10) ++ [digitChar (n % 10)]

/-- `stream << n` for a non-negative number. -/
def dec (n : Nat) : Str := decAux (n + 1) n

/-- commons.h 345-351, `toString` of a `long`. -/
def showInt (v : Int) : Str := if v < 0 then '-' :: dec v.natAbs else dec v.natAbs

/-- Value of a digit character. -/
def digitVal (c : Char) : Nat := c.toNat - 48

def isDigit (c : Char) : Bool := decide (48 ≤ c.toNat) && decide (c.toNat ≤ 57)

/-- Value of the longest prefix of decimal digits. -/
def readNat (s : Str) : Nat := (s.takeWhile isDigit).foldl (fun a c => a * 10 + digitVal c) 0

/-- An optional sign and digits; no digit gives 0 (the value stored on failure). -/
def readSigned : Str → Int
  | [] => 0
  | c :: s => if c = '-' then -(readNat s : Int) else if c = '+' then readNat s
    else readNat (c :: s)

/-- A value that does not fit is replaced by the nearest one that does. -/
def clamp (bits : Nat) (v : Int) : Int :=
  if v > 2 ^ (bits - 1) - 1 then 2 ^ (bits - 1) - 1
  else if v < -(2 ^ (bits - 1)) then -(2 ^ (bits - 1)) else v

/-- commons.h 320-327, `fromString<long>`: white space is skipped. -/
def readLong (s : Str) : Int := clamp 64 (readSigned (s.dropWhile isSpace))

/-- commons.h 320-327, `fromString<int>`. -/
def readInt (s : Str) : Int := clamp 32 (readSigned (s.dropWhile isSpace))

/-- commons.h 320-327, `fromString<std::string>`: the first word. -/
def readWord (s : Str) : Str := (s.dropWhile isSpace).takeWhile fun c => !isSpace c

/-- The pieces that successive calls of `std::getline(ss, item, delim)` deliver; `cur` is the piece
being read.  At the end of the text an empty piece is not delivered. -/
def getlines (delim : Char) : Str → Str → List Str
  | [], cur => if cur = [] then [] else [cur]
  | c :: s, cur => if c = delim then cur :: getlines delim s [] else getlines delim s (cur ++ [c])

/-- commons.h 499-509, `split<std::string>`. -/
def split (s : Str) (delim : Char) : List Str := (getlines delim s []).map readWord

/-- commons.cpp 155-165: one item of the list. -/
def expandItem (item : Str) : Option (List Str) :=
  match split item '*' with
  | [v] => some [v]
  | [n, v] => some (List.replicate (readInt n).toNat v)
  | _ => none

/-- commons.cpp 152-167, `splitSDF3List`. -/
def splitSDF3List (s : Str) : Option (List Str) :=
  ((split s ',').mapM expandItem).map List.flatten

/-- SDF3Wrapper.cpp 30-41, `vectorAsStr<TOKEN_UNIT>`: the `idx > 0` test puts a comma before every
item except the first. -/
def vectorAsStr : List Int → Str
  | [] => []
  | [v] => showInt v
  | v :: w :: l => showInt v ++ ',' :: vectorAsStr (w :: l)

/-- SDF3Wrapper.cpp 88-98: one item of the list.  The counter of the loop is an `int`, so that a
larger count is a signed overflow. -/
def tokenItem (cur : Str) : Option (List Int) :=
  let sep := split cur '*'
  match sep.getLast? with
  | none => none
  | some last =>
    let count : Int := if sep.length = 2 then readLong sep.headI else 1
    if count ≥ 2 ^ 31 - 1 then none else some (List.replicate count.toNat (readLong last))

/-- SDF3Wrapper.cpp 85-102, `stringlist2tokenlist`. -/
def stringlist2tokenlist (l : List Str) : Option (List Int) := (l.mapM tokenItem).map List.flatten

/-- SDF3Wrapper.cpp 106-119, `StringRate2Vectors`: (initial rates, periodic rates). -/
def stringRate2Vectors (rates : Str) : Option (List Int × List Int) :=
  let ip := split rates ';'
  let init : List Str := if ip.length = 2 then split ip.headI ',' else []
  match (if ip.length = 1 then ip[0]? else ip[1]?) with
  | none => none
  | some per =>
    (stringlist2tokenlist init).bind fun i =>
      (stringlist2tokenlist (split per ',')).map fun p => (i, p)

/-- SDF3Wrapper.cpp 786-790 and 803-806: how the writer puts the two vectors together. -/
def writeRates (init per : List Int) : Str :=
  if init.length ≠ 0 then vectorAsStr init ++ ';' :: vectorAsStr per else vectorAsStr per

/-- SDF3Wrapper.cpp 247-265: reading an `executionTime`, restricted to times that are integers
(`fromString<TIME_UNIT>` of a text without fraction or exponent; no clamping is modelled). -/
def readTimes (timings : Str) : Option (List Int × List Int) :=
  let ip := split timings ';'
  match (if ip.length = 2 then splitSDF3List ip.headI else some []) with
  | none => none
  | some init =>
    match (if ip.length = 1 then ip[0]? else ip[1]?) with
    | none => none
    | some per =>
      (splitSDF3List per).map fun p =>
        (init.map fun t => readSigned (t.dropWhile isSpace),
         p.map fun t => readSigned (t.dropWhile isSpace))

end Kiter.Text
