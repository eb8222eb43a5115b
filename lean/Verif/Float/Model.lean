/-
Model of the conversions of `BigInt` and `HomoPoint3` to floating point numbers (big_int.cpp 43-86, big_uint_word.h 571-577,
homo_point3.h 171-179).

Floating point operations are those of IEEE 754: the exact result is rounded by a function `rnd`, which is a parameter, one for each
type.  The sign of zero is not modelled.
-/
import Verif.BigInt.Model
import Mathlib.Data.Rat.Defs
import Mathlib.Algebra.Order.Field.Rat

namespace Walnut.Float
open Walnut

/-- A floating point number.  C++ semantics, for big_int.cpp 43-85. -/
inductive Fl where
  /-- A finite number. -/
  | fin (x : ℚ)
  /-- An infinity; `true` is the negative one. -/
  | inf (neg : Bool)
  | nan
deriving DecidableEq

/-- Conversion of a number to the type that is rounded by `rnd`.  C++ semantics, for big_int.cpp 43-85. -/
def cast (rnd : ℚ → Fl) : Fl → Fl
  | .fin x => rnd x
  | .inf s => .inf s
  | .nan => .nan

/-- `std::ldexp`.  The standard library function called at big_int.cpp 56 and 79. -/
def ldexp (rnd : ℚ → Fl) (x : Fl) (n : Nat) : Fl :=
  match x with
  | .fin x => rnd (x * 2 ^ n)
  | .inf s => .inf s
  | .nan => .nan

/-- Addition.  C++ semantics, for big_int.cpp 70. -/
def add (rnd : ℚ → Fl) : Fl → Fl → Fl
  | .fin x, .fin y => rnd (x + y)
  | .nan, _ => .nan
  | _, .nan => .nan
  | .inf s, .inf s' => if s = s' then .inf s else .nan
  | .inf s, .fin _ => .inf s
  | .fin _, .inf s => .inf s

/-- Division.  (A zero divisor gives NaN or an infinity, whose sign is that of the dividend because the sign of zero is not
modelled.)  C++ semantics, for homo_point3.h 171-178. -/
def div (rnd : ℚ → Fl) : Fl → Fl → Fl
  | .fin x, .fin y => if y = 0 then (if x = 0 then .nan else .inf (decide (x < 0))) else rnd (x / y)
  | .nan, _ => .nan
  | _, .nan => .nan
  | .inf _, .inf _ => .nan
  | .inf s, .fin y => .inf (s ^^ decide (y < 0))
  | .fin _, .inf _ => .fin 0

/-- Infinity times an integer.  C++ semantics, for big_int.cpp 43-61. -/
def infTimes (x : Int) : Fl := if x = 0 then .nan else .inf (decide (x < 0))

/-- `BigInt::operator double` (big_int.cpp 43-61) and `ToDoubleWithShift` (big_uint_word.h 571-573).  `INT_MAX` is
2^31 - 1. -/
def toDouble (rnd : ℚ → Fl) (ws : List Word) : Fl :=
  match ws.reverse with
  | [] => .nan
  | [w] => rnd w.toInt
  | t :: s :: rest =>
    let firstShift := 64 * (rest.length + 1)
    if firstShift > 2 ^ 31 - 1 then infTimes t.toInt
    else add rnd (ldexp rnd (rnd t.toInt) firstShift) (ldexp rnd (rnd s.toNat) (64 * rest.length))

/-- `BigInt::operator long double` (big_int.cpp 63-86) and `ToLongDoubleWithShift` (big_uint_word.h 575-577). -/
def toLongDouble (rnd : ℚ → Fl) (ws : List Word) : Fl :=
  match ws.reverse with
  | [] => .nan
  | [w] => rnd w.toInt
  | [t, s] => add rnd (ldexp rnd (rnd t.toInt) 64) (ldexp rnd (rnd s.toNat) 0)
  | t :: s :: r :: rest =>
    let firstShift := 64 * (rest.length + 2)
    if firstShift > 2 ^ 31 - 1 then infTimes t.toInt
    else add rnd (add rnd (ldexp rnd (rnd t.toInt) firstShift) (ldexp rnd (rnd s.toNat) (64 * (rest.length + 1)))) (ldexp rnd (rnd r.toNat) (64 * rest.length))

/-- One coordinate of `HomoPoint3::GetDoublePoint3` (homo_point3.h 171-179): the quotient of two `long double`s, as a
`double`.  `rndL` and `rndD` round to the two types. -/
def coordinate (rndL rndD : ℚ → Fl) (x w : List Word) : Fl := cast rndD (div rndL (toLongDouble rndL x) (toLongDouble rndL w))

/-- `HomoPoint3::GetDoublePoint3` (homo_point3.h 171-179). -/
def getDoublePoint3 (rndL rndD : ℚ → Fl) (x y z w : List Word) : Fl × Fl × Fl :=
  (coordinate rndL rndD x w, coordinate rndL rndD y w, coordinate rndL rndD z w)

end Walnut.Float
