/-
The `BigInt` operations used by the geometric code, on mathematical integers.

The geometric layer is modelled over `Int`.  This is what the word level model
justifies: `+`, `-`, `*`, comparison, sign functions and division of `BigInt`
objects agree with the operations below (`Verif/Geom/Bridge.lean`).  Where a
`BigInt` operation is undefined for some values, so is the operation here.
-/
import Verif.BigInt.MiscModel
import Verif.BigInt.RepLemmas
import Mathlib.Data.Int.GCD

namespace Walnut.Geom

/-- `BigInt::Compare` (big_int.h 190-243), see `C04_compare`. -/
def cmp (a b : Int) : Int := Int.sign (a - b)

/-- `BigInt::LessThan(flip, other)` (big_int.h 526-551), see `C04_relations`. -/
def lessThan (flip : Bool) (a b : Int) : Bool := if flip then decide (b < a) else decide (a < b)

/-- `BigInt::GetAbsMult()` (big_int.h 782-784), see `C04_signs`. -/
def absMult (a : Int) : Int := if a < 0 then -1 else 1

/-- `BigInt::GetAbsMult(other)` (big_int.h 789-791), see `C04_signs`. -/
def absMult2 (a b : Int) : Int := if (a < 0 ↔ b < 0) then 1 else -1

/-- `BigInt::HasDifferentSign` (big_int.h 797-799), see `C04_signs`. -/
def hasDifferentSign (a b : Int) : Bool := decide (a < 0) != decide (b < 0)

/-- `BigInt::abs` (big_int.h 731-737); undefined at `-2^63`, see `C10_abs_partial`
and `C10_abs_false`. -/
def abs? (a : Int) : Option Int := if a = -2 ^ 63 then none else some |a|

/-- `BigInt::DivideRemainder` (big_int.h 679-686): undefined for a zero divisor and
for `-2^63 / -1`, see `C07_divide_partial` and `C07_false`. -/
def divRem? (a b : Int) : Option (Int × Int) :=
  if b = 0 ∨ (a = -2 ^ 63 ∧ b = -1) then none else some (a.tdiv b, a.tmod b)

/-- `BigInt::operator/=` (big_int.h 668-671). -/
def div? (a b : Int) : Option Int := (divRem? a b).map (·.1)

/-- `BigInt::GetGreatestCommonDivisor` (big_int.h 816-821). -/
def gcd? (x y : Int) : Option Int :=
  if hy : y = 0 then some x
  else if x = -2 ^ 63 ∧ y = -1 then none
  else gcd? y (x.tmod y)
termination_by y.natAbs
decreasing_by
  rw [Int.natAbs_tmod]; exact Nat.mod_lt _ (by omega)

/-- The words of the `BigInt` that holds `x`.  Connects the geometry with the representation of big_int.h 60-66. -/
def wordsOf (x : Int) : List Word := BigInt.trim (encode x (Nat.log2 x.natAbs / 64 + 1))

/-- `BigInt::GetSign` as a word (big_int.h 767-769): the top word with the number
of lower words or-ed to it. -/
def signWord (x : Int) : Word :=
  BigInt.top (wordsOf x) ||| BitVec.ofNat 64 ((wordsOf x).length - 1)

/-- `BigInt::SignExtension` (big_int.h 803-805). -/
def signExt (x : Int) : Word := BigInt.signExtension (wordsOf x)

end Walnut.Geom
