/-
Model of the conversion of doubles (double.h, homo_point3.cpp).

A finite double is represented by its exact value, a rational number; `doubleValue` says which rationals
occur.  The `int` variables for exponents are modelled by integers; `C59_decompose` shows their
bounds.
-/
import Verif.BigInt.Word
import Verif.Geom.Model
import Mathlib.Data.Int.Log
import Mathlib.Data.Rat.Floor

namespace Walnut.Util
open Walnut Walnut.Geom Walnut.Word

/-- The value of a double given by its bits (IEEE 754 binary64); `none` for infinities and NaNs.  (Specification, not
part of the code.) -/
def doubleValue (b : BitVec 64) : Option ℚ :=
  let s : ℚ := if b.msb then -1 else 1
  let e : Nat := b.toNat / 2 ^ 52 % 2 ^ 11
  let f : Nat := b.toNat % 2 ^ 52
  if e = 2047 then none
  else if e = 0 then some (s * f * 2 ^ (-1074 : ℤ))
  else some (s * (2 ^ 52 + f) * 2 ^ ((e : ℤ) - 1075))

/-- `std::frexp`, by its specification in the C standard: a fraction in [1/2, 1), with the sign of the argument, and an exponent;
zero gives zero and zero. -/
def frexp (x : ℚ) : ℚ × Int :=
  if x = 0 then (0, 0) else (x / 2 ^ (Int.log 2 |x| + 1), Int.log 2 |x| + 1)

/-- `std::scalbn`, for results that are doubles.  The standard library function called at double.h 22. -/
def scalbn (x : ℚ) (n : Int) : ℚ := x * 2 ^ n

/-- `static_cast<int64_t>` of a double: truncation, undefined out of range. -/
def castInt64 (x : ℚ) : Option Word :=
  let t : Int := if 0 ≤ x then ⌊x⌋ else ⌈x⌉
  if -2 ^ 63 ≤ t ∧ t < 2 ^ 63 then some (BitVec.ofInt 64 t) else none

/-- `Decompose` (double.h 20-33): the result and `*exp`. -/
def decompose (input : ℚ) : Option (Int × Int) := do
  let fe := frexp input
  let exp := fe.2
  let result ← castInt64 (scalbn fe.1 53)
  if result = 0 then
    -- `assert(*exp == 0)`
    if exp = 0 then some (0, exp) else none
  else
    let exp := exp - 53
    let tz ← trailingZerosPortable result
    let result := result.sshiftRight tz
    return (result.toInt, exp + tz)

/-- `SafeShiftLeft` (homo_point3.cpp 12-19).  The `int64_t` argument is an integer here; the shifts to the right round
down, which is what compilers (and C++20) do for negative numbers. -/
def safeShiftLeft (value : Int) (shift : Int) : Int :=
  if 0 ≤ shift then value * 2 ^ shift.toNat
  else if 64 ≤ -shift then 0
  else
    let adjust := (value >>> (-shift - 1).toNat) % 2
    (value >>> (-shift).toNat) + adjust

/-- `FromDoubles` (homo_point3.cpp 23-37). -/
def fromDoubles (minExponent : Int) (x y z : ℚ) : Option HP3 := do
  let dx ← decompose x
  let dy ← decompose y
  let dz ← decompose z
  let denomExp := min 0 (max minExponent (min dx.2 (min dy.2 dz.2)))
  return ⟨⟨safeShiftLeft dx.1 (dx.2 - denomExp), safeShiftLeft dy.1 (dy.2 - denomExp),
    safeShiftLeft dz.1 (dz.2 - denomExp)⟩, 1 * 2 ^ (-denomExp).toNat⟩

/-- `FromDoublesExact` (homo_point3.cpp 39-50).  The shift distances are converted to `size_t`; a negative one
would be a huge shift, reported as `none`. -/
def fromDoublesExact (x y z : ℚ) : Option HP3 := do
  let dx ← decompose x
  let dy ← decompose y
  let dz ← decompose z
  let denomExp := min 0 (min dx.2 (min dy.2 dz.2))
  if 0 ≤ dx.2 - denomExp ∧ 0 ≤ dy.2 - denomExp ∧ 0 ≤ dz.2 - denomExp ∧ 0 ≤ -denomExp then
    return ⟨⟨dx.1 * 2 ^ (dx.2 - denomExp).toNat, dy.1 * 2 ^ (dy.2 - denomExp).toNat,
      dz.1 * 2 ^ (dz.2 - denomExp).toNat⟩, 1 * 2 ^ (-denomExp).toNat⟩
  else none

end Walnut.Util
