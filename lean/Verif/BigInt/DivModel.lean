/- Model of the division, greatest common divisor and decimal output of
`walnut::BigInt`. -/
import Verif.BigInt.MiscModel
import Verif.BigInt.UModel
import Verif.BigInt.CompareModel

namespace Walnut.BigInt

/-- Signed division of two words: C++ `int64_t / int64_t`.  Division by zero and
`INT64_MIN / -1` are undefined: `none`.  The same holds for `%`. -/
def wordDivRem (a b : Word) : Option (Word × Word) :=
  if b = 0#64 then none
  else if a = BitVec.intMin 64 ∧ b = BitVec.allOnes 64 then none
  else some (a.sdiv b, a.srem b)

/-- `DivideRemainderSlow`: big_int.cpp 142–160.  `*remainder_out = remainder`
and `BigInt result{quotient}` convert a `BigUInt`. -/
def divideRemainderSlow (dbg : Bool) (a b : List Word) : Option (List Word × List Word) :=
  let ua := getUIntAbs a
  let ub := getUIntAbs b
  (BigUInt.divideRemainder dbg ua.1 ub.1).map fun qr =>
    (if xor ua.2 ub.2 then negate (ofBigUInt qr.1) else ofBigUInt qr.1,
     if ua.2 then negate (ofBigUInt qr.2) else ofBigUInt qr.2)

/-- `DivideRemainder(other, &remainder)`: big_int.h 679–686.  `remainder_out`
is taken to be neither `this` (excluded by the comment in the code) nor
`other`. -/
def divideRemainder (dbg : Bool) (a b : List Word) : Option (List Word × List Word) :=
  if a.length = 1 ∧ b.length = 1 then
    (wordDivRem (first a) (first b)).map fun qr => ([qr.1], [qr.2])
  else divideRemainderSlow dbg a b

/-- `operator/`: big_int.h 655–661, also used by `operator/=`. -/
def div (dbg : Bool) (a b : List Word) : Option (List Word) :=
  if a.length = 1 ∧ b.length = 1 then (wordDivRem (first a) (first b)).map fun qr => [qr.1]
  else (divideRemainderSlow dbg a b).map (·.1)

/-- `operator%`: big_int.h 689–697. -/
def rem (dbg : Bool) (a b : List Word) : Option (List Word) :=
  if a.length = 1 ∧ b.length = 1 then (wordDivRem (first a) (first b)).map fun qr => [qr.2]
  else (divideRemainderSlow dbg a b).map (·.2)

/-- `GetGreatestCommonDivisor`: big_int.h 816–821.  The recursion is bounded by
`fuel`; running out of fuel is `none`. -/
def gcd (dbg : Bool) : Nat → List Word → List Word → Option (List Word)
  | 0, _, _ => none
  | fuel + 1, a, b =>
    if isZero b then some a
    else (rem dbg a b).bind fun m => gcd dbg fuel b m

/-- `*digits_pos-- = c` in `operator<<(ostream)`: `free` is the index of
`digits_pos` plus one, `out` the characters already written after it.  Moving
`digits_pos` in front of the buffer is undefined: `none` (big_int.cpp 126, 131 and 136). -/
def putChar (c : Char) (free : Nat) (out : List Char) : Option (Nat × List Char) :=
  if free ≤ 1 then none else some (free - 1, c :: out)

/-- The character written for one digit: big_int.cpp 131–132. -/
def digitOf (digit : List Word) : Option Char :=
  (Word.signedAbs (first digit)).map fun w => Char.ofNat ((w.toNat % 2 ^ 32) % 2 ^ 8 + '0'.toNat)

/-- The digit loop of `operator<<(ostream)`: big_int.cpp 128–133.  Returns the
last digit, the free space and the characters. -/
def printLoop (dbg : Bool) : Nat → List Word → Nat → List Char →
    Option (List Word × Nat × List Char)
  | 0, _, _, _ => none
  | fuel + 1, remaining, free, out =>
    (divideRemainder dbg remaining [10#64]).bind fun qr =>
      (digitOf qr.2).bind fun c =>
        (putChar c free out).bind fun fo =>
          if neInt qr.1 0#32 then printLoop dbg fuel qr.1 fo.1 fo.2
          else some (qr.2, fo.1, fo.2)

/-- `operator<<(std::ostream&, const BigInt&)`: big_int.cpp 121–140.  The buffer
has `used_words()*8*3 + 2` characters, the last one is the terminator.  Returns
the printed characters. -/
def print (dbg : Bool) (fuel : Nat) (ws : List Word) : Option (List Char) :=
  (printLoop dbg fuel ws (ws.length * 8 * 3 + 1) []).bind fun r =>
    if getSign r.1 < 0 then (putChar '-' r.2.1 r.2.2).map (·.2) else some r.2.2

end Walnut.BigInt
