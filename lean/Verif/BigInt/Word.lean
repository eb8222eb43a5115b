/-
Model of `walnut::BigUIntWord` (include/walnut/big_uint_word.h).

A `BigUIntWord` wraps a `uint64_t`; it is modelled by `BitVec 64`.  The signed
reading `BigIntWord{w}` is `BitVec.toInt`.
-/
import Mathlib.Tactic.Ring
import Mathlib.Tactic.Linarith

namespace Walnut

/-- `BigUIntWord` : big_uint_word.h 58–588 (a single `uint64_t i_`). -/
abbrev Word := BitVec 64

namespace Word

/-- `BigUIntWord::Add(other, carry_in, &carry_out)` with compiler builtins:
big_uint_word.h 204–211.  `__builtin_add_overflow` on `uint64_t` wraps the
result and returns whether the mathematical sum does not fit. -/
def addC (a b : Word) (cin : Bool) : Word × Bool :=
  let r1 := a + b
  let o1 := decide (2 ^ 64 ≤ a.toNat + b.toNat)
  let r2 := r1 + BitVec.ofNat 64 cin.toNat
  let o2 := decide (2 ^ 64 ≤ r1.toNat + cin.toNat)
  (r2, o1 || o2)

/-- `BigUIntWord::Add(other, &carry_out)` with builtins: big_uint_word.h 198–202. -/
def addO (a b : Word) : Word × Bool :=
  (a + b, decide (2 ^ 64 ≤ a.toNat + b.toNat))

/-- `BigUIntWord::Add(carry_in, &carry_out)` with builtins: big_uint_word.h 213–217. -/
def addB (a : Word) (cin : Bool) : Word × Bool :=
  (a + BitVec.ofNat 64 cin.toNat, decide (2 ^ 64 ≤ a.toNat + cin.toNat))

/-- Portable `Add(other, carry_in, &carry_out)`: big_uint_word.h 227–234. -/
def addCPortable (a b : Word) (cin : Bool) : Word × Bool :=
  let r1 := a + b
  let r2 := r1 + BitVec.ofNat 64 cin.toNat
  (r2, decide (r1 < a) || decide (r2 < r1))

/-- Portable `Add(other, &carry_out)`: big_uint_word.h 221–225. -/
def addOPortable (a b : Word) : Word × Bool :=
  let r := a + b
  (r, decide (r < a))

/-- Portable `Add(carry_in, &carry_out)`: big_uint_word.h 236–240. -/
def addBPortable (a : Word) (cin : Bool) : Word × Bool :=
  let r := a + BitVec.ofNat 64 cin.toNat
  (r, decide (r < a))

/-- `BigUIntWord::Subtract(other, carry_in, &carry_out)` with builtins:
big_uint_word.h 248–255. -/
def subC (a b : Word) (cin : Bool) : Word × Bool :=
  let r1 := a - b
  let o1 := decide (a.toNat < b.toNat)
  let r2 := r1 - BitVec.ofNat 64 cin.toNat
  let o2 := decide (r1.toNat < cin.toNat)
  (r2, o1 || o2)

/-- `BigUIntWord::Subtract(other, &carry_out)` with builtins: 257–262. -/
def subO (a b : Word) : Word × Bool :=
  (a - b, decide (a.toNat < b.toNat))

/-- `BigUIntWord::Subtract(carry_in, &carry_out)` with builtins: 264–268. -/
def subB (a : Word) (cin : Bool) : Word × Bool :=
  (a - BitVec.ofNat 64 cin.toNat, decide (a.toNat < cin.toNat))

/-- Portable `Subtract(other, carry_in, &carry_out)`: big_uint_word.h 272–279. -/
def subCPortable (a b : Word) (cin : Bool) : Word × Bool :=
  let r1 := a - b
  let co := decide (r1 > a) || decide (r1.toNat < cin.toNat)
  (r1 - BitVec.ofNat 64 cin.toNat, co)

/-- Portable `Subtract(other, &carry_out)`: big_uint_word.h 281–286. -/
def subOPortable (a b : Word) : Word × Bool :=
  let r := a - b
  (r, decide (r > a))

/-- Portable `Subtract(carry_in, &carry_out)`: big_uint_word.h 288–292. -/
def subBPortable (a : Word) (cin : Bool) : Word × Bool :=
  let r := a - BitVec.ofNat 64 cin.toNat
  (r, decide (r > a))

/-- `BigUIntWord::Multiply(other, &high)` with `unsigned __int128`:
big_uint_word.h 304–310.  Returns `(low, high)`. -/
def mul (a b : Word) : Word × Word :=
  let full : BitVec 128 := a.setWidth 128 * b.setWidth 128
  (full.setWidth 64, (full >>> 64).setWidth 64)

/-- `BigUIntWord::MultiplySigned(other, &high)` with `__int128`:
big_uint_word.h 312–318. -/
def mulSigned (a b : Word) : Word × Word :=
  let full : BitVec 128 := a.signExtend 128 * b.signExtend 128
  (full.setWidth 64, (full.sshiftRight 64).setWidth 64)

/-- `BigUIntWord::MultiplyAdd(other, add, carry_in, &high)` with
`unsigned __int128`: big_uint_word.h 320–327. -/
def mulAdd (a b add : Word) (cin : Bool) : Word × Word :=
  let full : BitVec 128 :=
    a.setWidth 128 * b.setWidth 128 + add.setWidth 128 + BitVec.ofNat 128 cin.toNat
  (full.setWidth 64, (full >>> 64).setWidth 64)

/-- `BigUIntWord::ShiftRight(high, shift)` with `unsigned __int128`:
big_uint_word.h 329–334. -/
def shiftRight (lo hi : Word) (shift : Nat) : Word :=
  let full : BitVec 128 := (hi.setWidth 128 <<< 64) ||| lo.setWidth 128
  (full >>> shift).setWidth 64

/-- `low_uint32()` widened back to `uint64_t`: big_uint_word.h 110–112. -/
def lo32 (a : Word) : Word := a &&& 0xFFFFFFFF#64

/-- `hi_uint32()` widened back to `uint64_t`: big_uint_word.h 585–587. -/
def hi32 (a : Word) : Word := a >>> 32

/-- `BigUIntWord(uint32_t lo, uint32_t hi)`: big_uint_word.h 582–583. -/
def ofHalves (lo hi : Word) : Word := (hi <<< 32) ||| lo

/-- Portable `Multiply`: big_uint_word.h 338–354. -/
def mulPortable (a b : Word) : Word × Word :=
  let low := lo32 a * lo32 b
  let (middle, carry) := addO (hi32 a * lo32 b + hi32 low) (lo32 a * hi32 b)
  let high := hi32 a * hi32 b + hi32 middle + (BitVec.ofNat 64 carry.toNat <<< 32)
  (ofHalves (lo32 low) (lo32 middle), high)

/-- `SignExtension()`: big_uint_word.h 553–555 (arithmetic shift by 63). -/
def signExt (a : Word) : Word := a.sshiftRight 63

/-- Portable `MultiplySigned`: big_uint_word.h 356–374. -/
def mulSignedPortable (a b : Word) : Word × Word :=
  let low := lo32 a * lo32 b
  let (middle, carry) := addO (hi32 a * lo32 b + hi32 low) (lo32 a * hi32 b)
  let high := hi32 a * hi32 b + hi32 middle + (BitVec.ofNat 64 carry.toNat <<< 32)
    - (signExt b &&& a) - (signExt a &&& b)
  (ofHalves (lo32 low) (lo32 middle), high)

/-- Portable `MultiplyAdd`: big_uint_word.h 376–397. -/
def mulAddPortable (a b add : Word) (cin : Bool) : Word × Word :=
  let (low, lowCarry) := addC (lo32 a * lo32 b) add cin
  let (middle, midCarry) := addO (hi32 a * lo32 b + hi32 low) (lo32 a * hi32 b)
  let high := hi32 a * hi32 b + hi32 middle + (BitVec.ofNat 64 midCarry.toNat <<< 32)
    + BitVec.ofNat 64 lowCarry.toNat
  (ofHalves (lo32 low) (lo32 middle), high)

/-- Portable `ShiftRight`, only defined for `shift < 64`: big_uint_word.h 400–409. -/
def shiftRightPortable (lo hi : Word) (shift : Nat) : Word :=
  if shift ≠ 0 then (hi <<< (64 - shift)) ||| (lo >>> shift) else lo

/-- One round of the loop in `GetHighestSetBitUnaccelerated`:
big_uint_word.h 444–450.  State is `(v, result)`. -/
def hsbStep (s : Word × Nat) (test : Word) (idx : Nat) : Word × Nat :=
  if s.1 &&& test ≠ 0 then (s.1 >>> idx, s.2 ||| idx) else s

/-- `GetHighestSetBitUnaccelerated`: big_uint_word.h 431–452. -/
def highestSetBitPortable (a : Word) : Nat :=
  let s0 : Word × Nat := (a, 0)
  let s1 := hsbStep s0 0xFFFFFFFF00000000#64 32
  let s2 := hsbStep s1 0xFFFF0000#64 16
  let s3 := hsbStep s2 0xFF00#64 8
  let s4 := hsbStep s3 0xF0#64 4
  let s5 := hsbStep s4 0xC#64 2
  let s6 := hsbStep s5 0x2#64 1
  s6.2 + s6.1.toNat

/-- `GetHighestSetBit` with `__builtin_clzl`: big_uint_word.h 456–461.
The builtin is modelled by `BitVec.clz`. -/
def highestSetBit (a : Word) : Nat :=
  if a = 0 then 0 else 64 - a.clz.toNat

/-- The `while` loop of `GetTrailingZerosUnaccelerated`: big_uint_word.h
484–487.  The fuel counts the shift amounts still allowed by C++ (`< 64`);
running out of fuel would be an undefined shift, reported as `none`. -/
def tzLoop (a : Word) : Nat → Nat → Option Nat
  | 0, _ => none
  | fuel + 1, tz => if a &&& (1#64 <<< tz) = 0 then tzLoop a fuel (tz + 1) else some tz

/-- `GetTrailingZerosUnaccelerated`: big_uint_word.h 481–489. -/
def trailingZerosPortable (a : Word) : Option Nat :=
  if a = 0 then some 0 else tzLoop a 64 0

/-- `SignedAbs()`: big_uint_word.h 557–562.  `llabs(INT64_MIN)` is undefined,
reported as `none`. -/
def signedAbs (a : Word) : Option Word :=
  if a = BitVec.intMin 64 then none
  else some (if a.toInt < 0 then -a else a)

/-- `Compare`: big_uint_word.h 159–162. -/
def compare (a b : Word) : Int :=
  if a = b then 0 else if a < b then -1 else 1

end Word
end Walnut
