/-
Property C13: the portable word arithmetic agrees with the mathematical
definition and with the accelerated variants, for all 64-bit words.
-/
import Verif.BigInt.WordBits

namespace Walnut.Props
open Walnut Walnut.Word

/-- C13: portable 64×64→128 multiplication. -/
theorem C13_multiply (a b : Word) :
    (mulPortable a b).1.toNat + 2 ^ 64 * (mulPortable a b).2.toNat = a.toNat * b.toNat :=
  mulPortable_spec a b

/-- C13: portable multiply-add. -/
theorem C13_multiply_add (a b add : Word) (carry : Bool) :
    (mulAddPortable a b add carry).1.toNat + 2 ^ 64 * (mulAddPortable a b add carry).2.toNat
      = a.toNat * b.toNat + add.toNat + carry.toNat :=
  mulAddPortable_spec a b add carry

/-- C13: portable signed multiplication. -/
theorem C13_multiply_signed (a b : Word) :
    ((mulSignedPortable a b).1.toNat : Int) + 2 ^ 64 * (mulSignedPortable a b).2.toInt
      = a.toInt * b.toInt := by
  rw [mulSignedPortable_eq]; exact mulSigned_spec a b

/-- C13: portable additions and subtractions with carry. -/
theorem C13_add_carry (a b : Word) (c : Bool) :
    (addCPortable a b c).1.toNat + 2 ^ 64 * (addCPortable a b c).2.toNat
      = a.toNat + b.toNat + c.toNat ∧
    (subCPortable a b c).1.toNat + b.toNat + c.toNat
      = a.toNat + 2 ^ 64 * (subCPortable a b c).2.toNat := by
  rw [addCPortable_eq, subCPortable_eq]; exact ⟨addC_spec a b c, subC_spec a b c⟩

/-- C13: portable 128-bit right shift. -/
theorem C13_shift_right (lo hi : Word) (s : Nat) (hs : s < 64) :
    (shiftRightPortable lo hi s).toNat = (lo.toNat + 2 ^ 64 * hi.toNat) / 2 ^ s % 2 ^ 64 := by
  rw [shiftRightPortable_eq lo hi s hs]; exact shiftRight_spec lo hi s

/-- C13: highest set bit, counted from 1, with 0 for the zero word. -/
theorem C13_highest_set_bit (a : Word) :
    a.toNat < 2 ^ highestSetBitPortable a ∧
    (a ≠ 0 → 1 ≤ highestSetBitPortable a ∧ 2 ^ (highestSetBitPortable a - 1) ≤ a.toNat) ∧
    (a = 0 → highestSetBitPortable a = 0) := by
  obtain ⟨h1, h2⟩ := highestSetBitPortable_spec a
  refine ⟨h1, fun h => ?_, fun h => by subst h; decide⟩
  have h0 : a.toNat ≠ 0 := fun e => h (BitVec.eq_of_toNat_eq (by simpa using e))
  rcases h2 with h2 | h2
  · rw [h2] at h1; omega
  · refine ⟨?_, h2⟩
    by_contra hc
    have : highestSetBitPortable a = 0 := by omega
    rw [this] at h1; omega

/-- C13: trailing zeros of a nonzero word: `2^r` divides it and `2^(r+1)` does
not. -/
theorem C13_trailing_zeros (a : Word) (h : a ≠ 0) :
    ∃ r, trailingZerosPortable a = some r ∧ 2 ^ r ∣ a.toNat ∧ ¬ 2 ^ (r + 1) ∣ a.toNat := by
  obtain ⟨r, h1, h2⟩ := trailingZerosPortable_spec a h
  exact ⟨r, h1, h2.1, h2.2⟩

/-- C13: the portable and the accelerated variants agree everywhere. -/
theorem C13_portable_eq_builtin (a b add : Word) (c : Bool) :
    mulPortable a b = mul a b ∧ mulSignedPortable a b = mulSigned a b ∧
    mulAddPortable a b add c = mulAdd a b add c ∧ addCPortable a b c = addC a b c ∧
    addOPortable a b = addO a b ∧ addBPortable a c = addB a c ∧
    subCPortable a b c = subC a b c ∧ subOPortable a b = subO a b ∧
    subBPortable a c = subB a c ∧ highestSetBitPortable a = highestSetBit a :=
  ⟨mulPortable_eq a b, mulSignedPortable_eq a b, mulAddPortable_eq a b add c,
   addCPortable_eq a b c, addOPortable_eq a b, addBPortable_eq a c, subCPortable_eq a b c,
   subOPortable_eq a b, subBPortable_eq a c, highestSetBitPortable_eq a⟩

example : trailingZerosPortable 40#64 = some 3 := by decide
example : (mulPortable (BitVec.allOnes 64) (BitVec.allOnes 64)) = (1#64, BitVec.allOnes 64 - 1) := by
  decide

end Walnut.Props
