/-
Properties C07, C10 (unsigned absolute value), C11, C12 and C15: division and
what is built on it.

The first argument `false` selects a build without assertions (`NDEBUG`),
`true` a build with assertions.  `Int.tdiv`/`Int.tmod` are the integer division
rounding towards zero and its remainder.
-/
import Verif.BigInt.RepLemmas
import Verif.BigInt.Gcd
import Verif.Props.BigIntArith

namespace Walnut.Props
open Walnut Walnut.BigInt

/-! ### C15 -/

theorem urep_of_canon {ws : List Word} {n : Nat} (h : BigUInt.UCanon ws) (e : unat ws = n) :
    URep ws n := ⟨(BigUInt.ucanon_iff_minimal ws).mp h, e⟩

theorem ucanon_of_urep {ws : List Word} {n : Nat} (h : URep ws n) : BigUInt.UCanon ws :=
  (BigUInt.ucanon_iff_minimal ws).mpr h.1

/-- C15: the unsigned long division returns `⌊m/n⌋` and `m mod n` for all `m`
and all `n > 0` (build without assertions). -/
theorem C15_divide_remainder {a b : List Word} {m n : Nat} (ha : URep a m) (hb : URep b n)
    (hn : 0 < n) :
    ∃ q r, BigUInt.divideRemainder false a b = some (q, r) ∧ URep q (m / n) ∧ URep r (m % n) := by
  obtain ⟨q, r, e, hq, hr, h1, h2⟩ := BigUInt.divideRemainder_spec (ucanon_of_urep ha)
    (ucanon_of_urep hb) (by rw [hb.2]; omega)
  rw [ha.2, hb.2] at h1
  rw [hb.2] at h2
  refine ⟨q, r, e, urep_of_canon hq ?_, urep_of_canon hr ?_⟩
  · rw [h1, Nat.mul_comm, Nat.mul_add_div hn, Nat.div_eq_of_lt h2, Nat.add_zero]
  · rw [h1, Nat.mul_comm, Nat.mul_add_mod, Nat.mod_eq_of_lt h2]

/-- C15 for a build with assertions (partial): if no assertion fails the result
is right.  Missing: some assertions do fail, see `C15_debug_false`. -/
theorem C15_debug_partial {a b q r : List Word} {m n : Nat} (ha : URep a m) (hb : URep b n)
    (hn : 0 < n) (h : BigUInt.divideRemainder true a b = some (q, r)) :
    URep q (m / n) ∧ URep r (m % n) := by
  obtain ⟨q', r', e, h1, h2⟩ := C15_divide_remainder ha hb hn
  rw [BigUInt.divideRemainder_mono h] at e
  cases e
  exact ⟨h1, h2⟩

/-- C15 is false of a build with assertions: dividing
`(2^31 + 1)·2^192` by `2^159 + 2^128 - 1` reads a word past `size()`, which is
the failure of an assertion.  Without assertions the result is right. -/
theorem C15_debug_false :
    URep [0#64, 0#64, 0#64, 0x80000001#64] (0x80000001 * 2 ^ 192) ∧
    URep [BitVec.allOnes 64, BitVec.allOnes 64, 0x80000000#64] (2 ^ 159 + 2 ^ 128 - 1) ∧
    BigUInt.divideRemainder true [0#64, 0#64, 0#64, 0x80000001#64]
      [BitVec.allOnes 64, BitVec.allOnes 64, 0x80000000#64] = none ∧
    BigUInt.divideRemainder false [0#64, 0#64, 0#64, 0x80000001#64]
      [BitVec.allOnes 64, BitVec.allOnes 64, 0x80000000#64] = some ([0#64, 1#64], [0#64, 1#64]) := by
  refine ⟨urep_of_canon (by decide) (by decide), urep_of_canon (by decide) (by decide), ?_, ?_⟩ <;>
    decide +kernel

example : ∃ q r, BigUInt.divideRemainder false [7#64, 0#64, 5#64] [3#64, 2#64] = some (q, r) ∧
    URep q ((7 + 5 * 2 ^ 128) / (3 + 2 * 2 ^ 64)) ∧ URep r ((7 + 5 * 2 ^ 128) % (3 + 2 * 2 ^ 64)) :=
  C15_divide_remainder (urep_of_canon (by decide) (by decide)) (urep_of_canon (by decide) (by decide))
    (by norm_num)

/-! ### C10, unsigned absolute value and conversion back -/

/-- C10: `GetUIntAbs(&was_signed)`. -/
theorem C10_get_uint_abs {a : List Word} {x : Int} (ha : Rep a x) :
    URep (getUIntAbs a).1 x.natAbs ∧ ((getUIntAbs a).2 = true ↔ x < 0) := by
  obtain ⟨h1, h2, h3⟩ := getUIntAbs_spec ha.canon
  rw [ha.2] at h2 h3
  exact ⟨urep_of_canon h1 (by zify; exact h2), by rw [h3]; simp⟩

/-- C10: `BigInt(const BigUInt&)` keeps the value. -/
theorem C10_of_biguint {a : List Word} {n : Nat} (ha : URep a n) : Rep (ofBigUInt a) n := by
  obtain ⟨h1, h2⟩ := ofBigUInt_spec ha.1.1
  exact rep_of_canon h1 (by rw [h2, ha.2])

example : URep (getUIntAbs [BitVec.intMin 64]).1 (2 ^ 63) := (C10_get_uint_abs rep_min).1
example : Rep (ofBigUInt [BitVec.intMin 64]) (2 ^ 63) := by
  have h : URep [BitVec.intMin 64] (2 ^ 63) := urep_of_canon (by decide) (by decide)
  exact_mod_cast C10_of_biguint h

/-! ### C07 -/

/-- C07 (partial): `/`, `%` and `DivideRemainder` compute the quotient rounded
towards zero and its remainder.  Missing: `-2^63` divided by `-1`, which is
undefined, see `C07_false`, and builds with assertions, see `C07_debug_partial`
and `C07_debug_false`. -/
theorem C07_divide_partial {a b : List Word} {x y : Int} (ha : Rep a x) (hb : Rep b y) (hy : y ≠ 0)
    (hm : ¬ (x = -2 ^ 63 ∧ y = -1)) :
    ∃ q r, divideRemainder false a b = some (q, r) ∧ div false a b = some q ∧
      rem false a b = some r ∧ Rep q (x.tdiv y) ∧ Rep r (x.tmod y) := by
  obtain ⟨q, r, e1, e2, e3, h1, h2, h3, h4⟩ := divideRemainder_spec ha.canon hb.canon
    (by rw [hb.2]; exact hy) (by rw [ha.2, hb.2]; exact hm)
  rw [ha.2, hb.2] at h3 h4
  exact ⟨q, r, e1, e2, e3, rep_of_canon h1 h3, rep_of_canon h2 h4⟩

/-- What `tdiv` and `tmod` mean: the division identity, the remainder is smaller
than the divisor and has the sign of the dividend, and the quotient is the
truncation of the rational quotient. -/
theorem C07_meaning (x y : Int) (hy : y ≠ 0) :
    x = x.tdiv y * y + x.tmod y ∧ |x.tmod y| < |y| ∧ (0 ≤ x → 0 ≤ x.tmod y) ∧
    (x ≤ 0 → x.tmod y ≤ 0) ∧ |x.tdiv y| = |x| / |y| := by
  refine ⟨?_, ?_, fun h => Int.tmod_nonneg _ h, ?_, ?_⟩
  · have := Int.tmod_add_mul_tdiv x y
    linarith [Int.mul_comm y (x.tdiv y)]
  · rw [Int.abs_eq_natAbs, Int.abs_eq_natAbs, Int.natAbs_tmod]
    have := Nat.mod_lt x.natAbs (show 0 < y.natAbs by omega)
    omega
  · intro h
    have := Int.tmod_nonneg y (show 0 ≤ -x by omega)
    rw [Int.neg_tmod] at this; omega
  · rw [Int.abs_eq_natAbs, Int.natAbs_tdiv, Int.abs_eq_natAbs, Int.abs_eq_natAbs]
    exact Int.natCast_div _ _

/-- C07 is false of the code for `-2^63 / -1` (signed overflow). -/
theorem C07_false : Rep [BitVec.intMin 64] (-2 ^ 63) ∧ Rep [BitVec.allOnes 64] (-1) ∧
    (∀ dbg, divideRemainder dbg [BitVec.intMin 64] [BitVec.allOnes 64] = none ∧
      div dbg [BitVec.intMin 64] [BitVec.allOnes 64] = none ∧
      rem dbg [BitVec.intMin 64] [BitVec.allOnes 64] = none) :=
  ⟨rep_min, rep_of_canon (by decide) (by decide), by decide⟩

/-- C07 with assertions (partial): if no assertion fails the result is right. -/
theorem C07_debug_partial {a b q r : List Word} {x y : Int} (ha : Rep a x) (hb : Rep b y)
    (hy : y ≠ 0) (hm : ¬ (x = -2 ^ 63 ∧ y = -1)) (h : divideRemainder true a b = some (q, r)) :
    Rep q (x.tdiv y) ∧ Rep r (x.tmod y) := by
  obtain ⟨q', r', e, _, _, h1, h2⟩ := C07_divide_partial ha hb hy hm
  rw [divideRemainder_mono h] at e
  cases e
  exact ⟨h1, h2⟩

theorem C07_debug_false :
    Rep [0#64, 0#64, 0#64, 0x80000001#64] (0x80000001 * 2 ^ 192) ∧
    Rep [BitVec.allOnes 64, BitVec.allOnes 64, 0x80000000#64] (2 ^ 159 + 2 ^ 128 - 1) ∧
    div true [0#64, 0#64, 0#64, 0x80000001#64]
      [BitVec.allOnes 64, BitVec.allOnes 64, 0x80000000#64] = none := by
  refine ⟨rep_of_canon (by decide) (by decide), rep_of_canon (by decide) (by decide), ?_⟩
  decide +kernel

example : ∃ q r, divideRemainder false [0#64, BitVec.allOnes 64] [BitVec.intMin 64] = some (q, r) ∧
    div false [0#64, BitVec.allOnes 64] [BitVec.intMin 64] = some q ∧
    rem false [0#64, BitVec.allOnes 64] [BitVec.intMin 64] = some r ∧
    Rep q ((-2 ^ 64 : Int).tdiv (-2 ^ 63)) ∧ Rep r ((-2 ^ 64 : Int).tmod (-2 ^ 63)) :=
  C07_divide_partial rep_neg_two64 rep_min (by norm_num) (by norm_num)

/-! ### C11 -/

/-- C11 (partial): if one argument is not negative, the recursion ends (after at
most `|y| + 1` calls) and the result divides both arguments and is divisible by
every common divisor: it is `± gcd`.  Missing: the sign (see `C11_sign_false`),
and two negative arguments (see `C11_negative_partial`, `C11_undefined`). -/
theorem C11_gcd_partial {a b : List Word} {x y : Int} (ha : Rep a x) (hb : Rep b y)
    (hla : a.length ≤ 2 ^ 63) (hlb : b.length ≤ 2 ^ 63) (hs : 0 ≤ x ∨ 0 ≤ y) :
    ∀ fuel, y.natAbs < fuel → ∃ g z, gcd false fuel a b = some g ∧ Rep g z ∧
      z.natAbs = Int.gcd x y := by
  intro fuel hf
  obtain ⟨g, hg⟩ := gcd_defined ha.canon hb.canon hla hlb (fuel := fuel) (by rw [hb.2]; exact hf)
    (by rw [ha.2, hb.2]; exact hs)
  obtain ⟨h1, h2⟩ := gcd_correct ha.canon hb.canon hla hlb hg
  rw [ha.2, hb.2] at h2
  exact ⟨g, sint g, hg, rep_of_canon h1 rfl, h2⟩

/-- C11 (partial): for all arguments, with or without assertions, whatever is
returned is `± gcd`. -/
theorem C11_negative_partial {a b g : List Word} {x y : Int} (dbg : Bool) (ha : Rep a x)
    (hb : Rep b y) (hla : a.length ≤ 2 ^ 63) (hlb : b.length ≤ 2 ^ 63) (fuel : Nat)
    (h : gcd dbg fuel a b = some g) : ∃ z, Rep g z ∧ z.natAbs = Int.gcd x y := by
  have h' : gcd false fuel a b = some g := by
    cases dbg
    · exact h
    · exact gcd_mono h
  obtain ⟨h1, h2⟩ := gcd_correct ha.canon hb.canon hla hlb h'
  rw [ha.2, hb.2] at h2
  exact ⟨sint g, rep_of_canon h1 rfl, h2⟩

/-- The result can be negative: `gcd(4, -6) = -2`. -/
theorem C11_sign_false : Rep [4#64] 4 ∧ Rep [-6#64] (-6) ∧
    gcd false 7 [4#64] [-6#64] = some [-2#64] ∧ Rep [-2#64] (-2) :=
  ⟨rep_of_canon (by decide) (by decide), rep_of_canon (by decide) (by decide), by decide +kernel,
    rep_of_canon (by decide) (by decide)⟩

/-- `gcd(-1, -2^63)` is undefined: it computes `-2^63 % -1`. -/
theorem C11_undefined (fuel : Nat) : gcd false (fuel + 2) [BitVec.allOnes 64] [BitVec.intMin 64] = none := by
  unfold gcd
  rw [show isZero [BitVec.intMin 64] = false by decide +kernel]
  rw [show rem false [BitVec.allOnes 64] [BitVec.intMin 64] = some [BitVec.allOnes 64] by decide +kernel]
  simp only [Bool.false_eq_true, if_false, Option.bind_some]
  unfold gcd
  rw [show isZero [BitVec.allOnes 64] = false by decide +kernel]
  rw [show rem false [BitVec.intMin 64] [BitVec.allOnes 64] = none by decide +kernel]
  rfl

example : ∃ g z, gcd false (2 ^ 64 + 1) [12#64] [0#64, 1#64] = some g ∧ Rep g z ∧
    z.natAbs = Int.gcd 12 (2 ^ 64) :=
  C11_gcd_partial (rep_of_canon (by decide) (by decide)) rep_two64 (by decide) (by decide)
    (by norm_num) _ (by norm_num)

/-! ### C12 -/

/-- C12: `out << a` writes the decimal numeral of the value: a minus sign iff it
is negative followed by the base ten digits (`Nat.toDigits 10`, most significant
first, no leading zero).  The digit loop ends after at most `|x| + 1` rounds and
stays in its buffer (build without assertions). -/
theorem C12_print {a : List Word} {x : Int} (ha : Rep a x) :
    ∀ fuel, x.natAbs < fuel → print false fuel a =
      some (if x < 0 then '-' :: Nat.toDigits 10 x.natAbs else Nat.toDigits 10 x.natAbs) := by
  intro fuel hf
  rw [print_spec ha.canon (by rw [ha.2]; exact hf), ha.2]

/-- The value of a list of decimal digits. -/
def readDigits (l : List Char) : Nat := l.foldl (fun acc c => acc * 10 + (c.toNat - '0'.toNat)) 0

theorem digitChar_value (n : Nat) (h : n < 10) : n.digitChar.toNat - '0'.toNat = n := by
  have : ∀ k : Fin 10, k.val.digitChar.toNat - '0'.toNat = k.val := by decide
  exact this ⟨n, h⟩

/-- C12: reading the digits back gives the value, and there is no leading zero. -/
theorem C12_digits (n : Nat) : readDigits (Nat.toDigits 10 n) = n ∧
    (n ≠ 0 → (Nat.toDigits 10 n).head? ≠ some '0') := by
  induction n using Nat.strong_induction_on with
  | _ n ih =>
    by_cases h : n < 10
    · rw [Nat.toDigits_of_lt_base h]
      have h1 : ∀ k : Fin 10, readDigits [k.val.digitChar] = k.val ∧
        (k.val ≠ 0 → [k.val.digitChar].head? ≠ some '0') := by decide
      exact h1 ⟨n, h⟩
    · rw [Nat.toDigits_of_base_le (by norm_num) (by omega)]
      obtain ⟨h1, h2⟩ := ih (n / 10) (by omega)
      constructor
      · have := digitChar_value (n % 10) (by omega)
        unfold readDigits at h1 ⊢
        rw [List.foldl_append, h1]
        simp only [List.foldl_cons, List.foldl_nil, this]
        omega
      · intro _
        have := h2 (by omega)
        rw [List.head?_append]
        cases hd : (Nat.toDigits 10 (n / 10)).head? with
        | none =>
          exfalso
          rw [List.head?_eq_none_iff] at hd
          have h3 := h1
          rw [hd] at h3
          simp only [readDigits, List.foldl_nil] at h3
          omega
        | some c =>
          rw [hd] at this
          simpa using this

example : print false (2 ^ 63 + 1) [BitVec.intMin 64] = some ('-' :: Nat.toDigits 10 (2 ^ 63)) := by
  have := C12_print rep_min (2 ^ 63 + 1) (by norm_num)
  simpa using this

end Walnut.Props
