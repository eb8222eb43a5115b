/-
Properties C01–C06, C08–C10: `BigInt` arithmetic without division.

`Rep ws x` (Verif.BigInt.Spec) says that the words `ws` are the shortest two's
complement representation of the integer `x`.
-/
import Verif.BigInt.RepLemmas
import Verif.BigInt.AddSub
import Verif.BigInt.Mul
import Verif.BigInt.Compare
import Verif.BigInt.Sign
import Verif.BigInt.Misc
import Verif.BigInt.Assign

namespace Walnut.Props
open Walnut Walnut.BigInt

/-- Non-vacuity of every `Rep` hypothesis below: each integer is represented,
by exactly one word list. -/
theorem every_integer_has_one_representation (x : Int) : ∃! ws, Rep ws x := by
  obtain ⟨ws, h⟩ := exists_rep x
  exact ⟨ws, h, fun ws' h' => rep_unique h' h⟩

/-- Concrete multi word representations used in the examples. -/
theorem rep_two64 : Rep [0#64, 1#64] (2 ^ 64) := rep_of_canon (by decide) (by decide)
theorem rep_neg_two64 : Rep [0#64, BitVec.allOnes 64] (-2 ^ 64) :=
  rep_of_canon (by decide) (by decide)
theorem rep_min : Rep [BitVec.intMin 64] (-2 ^ 63) := rep_of_canon (by decide) (by decide)
theorem rep_max : Rep [BitVec.intMax 64] (2 ^ 63 - 1) := rep_of_canon (by decide) (by decide)

/-! ### C01 -/

/-- C01: `a + b` is exact and canonical. -/
theorem C01_add {a b : List Word} {x y : Int} (ha : Rep a x) (hb : Rep b y) :
    Rep (add a b) (x + y) := by
  obtain ⟨h1, h2⟩ := add_spec ha.ne_nil hb.ne_nil
  exact rep_of_canon h1 (by rw [h2, ha.2, hb.2])

/-- C01: `a += b` on two distinct objects is exact and canonical. -/
theorem C01_add_assign {a b : List Word} {x y : Int} (ha : Rep a x) (hb : Rep b y) :
    ∃ r, addAssign a (some b) = some r ∧ Rep r (x + y) :=
  ⟨_, addAssign_other a b, C01_add ha hb⟩

/-- C01: `a += v` for an `int` (`BigIntHalfWord`) argument. -/
theorem C01_add_assign_int {a : List Word} {x : Int} (ha : Rep a x) (v : BitVec 32) :
    Rep (addAssignHalf a v) (x + v.toInt) := by
  obtain ⟨h1, h2⟩ := addAssignHalf_spec ha.ne_nil v
  exact rep_of_canon h1 (by rw [h2, ha.2])

example : Rep (add [BitVec.intMax 64] [BitVec.intMax 64]) (2 ^ 63 - 1 + (2 ^ 63 - 1)) :=
  C01_add rep_max rep_max

/-- Why C01 is about distinct objects: `a += a` is undefined as soon as `a`
does not fit in 32 bits (`other.used_words()` is read after the resize). -/
theorem C01_self_add_assign_undefined {a : List Word} {x : Int} (ha : Rep a x)
    (hx : x < -2 ^ 31 ∨ 2 ^ 31 ≤ x) : addAssign a none = none ∧ subAssign a none = none := by
  have hn : allHalfWords a a = false := by
    by_contra h
    rw [Bool.not_eq_false] at h
    obtain ⟨u, v, rfl, _, ⟨h1, h2⟩, _⟩ := allHalfWords_elim h
    have := ha.2
    simp only [sint] at this
    omega
  unfold addAssign subAssign
  simp [hn, assignSlow_self]

example : addAssign [BitVec.intMin 64] none = none :=
  (C01_self_add_assign_undefined rep_min (by norm_num)).1

/-! ### C02 -/

/-- C02: `a - b`. -/
theorem C02_sub {a b : List Word} {x y : Int} (ha : Rep a x) (hb : Rep b y) :
    Rep (sub a b) (x - y) := by
  obtain ⟨h1, h2⟩ := sub_spec ha.ne_nil hb.ne_nil
  exact rep_of_canon h1 (by rw [h2, ha.2, hb.2])

/-- C02: `a -= b` on two distinct objects. -/
theorem C02_sub_assign {a b : List Word} {x y : Int} (ha : Rep a x) (hb : Rep b y) :
    ∃ r, subAssign a (some b) = some r ∧ Rep r (x - y) :=
  ⟨_, subAssign_other a b, C02_sub ha hb⟩

theorem C02_sub_assign_int {a : List Word} {x : Int} (ha : Rep a x) (v : BitVec 32) :
    Rep (subAssignHalf a v) (x - v.toInt) := by
  obtain ⟨h1, h2⟩ := subAssignHalf_spec ha.ne_nil v
  exact rep_of_canon h1 (by rw [h2, ha.2])

/-- C02: `-a` and `Negate()`. -/
theorem C02_neg {a : List Word} {x : Int} (ha : Rep a x) : Rep (neg a) (-x) := by
  obtain ⟨h1, h2⟩ := negate_spec ha.ne_nil
  exact rep_of_canon h1 (by unfold neg; rw [h2, ha.2])

example : Rep (neg [BitVec.intMin 64]) (2 ^ 63) := by simpa using C02_neg rep_min
example : neg [BitVec.intMin 64] = [BitVec.intMin 64, 0#64] := by decide

/-! ### C03 -/

/-- C03: `a * b`. -/
theorem C03_mul {a b : List Word} {x y : Int} (ha : Rep a x) (hb : Rep b y) :
    ∃ r, mul a b = some r ∧ Rep r (x * y) := by
  obtain ⟨r, h, h1, h2⟩ := mul_spec ha.ne_nil hb.ne_nil
  exact ⟨r, h, rep_of_canon h1 (by rw [h2, ha.2, hb.2])⟩

/-- C03: `t.AddMultiply(a, b)`. -/
theorem C03_add_multiply {t a b : List Word} {z x y : Int} (ht : Rep t z) (ha : Rep a x)
    (hb : Rep b y) : ∃ r, addMultiply t a b = some r ∧ Rep r (z + x * y) := by
  obtain ⟨r, h, h1, h2⟩ := addMultiply_spec ht.ne_nil ha.ne_nil hb.ne_nil
  exact ⟨r, h, rep_of_canon h1 (by rw [h2, ht.2, ha.2, hb.2])⟩

/-- C03: `t.SubtractMultiply(a, b)`. -/
theorem C03_subtract_multiply {t a b : List Word} {z x y : Int} (ht : Rep t z) (ha : Rep a x)
    (hb : Rep b y) : ∃ r, subtractMultiply t a b = some r ∧ Rep r (z - x * y) := by
  obtain ⟨r, h, h1, h2⟩ := subtractMultiply_spec ht.ne_nil ha.ne_nil hb.ne_nil
  exact ⟨r, h, rep_of_canon h1 (by rw [h2, ht.2, ha.2, hb.2])⟩

/-- C03: `Determinant(a, b, c, d)` is `a d - b c`. -/
theorem C03_determinant {a b c d : List Word} {w x y z : Int} (ha : Rep a w) (hb : Rep b x)
    (hc : Rep c y) (hd : Rep d z) :
    ∃ r, determinant a b c d = some r ∧ Rep r (w * z - x * y) := by
  obtain ⟨r, h, h1, h2⟩ := determinant_spec ha.ne_nil hb.ne_nil hc.ne_nil hd.ne_nil
  exact ⟨r, h, rep_of_canon h1 (by rw [h2, ha.2, hb.2, hc.2, hd.2]; ring)⟩

example : ∃ r, mul [0#64, BitVec.allOnes 64] [BitVec.intMin 64] = some r ∧
    Rep r (-2 ^ 64 * -2 ^ 63) := C03_mul rep_neg_two64 rep_min

/-! ### C04 -/

/-- C04: `Compare` is the sign of the difference. -/
theorem C04_compare {a b : List Word} {x y : Int} (ha : Rep a x) (hb : Rep b y) :
    BigInt.compare a b = Int.sign (x - y) := by
  rw [compare_spec ha.canon hb.canon, ha.2, hb.2]

/-- C04: the relational operators and `LessThan(flip, b)`. -/
theorem C04_relations {a b : List Word} {x y : Int} (ha : Rep a x) (hb : Rep b y) :
    (lt a b = true ↔ x < y) ∧ (le a b = true ↔ x ≤ y) ∧ (gt a b = true ↔ x > y) ∧
    (ge a b = true ↔ x ≥ y) ∧ (eq a b = true ↔ x = y) ∧ (ne a b = true ↔ x ≠ y) ∧
    (lessThan false a b = true ↔ x < y) ∧ (lessThan true a b = true ↔ y < x) := by
  rw [lt_spec ha.canon hb.canon, le_spec ha.canon hb.canon, gt_spec ha.canon hb.canon,
    ge_spec ha.canon hb.canon, eq_spec ha.canon hb.canon, ne_spec ha.canon hb.canon,
    lessThan_spec _ ha.canon hb.canon, lessThan_spec _ ha.canon hb.canon, ha.2, hb.2]
  simp

/-- C04: comparisons with an `int`. -/
theorem C04_relations_int {a : List Word} {x : Int} (ha : Rep a x) (v : BitVec 32) :
    (ltInt a v = true ↔ x < v.toInt) ∧ (leInt a v = true ↔ x ≤ v.toInt) ∧
    (gtInt a v = true ↔ x > v.toInt) ∧ (geInt a v = true ↔ x ≥ v.toInt) ∧
    (eqInt a v = true ↔ x = v.toInt) ∧ (neInt a v = true ↔ x ≠ v.toInt) := by
  rw [ltInt_spec ha.canon, leInt_spec ha.canon, gtInt_spec ha.canon,
    geInt_spec ha.canon, eqInt_spec ha.canon, neInt_spec ha.canon, ha.2]
  simp

/-- C04: the sign functions.  `used_words()` is a `size_t` counting words in
memory, so it is far below `2^63`. -/
theorem C04_signs {a b : List Word} {x y : Int} (ha : Rep a x) (hb : Rep b y)
    (hla : a.length ≤ 2 ^ 63) (hlb : b.length ≤ 2 ^ 63) :
    Int.sign (getSign a) = Int.sign x ∧
    (isZero a = true ↔ x = 0) ∧
    (isNegative a = true ↔ x < 0) ∧
    getAbsMult a = (if x < 0 then -1 else 1) ∧
    getAbsMult2 a b = (if (x < 0 ↔ y < 0) then 1 else -1) ∧
    (hasSameSign a b = true ↔ (x < 0 ↔ y < 0)) ∧
    (hasDifferentSign a b = true ↔ ¬ (x < 0 ↔ y < 0)) := by
  rw [getSign_spec ha.canon hla, isZero_spec ha.canon hla, isNegative_spec ha.ne_nil,
    getAbsMult_spec ha.ne_nil, getAbsMult2_spec ha.ne_nil hb.ne_nil,
    hasSameSign_spec ha.canon hb.canon hla hlb, hasDifferentSign_spec ha.canon hb.canon hla hlb,
    ha.2, hb.2]
  simp

example : lt [0#64, BitVec.allOnes 64] [BitVec.intMin 64] = true :=
  (C04_relations rep_neg_two64 rep_min).1.mpr (by norm_num)
example : hasSameSign [0#64, BitVec.allOnes 64] [BitVec.intMin 64] = true :=
  (C04_signs rep_neg_two64 rep_min (by decide) (by decide)).2.2.2.2.2.1.mpr (by norm_num)

/-! ### C05 -/

/-- C05: equal values have equal hashes. -/
theorem C05_hash {a b : List Word} {x y : Int} (ha : Rep a x) (hb : Rep b y) (h : x = y) :
    getHash a = getHash b := by
  subst h
  rw [rep_unique ha hb]

/-- C05 in terms of the code's own `operator==`. -/
theorem C05_hash_of_eq {a b : List Word} {x y : Int} (ha : Rep a x) (hb : Rep b y)
    (h : eq a b = true) : getHash a = getHash b :=
  C05_hash ha hb ((C04_relations ha hb).2.2.2.2.1.mp h)

example : getHash (add [BitVec.intMin 64] [BitVec.intMin 64]) = getHash [0#64, BitVec.allOnes 64] :=
  C05_hash (C01_add rep_min rep_min) rep_neg_two64 (by norm_num)

/-! ### C06 -/

/-- C06 (partial): `++x` is exact and canonical unless `x` is `2^(64k-1) - 1` or
`-2^(64k-1) - 1` for some `k ≥ 1`.  Missing: those values, for which the
property is false, see `C06_increment_false`. -/
theorem C06_increment_partial {a : List Word} {x : Int} (ha : Rep a x)
    (h1 : ∀ k : Nat, 1 ≤ k → x ≠ 2 ^ (64 * k - 1) - 1)
    (h2 : ∀ k : Nat, 1 ≤ k → x ≠ -2 ^ (64 * k - 1) - 1) :
    ∃ r, inc a = some r ∧ Rep r (x + 1) := by
  have hl : 1 ≤ a.length := List.length_pos_iff.mpr ha.ne_nil
  rcases inc_spec ha.canon with ⟨_, e⟩ | ⟨r, e1, e2, _, e4⟩
  · rw [ha.2] at e; exact absurd e (h1 _ hl)
  · refine ⟨r, e1, rep_of_canon (e4 fun h => ?_) (by rw [e2, ha.2])⟩
    rw [ha.2]; exact h2 (a.length - 1) (by omega)

/-- Whenever `++x` returns, the value is right, even if not canonical. -/
theorem C06_increment_value {a r : List Word} {x : Int} (ha : Rep a x) (h : inc a = some r) :
    sint r = x + 1 := by
  rcases inc_spec ha.canon with ⟨e, _⟩ | ⟨r', e1, e2, _, _⟩
  · rw [e] at h; simp at h
  · rw [e1] at h; cases h; rw [e2, ha.2]

/-- C06 is false of the code: `++` on `2^63 - 1` writes out of bounds, and `++`
on `-2^63 - 1` returns a non-canonical object, which is then not `==` to
`-2^63`. -/
theorem C06_increment_false :
    (Rep [BitVec.intMax 64] (2 ^ 63 - 1) ∧ inc [BitVec.intMax 64] = none) ∧
    (Rep [BitVec.intMax 64, BitVec.allOnes 64] (-2 ^ 63 - 1) ∧
      inc [BitVec.intMax 64, BitVec.allOnes 64] = some [BitVec.intMin 64, BitVec.allOnes 64] ∧
      ¬ Rep [BitVec.intMin 64, BitVec.allOnes 64] (-2 ^ 63 - 1 + 1) ∧
      eq [BitVec.intMin 64, BitVec.allOnes 64] [BitVec.intMin 64] = false) := by
  refine ⟨⟨rep_max, by decide⟩, rep_of_canon (by decide) (by decide), by decide, ?_, by decide⟩
  intro h
  have := h.canon
  revert this
  decide

/-- C06 (partial): `--x` is exact and canonical unless `x = 2^(64k-1)`.
Missing: those values, see `C06_decrement_false`. -/
theorem C06_decrement_partial {a : List Word} {x : Int} (ha : Rep a x)
    (h2 : ∀ k : Nat, 1 ≤ k → x ≠ 2 ^ (64 * k - 1)) : Rep (dec a) (x - 1) := by
  have hl : 1 ≤ a.length := List.length_pos_iff.mpr ha.ne_nil
  obtain ⟨e1, e2⟩ := dec_spec ha.canon
  refine rep_of_canon (e2 fun h => ?_) (by rw [e1, ha.2])
  rw [ha.2]; exact h2 (a.length - 1) (by omega)

/-- `--x` always has the right value. -/
theorem C06_decrement_value {a : List Word} {x : Int} (ha : Rep a x) : sint (dec a) = x - 1 := by
  rw [(dec_spec ha.canon).1, ha.2]

/-- C06 is false of the code: `--` on `2^63` is not canonical and not `==` to
`2^63 - 1`. -/
theorem C06_decrement_false :
    Rep [BitVec.intMin 64, 0#64] (2 ^ 63) ∧
    dec [BitVec.intMin 64, 0#64] = [BitVec.intMax 64, 0#64] ∧
    ¬ Rep [BitVec.intMax 64, 0#64] (2 ^ 63 - 1) ∧
    eq [BitVec.intMax 64, 0#64] [BitVec.intMax 64] = false := by
  refine ⟨rep_of_canon (by decide) (by decide), by decide, ?_, by decide⟩
  intro h
  have := h.canon
  revert this
  decide

example : ∃ r, inc [BitVec.allOnes 64, 5#64] = some r ∧
    Rep r (2 ^ 64 * 6 - 1 + 1) := by
  have h : Rep [BitVec.allOnes 64, 5#64] (2 ^ 64 * 6 - 1) := rep_of_canon (by decide) (by decide)
  refine C06_increment_partial h ?_ ?_
  · intro k hk e
    have h1 : (2 : Int) ^ (64 * k - 1) = 2 ^ 64 * 6 := by omega
    rcases Nat.lt_or_ge (64 * k - 1) 66 with h | h
    · have : (2 : Int) ^ (64 * k - 1) ≤ 2 ^ 63 :=
        pow_le_pow_right₀ (by norm_num) (by omega)
      omega
    · have : (2 : Int) ^ 67 ≤ 2 ^ (64 * k - 1) := pow_le_pow_right₀ (by norm_num) (by omega)
      omega
  · intro k hk e
    have : (0 : Int) < 2 ^ (64 * k - 1) := by positivity
    omega

/-! ### C08 -/

/-- C08: `a << s` multiplies by `2^s`. -/
theorem C08_shift_left {a : List Word} {x : Int} (ha : Rep a x) (s : Nat) :
    Rep (shl a s) (x * 2 ^ s) := by
  obtain ⟨h1, h2⟩ := shl_spec ha.ne_nil s
  exact rep_of_canon h1 (by rw [h2, ha.2])

example : Rep (shl [BitVec.intMin 64] 129) (-2 ^ 63 * 2 ^ 129) := C08_shift_left rep_min 129

/-! ### C09 -/

/-- C09: `max_value(n) = 2^n - 1` and `min_value(n) = -2^n`. -/
theorem C09_extreme_values (n : Nat) :
    Rep (maxValue n) (2 ^ n - 1) ∧ Rep (minValue n) (-2 ^ n) :=
  ⟨rep_of_canon (maxValue_spec n).1 (maxValue_spec n).2,
   rep_of_canon (minValue_spec n).1 (minValue_spec n).2⟩

example : maxValue 64 = [BitVec.allOnes 64, 0#64] := by decide

/-! ### C10 -/

/-- C10 (partial): `abs()` is the absolute value except for `-2^63`.  Missing:
`-2^63`, see `C10_abs_false`. -/
theorem C10_abs_partial {a : List Word} {x : Int} (ha : Rep a x) (hx : x ≠ -2 ^ 63) :
    ∃ r, BigInt.abs a = some r ∧ Rep r |x| := by
  rcases abs_spec ha.canon with ⟨_, e⟩ | ⟨r, e1, e2, e3, _⟩
  · rw [ha.2] at e; exact absurd e hx
  · exact ⟨r, e1, rep_of_canon e2 (by rw [e3, ha.2])⟩

/-- C10 is false of the code at `-2^63`: `llabs(INT64_MIN)` is undefined. -/
theorem C10_abs_false : Rep [BitVec.intMin 64] (-2 ^ 63) ∧ BigInt.abs [BitVec.intMin 64] = none :=
  ⟨rep_min, by decide⟩

/-- C10: `GetAbs(was_signed)` is always right. -/
theorem C10_get_abs {a : List Word} {x : Int} (ha : Rep a x) (hl : a.length ≤ 2 ^ 63) :
    Rep (getAbs a).1 |x| ∧ ((getAbs a).2 = true ↔ x < 0) := by
  obtain ⟨h1, h2, h3⟩ := getAbs_spec ha.canon hl
  exact ⟨rep_of_canon h1 (by rw [h2, ha.2]), by rw [h3, ha.2]; simp⟩

example : ∃ r, BigInt.abs [0#64, BitVec.allOnes 64] = some r ∧ Rep r |(-2 ^ 64)| :=
  C10_abs_partial rep_neg_two64 (by norm_num)

end Walnut.Props
