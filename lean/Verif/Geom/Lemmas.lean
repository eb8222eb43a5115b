/- Helper lemmas for the geometric properties. -/
import Verif.Geom.Spec

namespace Walnut.Geom

theorem lessThan_iff (flip : Bool) (a b : Int) :
    lessThan flip a b = true ↔ if flip then b < a else a < b := by
  cases flip <;> simp [lessThan]

theorem xor_decide_iff (p q : Prop) [Decidable p] [Decidable q] :
    xor (decide p) (decide q) = true ↔ ¬ (p ↔ q) := by
  by_cases hp : p <;> by_cases hq : q <;> simp [hp, hq]

theorem hasDifferentSign_iff (a b : Int) : hasDifferentSign a b = true ↔ ¬ (a < 0 ↔ b < 0) := by
  unfold hasDifferentSign
  by_cases hp : a < 0 <;> by_cases hq : b < 0 <;> simp [hp, hq]

/-- Comparison of two quotients of integers. -/
theorem div_lt_div_signs {a b c d : Int} (hb : b ≠ 0) (hd : d ≠ 0) :
    ((a : ℚ) / b < (c : ℚ) / d) ↔ if (b < 0 ↔ d < 0) then a * d < c * b else c * b < a * d := by
  have hbq : (b : ℚ) ≠ 0 := by exact_mod_cast hb
  have hdq : (d : ℚ) ≠ 0 := by exact_mod_cast hd
  have key : (a : ℚ) / b - (c : ℚ) / d = ((a * d - c * b : Int) : ℚ) / ((b * d : Int) : ℚ) := by
    push_cast; field_simp
  rw [← sub_neg, key, div_neg_iff]
  by_cases h1 : b < 0 <;> by_cases h2 : d < 0
  · have hp : 0 < b * d := Int.mul_pos_of_neg_of_neg h1 h2
    have hp' : (0 : ℚ) < ((b * d : Int) : ℚ) := by exact_mod_cast hp
    simp only [h1, h2, if_true, hp', not_lt.mpr hp'.le, and_false, false_or, and_true]
    rw [Int.cast_lt_zero]; omega
  · have hp : b * d < 0 := Int.mul_neg_of_neg_of_pos h1 (by omega)
    have hp' : ((b * d : Int) : ℚ) < 0 := by exact_mod_cast hp
    simp only [h1, h2, hp', not_lt.mpr hp'.le, and_false, or_false, and_true, iff_false, not_true,
      if_false]
    rw [Int.cast_pos]; omega
  · have hp : b * d < 0 := Int.mul_neg_of_pos_of_neg (by omega) h2
    have hp' : ((b * d : Int) : ℚ) < 0 := by exact_mod_cast hp
    simp only [h1, h2, hp', not_lt.mpr hp'.le, and_false, or_false, and_true, iff_true,
      if_false]
    rw [Int.cast_pos]; omega
  · have hp : 0 < b * d := Int.mul_pos (by omega) (by omega)
    have hp' : (0 : ℚ) < ((b * d : Int) : ℚ) := by exact_mod_cast hp
    simp only [h1, h2, if_true, hp', not_lt.mpr hp'.le, and_false, false_or, and_true]
    rw [Int.cast_lt_zero]; omega

theorem div_eq_div_int {a b c d : Int} (hb : b ≠ 0) (hd : d ≠ 0) :
    ((a : ℚ) / b = (c : ℚ) / d) ↔ a * d = c * b := by
  have hbq : (b : ℚ) ≠ 0 := by exact_mod_cast hb
  have hdq : (d : ℚ) ≠ 0 := by exact_mod_cast hd
  rw [div_eq_div_iff hbq hdq]
  exact_mod_cast Iff.rfl

theorem cmp_neg_iff (a b : Int) : cmp a b < 0 ↔ a < b := by
  unfold cmp; rw [Int.sign_neg_iff]; omega
theorem cmp_zero_iff (a b : Int) : cmp a b = 0 ↔ a = b := by
  unfold cmp; rw [Int.sign_eq_zero_iff_zero]; omega
theorem cmp_pos_iff (a b : Int) : 0 < cmp a b ↔ b < a := by
  unfold cmp; rw [Int.sign_pos_iff]; omega

theorem absMult_cases (a : Int) : (a < 0 ∧ absMult a = -1) ∨ (0 ≤ a ∧ absMult a = 1) := by
  unfold absMult; split <;> omega

theorem absMult2_cases (a b : Int) :
    ((a < 0 ↔ b < 0) ∧ absMult2 a b = 1) ∨ (¬ (a < 0 ↔ b < 0) ∧ absMult2 a b = -1) := by
  unfold absMult2; split <;> tauto

end Walnut.Geom
