/- Helper lemmas about the word operations of `Verif.BigInt.Word`. -/
import Verif.BigInt.Word

namespace Walnut.Word

theorem toNat_lt (a : Word) : a.toNat < 2 ^ 64 := a.isLt

theorem toNat_ofBool (b : Bool) : (BitVec.ofNat 64 b.toNat).toNat = b.toNat := by
  cases b <;> rfl

theorem addC_spec (a b : Word) (c : Bool) :
    (addC a b c).1.toNat + 2 ^ 64 * (addC a b c).2.toNat = a.toNat + b.toNat + c.toNat := by
  have ha := a.isLt
  have hb := b.isLt
  have hc : c.toNat ≤ 1 := by cases c <;> decide
  simp only [addC, BitVec.toNat_add, toNat_ofBool]
  rcases Nat.lt_or_ge (a.toNat + b.toNat) (2 ^ 64) with h1 | h1
  · rcases Nat.lt_or_ge (a.toNat + b.toNat + c.toNat) (2 ^ 64) with h2 | h2
    · have e1 : ¬ (2 ^ 64 ≤ a.toNat + b.toNat) := by omega
      have e2 : ¬ (2 ^ 64 ≤ (a.toNat + b.toNat) % 2 ^ 64 + c.toNat) := by omega
      simp only [e1, e2, decide_false, Bool.or_self, Bool.toNat_false]
      omega
    · have e1 : ¬ (2 ^ 64 ≤ a.toNat + b.toNat) := by omega
      have e2 : (2 ^ 64 ≤ (a.toNat + b.toNat) % 2 ^ 64 + c.toNat) := by omega
      simp only [e1, e2, decide_false, decide_true, Bool.or_true, Bool.toNat_true]
      omega
  · have e1 : (2 ^ 64 ≤ a.toNat + b.toNat) := by omega
    simp only [e1, decide_true, Bool.true_or, Bool.toNat_true]
    omega

theorem addO_spec (a b : Word) :
    (addO a b).1.toNat + 2 ^ 64 * (addO a b).2.toNat = a.toNat + b.toNat := by
  have ha := a.isLt
  have hb := b.isLt
  simp only [addO, BitVec.toNat_add]
  rcases Nat.lt_or_ge (a.toNat + b.toNat) (2 ^ 64) with h1 | h1
  · have e1 : ¬ (2 ^ 64 ≤ a.toNat + b.toNat) := by omega
    simp only [e1, decide_false, Bool.toNat_false]; omega
  · simp only [h1, decide_true, Bool.toNat_true]; omega

theorem addB_spec (a : Word) (c : Bool) :
    (addB a c).1.toNat + 2 ^ 64 * (addB a c).2.toNat = a.toNat + c.toNat := by
  have ha := a.isLt
  have hc : c.toNat ≤ 1 := by cases c <;> decide
  simp only [addB, BitVec.toNat_add, toNat_ofBool]
  rcases Nat.lt_or_ge (a.toNat + c.toNat) (2 ^ 64) with h1 | h1
  · have e1 : ¬ (2 ^ 64 ≤ a.toNat + c.toNat) := by omega
    simp only [e1, decide_false, Bool.toNat_false]; omega
  · simp only [h1, decide_true, Bool.toNat_true]; omega

theorem subC_spec (a b : Word) (c : Bool) :
    (subC a b c).1.toNat + b.toNat + c.toNat = a.toNat + 2 ^ 64 * (subC a b c).2.toNat := by
  have ha := a.isLt
  have hb := b.isLt
  have hc : c.toNat ≤ 1 := by cases c <;> decide
  simp only [subC, BitVec.toNat_sub, toNat_ofBool]
  rcases Nat.lt_or_ge a.toNat b.toNat with h1 | h1
  · have e1 : a.toNat < b.toNat := h1
    simp only [e1, decide_true, Bool.true_or, Bool.toNat_true]
    omega
  · have e1 : ¬ a.toNat < b.toNat := by omega
    rcases Nat.lt_or_ge a.toNat (b.toNat + c.toNat) with h2 | h2
    · have e2 : (2 ^ 64 - b.toNat + a.toNat) % 2 ^ 64 < c.toNat := by omega
      simp only [e1, e2, decide_false, decide_true, Bool.or_true, Bool.toNat_true]
      omega
    · have e2 : ¬ (2 ^ 64 - b.toNat + a.toNat) % 2 ^ 64 < c.toNat := by omega
      simp only [e1, e2, decide_false, Bool.or_self, Bool.toNat_false]
      omega

theorem subO_spec (a b : Word) :
    (subO a b).1.toNat + b.toNat = a.toNat + 2 ^ 64 * (subO a b).2.toNat := by
  have ha := a.isLt
  have hb := b.isLt
  simp only [subO, BitVec.toNat_sub]
  rcases Nat.lt_or_ge a.toNat b.toNat with h1 | h1
  · simp only [h1, decide_true, Bool.toNat_true]; omega
  · have e1 : ¬ a.toNat < b.toNat := by omega
    simp only [e1, decide_false, Bool.toNat_false]; omega

theorem subB_spec (a : Word) (c : Bool) :
    (subB a c).1.toNat + c.toNat = a.toNat + 2 ^ 64 * (subB a c).2.toNat := by
  have ha := a.isLt
  have hc : c.toNat ≤ 1 := by cases c <;> decide
  simp only [subB, BitVec.toNat_sub, toNat_ofBool]
  rcases Nat.lt_or_ge a.toNat c.toNat with h1 | h1
  · simp only [h1, decide_true, Bool.toNat_true]; omega
  · have e1 : ¬ a.toNat < c.toNat := by omega
    simp only [e1, decide_false, Bool.toNat_false]; omega

theorem addCPortable_eq (a b : Word) (c : Bool) : addCPortable a b c = addC a b c := by
  have ha := a.isLt
  have hb := b.isLt
  have hc : c.toNat ≤ 1 := by cases c <;> decide
  simp only [addCPortable, addC, Prod.mk.injEq, true_and, BitVec.lt_def, BitVec.toNat_add,
    toNat_ofBool]
  congr 1 <;> apply decide_eq_decide.mpr <;> omega

theorem addOPortable_eq (a b : Word) : addOPortable a b = addO a b := by
  have ha := a.isLt
  have hb := b.isLt
  simp only [addOPortable, addO, Prod.mk.injEq, true_and, BitVec.lt_def, BitVec.toNat_add]
  apply decide_eq_decide.mpr; omega

theorem addBPortable_eq (a : Word) (c : Bool) : addBPortable a c = addB a c := by
  have ha := a.isLt
  have hc : c.toNat ≤ 1 := by cases c <;> decide
  simp only [addBPortable, addB, Prod.mk.injEq, true_and, BitVec.lt_def, BitVec.toNat_add,
    toNat_ofBool]
  apply decide_eq_decide.mpr; omega

theorem subCPortable_eq (a b : Word) (c : Bool) : subCPortable a b c = subC a b c := by
  have ha := a.isLt
  have hb := b.isLt
  have hc : c.toNat ≤ 1 := by cases c <;> decide
  simp only [subCPortable, subC, Prod.mk.injEq, true_and, gt_iff_lt, BitVec.lt_def,
    BitVec.toNat_sub]
  congr 1
  apply decide_eq_decide.mpr; omega

theorem subOPortable_eq (a b : Word) : subOPortable a b = subO a b := by
  have ha := a.isLt
  have hb := b.isLt
  simp only [subOPortable, subO, Prod.mk.injEq, true_and, gt_iff_lt, BitVec.lt_def,
    BitVec.toNat_sub]
  apply decide_eq_decide.mpr; omega

theorem subBPortable_eq (a : Word) (c : Bool) : subBPortable a c = subB a c := by
  have ha := a.isLt
  have hc : c.toNat ≤ 1 := by cases c <;> decide
  simp only [subBPortable, subB, Prod.mk.injEq, true_and, gt_iff_lt, BitVec.lt_def,
    BitVec.toNat_sub, toNat_ofBool]
  apply decide_eq_decide.mpr; omega

theorem mul_lt (a b : Word) : a.toNat * b.toNat ≤ (2 ^ 64 - 1) * (2 ^ 64 - 1) := by
  have ha := a.isLt
  have hb := b.isLt
  exact Nat.mul_le_mul (by omega) (by omega)

theorem toNat_widen (a : Word) : (a.setWidth 128).toNat = a.toNat := by
  rw [BitVec.toNat_setWidth]
  have := a.isLt
  omega

theorem mul_spec (a b : Word) :
    (mul a b).1.toNat + 2 ^ 64 * (mul a b).2.toNat = a.toNat * b.toNat := by
  have h := mul_lt a b
  have e : (a.setWidth 128 * b.setWidth 128).toNat = a.toNat * b.toNat := by
    rw [BitVec.toNat_mul, toNat_widen, toNat_widen]
    omega
  simp only [mul, BitVec.toNat_setWidth, BitVec.toNat_ushiftRight, Nat.shiftRight_eq_div_pow, e]
  generalize a.toNat * b.toNat = x at *
  omega

theorem mulAdd_spec (a b add : Word) (c : Bool) :
    (mulAdd a b add c).1.toNat + 2 ^ 64 * (mulAdd a b add c).2.toNat
      = a.toNat * b.toNat + add.toNat + c.toNat := by
  have h := mul_lt a b
  have hadd := add.isLt
  have hc : c.toNat ≤ 1 := by cases c <;> decide
  have hc' : (BitVec.ofNat 128 c.toNat).toNat = c.toNat := by cases c <;> rfl
  have e : (a.setWidth 128 * b.setWidth 128 + add.setWidth 128
      + BitVec.ofNat 128 c.toNat).toNat = a.toNat * b.toNat + add.toNat + c.toNat := by
    rw [BitVec.toNat_add, BitVec.toNat_add, BitVec.toNat_mul, toNat_widen, toNat_widen,
      toNat_widen, hc']
    omega
  simp only [mulAdd, BitVec.toNat_setWidth, BitVec.toNat_ushiftRight,
    Nat.shiftRight_eq_div_pow, e]
  generalize a.toNat * b.toNat + add.toNat + c.toNat = x at *
  omega

/-- Signed reading of a word in terms of the unsigned one. -/
theorem toInt_cases (a : Word) :
    (a.toNat < 2 ^ 63 ∧ a.toInt = a.toNat) ∨
    (2 ^ 63 ≤ a.toNat ∧ a.toInt = (a.toNat : Int) - 2 ^ 64) := by
  have := a.isLt
  rw [BitVec.toInt_eq_toNat_cond]
  split <;> omega

theorem toInt_bounds (a : Word) : -2 ^ 63 ≤ a.toInt ∧ a.toInt < 2 ^ 63 := by
  have := a.isLt
  rcases toInt_cases a with ⟨h, e⟩ | ⟨h, e⟩ <;> omega

theorem toInt_mul_bounds (a b : Word) :
    -2 ^ 126 ≤ a.toInt * b.toInt ∧ a.toInt * b.toInt ≤ 2 ^ 126 := by
  obtain ⟨ha1, ha2⟩ := toInt_bounds a
  obtain ⟨hb1, hb2⟩ := toInt_bounds b
  constructor <;> nlinarith

theorem toInt_widen (a : Word) : (a.signExtend 128).toInt = a.toInt := by
  exact BitVec.toInt_signExtend_of_le (by decide)

theorem mulSigned_spec (a b : Word) :
    ((mulSigned a b).1.toNat : Int) + 2 ^ 64 * (mulSigned a b).2.toInt = a.toInt * b.toInt := by
  obtain ⟨h1, h2⟩ := toInt_mul_bounds a b
  have e : (a.signExtend 128 * b.signExtend 128).toInt = a.toInt * b.toInt := by
    rw [BitVec.toInt_mul, toInt_widen, toInt_widen, Int.bmod_eq_of_le] <;> omega
  have elo : ((mulSigned a b).1.toNat : Int) = (a.toInt * b.toInt) % 2 ^ 64 := by
    simp only [mulSigned, BitVec.toNat_setWidth]
    rw [← e, BitVec.toInt_eq_toNat_cond]
    split <;> omega
  have ehi : (mulSigned a b).2.toInt = (a.toInt * b.toInt) / 2 ^ 64 := by
    simp only [mulSigned]
    have ex : ((a.signExtend 128 * b.signExtend 128).sshiftRight 64).toInt
        = a.toInt * b.toInt / 2 ^ 64 := by
      rw [BitVec.toInt_sshiftRight, e, Int.shiftRight_eq_div_pow]
      rfl
    generalize (a.signExtend 128 * b.signExtend 128).sshiftRight 64 = x at *
    generalize a.toInt * b.toInt = p at *
    rw [BitVec.toInt_setWidth]
    rw [BitVec.toInt_eq_toNat_cond] at ex
    have := x.isLt
    rw [Int.bmod_def]
    split at ex <;> split <;> omega
  rw [elo, ehi]
  omega

end Walnut.Word
