/- Sign functions and hash of `BigInt`. -/
import Verif.BigInt.AddSub
import Mathlib.Data.Int.Order.Basic

namespace Walnut.BigInt

theorem toInt_or_neg_iff (a b : Word) : (a ||| b).toInt < 0 ↔ a.toInt < 0 ∨ b.toInt < 0 := by
  simp only [toInt_neg_iff_msb, BitVec.msb_or, Bool.or_eq_true]

theorem toInt_xor_neg_iff (a b : Word) :
    (a ^^^ b).toInt < 0 ↔ ¬ (a.toInt < 0 ↔ b.toInt < 0) := by
  simp only [toInt_neg_iff_msb, BitVec.msb_xor]
  cases a.msb <;> cases b.msb <;> simp

theorem sign_word {ws : List Word} (h : Canon ws) (hl : ws.length ≤ 2 ^ 63) :
    ((top ws ||| BitVec.ofNat 64 (ws.length - 1)).toInt < 0 ↔ sint ws < 0) ∧
    ((top ws ||| BitVec.ofNat 64 (ws.length - 1)).toInt = 0 ↔ sint ws = 0) := by
  have hn : (BitVec.ofNat 64 (ws.length - 1)).toNat = ws.length - 1 := by
    rw [BitVec.toNat_ofNat]; omega
  have hnn : ¬ (BitVec.ofNat 64 (ws.length - 1)).toInt < 0 := by
    rcases Word.toInt_cases (BitVec.ofNat 64 (ws.length - 1)) with ⟨_, e⟩ | ⟨e, _⟩ <;> omega
  refine ⟨?_, ?_⟩
  · rw [toInt_or_neg_iff, sint_neg_iff h.ne_nil]
    simp [hnn]
  · rw [show ∀ w : Word, w.toInt = 0 ↔ w = 0#64 from
      fun w => ⟨fun e => BitVec.eq_of_toInt_eq (by simpa using e), fun e => by simp [e]⟩]
    by_cases h1 : ws.length = 1
    · obtain ⟨w, rfl⟩ := List.length_eq_one_iff.mp h1
      simp only [List.length_singleton, Nat.sub_self, top, sint, BitVec.or_zero]
      exact ⟨fun e => by simp [e], fun e => BitVec.eq_of_toInt_eq (by simpa using e)⟩
    · have h0 : ws.length ≠ 0 := by simpa using h.ne_nil
      have hbig := h.large (by omega)
      have hp : (0 : Int) < 2 ^ (64 * (ws.length - 1) - 1) := by positivity
      constructor
      · intro e
        have := congrArg BitVec.toNat e
        rw [BitVec.toNat_or, hn] at this
        have h2 : ws.length - 1 ≤ 0 := by
          have h3 := Nat.right_le_or (n := (top ws).toNat) (m := ws.length - 1)
          simp at this
          omega
        omega
      · intro e; omega

theorem getSign_neg {ws : List Word} (h : Canon ws) (hl : ws.length ≤ 2 ^ 63) :
    getSign ws < 0 ↔ sint ws < 0 := (sign_word h hl).1

theorem getSign_zero {ws : List Word} (h : Canon ws) (hl : ws.length ≤ 2 ^ 63) :
    getSign ws = 0 ↔ sint ws = 0 := (sign_word h hl).2

theorem getSign_spec {ws : List Word} (h : Canon ws) (hl : ws.length ≤ 2 ^ 63) :
    Int.sign (getSign ws) = Int.sign (sint ws) := by
  have h1 := getSign_neg h hl
  have h2 := getSign_zero h hl
  rcases lt_trichotomy (sint ws) 0 with h3 | h3 | h3
  · rw [Int.sign_eq_neg_one_of_neg h3, Int.sign_eq_neg_one_of_neg (h1.mpr h3)]
  · rw [h3, h2.mpr h3]
  · have : 0 < getSign ws := by omega
    rw [Int.sign_eq_one_of_pos h3, Int.sign_eq_one_of_pos this]

theorem isZero_spec {ws : List Word} (h : Canon ws) (hl : ws.length ≤ 2 ^ 63) :
    isZero ws = decide (sint ws = 0) := by
  unfold isZero; rw [decide_eq_decide]; exact getSign_zero h hl

theorem signExt_neg_iff (w : Word) : (Word.signExt w).toInt < 0 ↔ w.toInt < 0 := by
  rcases Word.signExt_cases w with ⟨h1, h⟩ | ⟨h1, h⟩ <;>
    rcases Word.toInt_cases w with ⟨h2, h3⟩ | ⟨h2, h3⟩ <;> rw [h] <;>
    first
    | omega
    | (rw [show (0#64).toInt = 0 from rfl]; omega)
    | (rw [show (BitVec.allOnes 64).toInt = -1 from rfl]; omega)

theorem isNegative_spec {ws : List Word} (h : ws ≠ []) :
    isNegative ws = decide (sint ws < 0) := by
  unfold isNegative; rw [decide_eq_decide, sint_neg_iff h]; exact signExt_neg_iff _

theorem signExtension_eq {ws : List Word} (h : ws ≠ []) :
    signExtension ws = if sint ws < 0 then BitVec.allOnes 64 else 0#64 := by
  unfold signExtension
  simp only [sint_neg_iff h]
  rcases Word.signExt_cases (top ws) with ⟨h1, h⟩ | ⟨h1, h⟩ <;>
    rcases Word.toInt_cases (top ws) with ⟨h2, h3⟩ | ⟨h2, h3⟩ <;> rw [h] <;>
    split <;> first | rfl | omega

theorem getAbsMult_spec {ws : List Word} (h : ws ≠ []) :
    getAbsMult ws = if sint ws < 0 then -1 else 1 := by
  have := signExtension_eq h
  unfold signExtension at this
  unfold getAbsMult
  rw [this]
  split <;> decide

theorem getAbsMult2_spec {a b : List Word} (ha : a ≠ []) (hb : b ≠ []) :
    getAbsMult2 a b = if (sint a < 0 ↔ sint b < 0) then 1 else -1 := by
  unfold getAbsMult2
  rw [signExtension_eq ha, signExtension_eq hb]
  by_cases h1 : sint a < 0 <;> by_cases h2 : sint b < 0 <;> simp only [h1, h2] <;> decide

theorem hasSameSign_spec {a b : List Word} (ha : Canon a) (hb : Canon b)
    (hla : a.length ≤ 2 ^ 63) (hlb : b.length ≤ 2 ^ 63) :
    hasSameSign a b = decide (sint a < 0 ↔ sint b < 0) := by
  unfold hasSameSign
  rw [decide_eq_decide, ← not_lt, toInt_xor_neg_iff, (sign_word ha hla).1, (sign_word hb hlb).1,
    not_not]

theorem hasDifferentSign_spec {a b : List Word} (ha : Canon a) (hb : Canon b)
    (hla : a.length ≤ 2 ^ 63) (hlb : b.length ≤ 2 ^ 63) :
    hasDifferentSign a b = decide (¬ (sint a < 0 ↔ sint b < 0)) := by
  unfold hasDifferentSign
  rw [decide_eq_decide, toInt_xor_neg_iff, (sign_word ha hla).1, (sign_word hb hlb).1]

end Walnut.BigInt
