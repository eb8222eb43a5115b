/- Value lemmas: relating the word lists to the integers they denote. -/
import Verif.BigInt.Spec
import Verif.BigInt.Model
import Verif.BigInt.WordPortable

namespace Walnut

open BigInt

/-- Value of a word list followed by the (signed) rest `e`. -/
def xval : List Word → Int → Int
  | [], e => e
  | w :: ws, e => w.toNat + 2 ^ 64 * xval ws e

theorem sint_cons (w : Word) {ws : List Word} (h : ws ≠ []) :
    sint (w :: ws) = w.toNat + 2 ^ 64 * sint ws := by
  cases ws with
  | nil => exact absurd rfl h
  | cons a as => rfl

theorem top_cons (w : Word) {ws : List Word} (h : ws ≠ []) : top (w :: ws) = top ws := by
  cases ws with
  | nil => exact absurd rfl h
  | cons a as => rfl

/-- `0` or `-1`, the sign extension as an integer. -/
def sgn (ws : List Word) : Int := if (top ws).toInt < 0 then -1 else 0

theorem sgn_cases (ws : List Word) : sgn ws = 0 ∨ sgn ws = -1 := by
  unfold sgn; split <;> simp

theorem sint_eq_xval {ws : List Word} (h : ws ≠ []) : sint ws = xval ws (sgn ws) := by
  induction ws with
  | nil => exact absurd rfl h
  | cons w ws ih =>
    cases ws with
    | nil =>
      have := w.isLt
      show w.toInt = w.toNat + 2 ^ 64 * (if w.toInt < 0 then -1 else 0)
      rcases Word.toInt_cases w with ⟨h1, h2⟩ | ⟨h1, h2⟩
      · rw [if_neg (by omega)]; omega
      · rw [if_pos (by omega)]; omega
    | cons w' ws =>
      rw [sint_cons w (by simp), ih (by simp)]
      rfl

theorem xval_add (ws : List Word) (e : Int) :
    xval ws e = unat ws + 2 ^ (64 * ws.length) * e := by
  induction ws with
  | nil => simp [xval, unat]
  | cons w ws ih =>
    simp only [xval, unat, ih, List.length_cons]
    push_cast
    rw [Nat.mul_add, pow_add]
    ring

theorem xval_zero (ws : List Word) : xval ws 0 = unat ws := by
  rw [xval_add]; simp

theorem unat_lt (ws : List Word) : unat ws < 2 ^ (64 * ws.length) := by
  induction ws with
  | nil => simp [unat]
  | cons w ws ih =>
    have hw := w.isLt
    simp only [unat, List.length_cons]
    rw [Nat.mul_add, pow_add, Nat.mul_one]
    generalize 2 ^ (64 * ws.length) = p at *
    omega

theorem sint_eq {ws : List Word} (h : ws ≠ []) :
    sint ws = unat ws + 2 ^ (64 * ws.length) * sgn ws := by
  rw [sint_eq_xval h, xval_add]

theorem xval_append (as bs : List Word) (e : Int) : xval (as ++ bs) e = xval as (xval bs e) := by
  induction as with
  | nil => rfl
  | cons a as ih => simp [xval, ih]

theorem unat_append (as bs : List Word) :
    unat (as ++ bs) = unat as + 2 ^ (64 * as.length) * unat bs := by
  induction as with
  | nil => simp [unat]
  | cons a as ih =>
    simp only [List.cons_append, unat, ih, List.length_cons]
    rw [show 64 * (as.length + 1) = 64 * as.length + 64 by ring, pow_add]; ring

/-- Bounds of an `n` word two's complement value. -/
theorem sint_bounds {ws : List Word} (h : ws ≠ []) :
    -2 ^ (64 * ws.length - 1) ≤ sint ws ∧ sint ws < 2 ^ (64 * ws.length - 1) := by
  induction ws with
  | nil => exact absurd rfl h
  | cons w ws ih =>
    cases ws with
    | nil => exact Word.toInt_bounds w
    | cons w' ws =>
      obtain ⟨h1, h2⟩ := ih (by simp)
      rw [sint_cons w (by simp)]
      have hw := w.isLt
      have e : (2 : Int) ^ (64 * (w :: w' :: ws).length - 1)
          = 2 ^ 64 * 2 ^ (64 * (w' :: ws).length - 1) := by
        rw [← pow_add]; congr 1; simp only [List.length_cons]; omega
      rw [e]
      generalize (2 : Int) ^ (64 * (w' :: ws).length - 1) = p at *
      generalize sint (w' :: ws) = x at *
      omega

theorem sint_neg_iff {ws : List Word} (h : ws ≠ []) : sint ws < 0 ↔ (top ws).toInt < 0 := by
  induction ws with
  | nil => exact absurd rfl h
  | cons w ws ih =>
    cases ws with
    | nil => rfl
    | cons w' ws =>
      rw [sint_cons w (by simp), top_cons w (by simp), ← ih (by simp)]
      have := w.isLt
      omega

theorem sgn_eq {ws : List Word} (h : ws ≠ []) : sgn ws = if sint ws < 0 then -1 else 0 := by
  unfold sgn
  simp only [sint_neg_iff h]

/-- A two's complement value is determined by its residue and its length. -/
theorem sint_of_modEq {ws : List Word} (h : ws ≠ []) {x : Int}
    (hm : ∃ k : Int, (unat ws : Int) = x + 2 ^ (64 * ws.length) * k)
    (h1 : -2 ^ (64 * ws.length - 1) ≤ x) (h2 : x < 2 ^ (64 * ws.length - 1)) :
    sint ws = x := by
  obtain ⟨k, hk⟩ := hm
  obtain ⟨b1, b2⟩ := sint_bounds h
  have hs := sint_eq h
  rw [hk] at hs
  rw [hs] at b1 b2 ⊢
  clear hs hk
  have hl : ws.length ≠ 0 := by simpa using h
  have e : (2 : Int) ^ (64 * ws.length) = 2 * 2 ^ (64 * ws.length - 1) := by
    rw [← pow_succ']; congr 1; omega
  rw [e] at b1 b2 ⊢
  have hp : (0 : Int) < 2 ^ (64 * ws.length - 1) := by positivity
  generalize (2 : Int) ^ (64 * ws.length - 1) = p at *
  have hz : k + sgn ws = 0 := by
    by_contra hne
    rcases lt_or_gt_of_ne hne with hlt | hgt
    · have : 2 * p * (k + sgn ws) ≤ 2 * p * (-1) := by
        apply mul_le_mul_of_nonneg_left <;> omega
      linarith
    · have : 2 * p * (k + sgn ws) ≥ 2 * p * 1 := by
        apply mul_le_mul_of_nonneg_left <;> omega
      linarith
  have : sgn ws = -k := by omega
  rw [this]; ring

/-! ### Sign extension words -/

/-- The integer a sign extension word stands for. -/
def extInt (w : Word) : Int := if w = 0 then 0 else -1

/-- A sign extension word is `0` or all ones. -/
def IsExt (w : Word) : Prop := w = 0 ∨ w = BitVec.allOnes 64

theorem isExt_signExt (w : Word) : IsExt (Word.signExt w) := by
  rcases Word.signExt_cases w with ⟨_, h⟩ | ⟨_, h⟩
  · left; exact h
  · right; exact h

theorem extInt_signExtension (ws : List Word) : extInt (signExtension ws) = sgn ws := by
  unfold signExtension sgn extInt
  rcases Word.signExt_cases (top ws) with ⟨h1, h⟩ | ⟨h1, h⟩
  · rw [h]
    rcases Word.toInt_cases (top ws) with ⟨h3, h4⟩ | ⟨h3, h4⟩
    · rw [if_pos (by rfl), if_neg (by omega)]
    · omega
  · rw [h]
    rcases Word.toInt_cases (top ws) with ⟨h3, h4⟩ | ⟨h3, h4⟩
    · omega
    · have := (top ws).isLt
      rw [if_neg (by decide), if_pos (by omega)]

theorem toInt_neg_iff_msb {w : Word} : w.toInt < 0 ↔ w.msb = true := by
  rw [BitVec.msb_eq_toInt]; simp

/-! ### Trim -/

theorem canTrim_iff (low high : Word) :
    canTrim low high = true ↔
      (high = 0 ∧ 0 ≤ low.toInt) ∨ (high = BitVec.allOnes 64 ∧ low.toInt < 0) := by
  unfold canTrim
  have hx : (high ^^^ low).toInt < 0 ↔ high.msb ≠ low.msb := by
    rw [toInt_neg_iff_msb, BitVec.msb_xor]
    cases high.msb <;> cases low.msb <;> simp
  have hl : low.toInt < 0 ↔ low.msb = true := toInt_neg_iff_msb
  have h1 : high + 1 > 1 ↔ ¬ (high = 0 ∨ high = BitVec.allOnes 64) := by
    have := high.isLt
    have e0 : high = 0 ↔ high.toNat = 0 := by
      constructor
      · rintro rfl; rfl
      · intro h; exact BitVec.eq_of_toNat_eq h
    have e1 : high = BitVec.allOnes 64 ↔ high.toNat = 2 ^ 64 - 1 := by
      constructor
      · rintro rfl; rfl
      · intro h; exact BitVec.eq_of_toNat_eq h
    rw [e0, e1, gt_iff_lt, BitVec.lt_def, BitVec.toNat_add]
    have : (1 : Word).toNat = 1 := rfl
    omega
  have m0 : (0 : Word).msb = false := by decide
  have m1 : (BitVec.allOnes 64).msb = true := by decide
  have ne : (0 : Word) ≠ BitVec.allOnes 64 := by decide
  simp only [h1, hx, hl]
  by_cases c0 : high = 0
  · subst c0
    rw [if_neg (by simp), m0]
    have : 0 ≤ low.toInt ↔ low.msb = false := by
      rw [← not_lt, hl]; simp
    rw [this]
    cases low.msb <;> simp
  · by_cases c1 : high = BitVec.allOnes 64
    · subst c1
      rw [if_neg (by simp), m1]
      cases low.msb <;> simp
    · rw [if_pos (by tauto)]; tauto

end Walnut
