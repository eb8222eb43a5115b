/- Lemmas about the decomposition of doubles. -/
import Verif.Util.Double
import Verif.BigInt.WordBits
import Mathlib.Tactic.Linarith
import Mathlib.Tactic.Ring
import Mathlib.Tactic.FieldSimp
import Mathlib.Tactic.Positivity

namespace Walnut.Util
open Walnut Walnut.Geom Walnut.Word

theorem two_pow_pos (e : ℤ) : (0 : ℚ) < 2 ^ e := zpow_pos (by norm_num) e

/-- The odd mantissa is the one with the greatest exponent. -/
theorem odd_exp {m e m' e' : ℤ} (h : (m : ℚ) * 2 ^ e = m' * 2 ^ e') (hm : m % 2 = 1) :
    e' ≤ e ∧ m' = m * 2 ^ (e - e').toNat := by
  have h2 : (2 : ℚ) ≠ 0 := by norm_num
  have hle : e' ≤ e := by
    by_contra hc
    obtain ⟨k, hk⟩ : ∃ k : Nat, e' = e + (k + 1 : Nat) := ⟨(e' - e - 1).toNat, by omega⟩
    have : (m : ℚ) = ((m' * 2 ^ (k + 1) : ℤ) : ℚ) := by
      apply mul_right_cancel₀ (two_pow_pos e).ne'
      rw [h, hk, zpow_add₀ h2, zpow_natCast]; push_cast; ring
    have : m = m' * 2 ^ (k + 1) := by exact_mod_cast this
    rw [pow_succ, ← mul_assoc] at this
    omega
  refine ⟨hle, ?_⟩
  have : (m' : ℚ) = ((m * 2 ^ (e - e').toNat : ℤ) : ℚ) := by
    apply mul_right_cancel₀ (two_pow_pos e').ne'
    rw [← h]
    push_cast
    rw [mul_assoc, ← zpow_natCast, ← zpow_add₀ h2]
    congr 2; omega
  exact_mod_cast this

/-- Each finite double is a 53 bit integer times a power of two. -/
theorem double_form {b : BitVec 64} {x : ℚ} (h : doubleValue b = some x) :
    ∃ m e : ℤ, |m| < 2 ^ 53 ∧ -1074 ≤ e ∧ e ≤ 971 ∧ x = m * 2 ^ e := by
  unfold doubleValue at h
  simp only at h
  have hf : b.toNat % 2 ^ 52 < 2 ^ 52 := Nat.mod_lt _ (by norm_num)
  have he : b.toNat / 2 ^ 52 % 2 ^ 11 < 2 ^ 11 := Nat.mod_lt _ (by norm_num)
  generalize b.toNat % 2 ^ 52 = f at *
  generalize b.toNat / 2 ^ 52 % 2 ^ 11 = e at *
  split at h
  · cases h
  · split at h
    · simp only [Option.some.injEq] at h
      rcases Bool.eq_false_or_eq_true b.msb with hb | hb
      · refine ⟨-f, -1074, ?_, by norm_num, by norm_num, ?_⟩
        · rw [abs_neg, abs_of_nonneg (by omega)]; omega
        · rw [← h, hb]; push_cast; simp
      · refine ⟨f, -1074, ?_, by norm_num, by norm_num, ?_⟩
        · rw [abs_of_nonneg (by omega)]; omega
        · rw [← h, hb]; push_cast; simp
    · simp only [Option.some.injEq] at h
      rcases Bool.eq_false_or_eq_true b.msb with hb | hb
      · refine ⟨-(2 ^ 52 + f), (e : ℤ) - 1075, ?_, by omega, by omega, ?_⟩
        · rw [abs_neg, abs_of_nonneg (by omega)]; omega
        · rw [← h, hb]; push_cast; norm_num
      · refine ⟨2 ^ 52 + f, (e : ℤ) - 1075, ?_, by omega, by omega, ?_⟩
        · rw [abs_of_nonneg (by omega)]; omega
        · rw [← h, hb]; push_cast; norm_num

theorem sshift_exact {r : Word} {t : Nat} (h : ((2 : ℤ) ^ t) ∣ r.toInt) : (r.sshiftRight t).toInt * 2 ^ t = r.toInt := by
  rw [BitVec.toInt_sshiftRight, Int.shiftRight_eq_div_pow]
  push_cast
  exact Int.ediv_mul_cancel h

theorem dvd_toInt {r : Word} {t : Nat} (ht : t ≤ 64) : ((2 : ℤ) ^ t ∣ r.toInt) ↔ 2 ^ t ∣ r.toNat := by
  rw [BitVec.toInt_eq_toNat_bmod, ← Int.natCast_dvd_natCast, Nat.cast_pow, Nat.cast_ofNat]
  have h64 : ((2 : ℤ) ^ t) ∣ ((2 ^ 64 : Nat) : ℤ) := by push_cast; exact pow_dvd_pow 2 ht
  have : (((2 ^ 64 : Nat) : ℤ)) ∣ (r.toNat : ℤ) - Int.bmod (r.toNat : ℤ) (2 ^ 64) := by
    exact Int.dvd_self_sub_bmod
  have h3 := dvd_trans h64 this
  constructor
  · intro h
    have := dvd_add h h3
    simpa using this
  · intro h
    have := dvd_sub h h3
    simpa using this

/-- The value `result` before removing zeros, and the exponent. -/
theorem frexp_int {x : ℚ} (hx : x ≠ 0) {m e : ℤ} (hm : |m| < 2 ^ 53) (hxe : x = m * 2 ^ e) :
    ∃ M : ℤ, scalbn (frexp x).1 53 = M ∧ 2 ^ 52 ≤ |M| ∧ |M| < 2 ^ 53 ∧ x = M * 2 ^ ((frexp x).2 - 53) ∧
      e + 1 ≤ (frexp x).2 ∧ (frexp x).2 ≤ e + 53 := by
  have hax : 0 < |x| := abs_pos.mpr hx
  unfold frexp
  rw [if_neg hx]
  simp only [scalbn]
  have h1 := Int.zpow_log_le_self (b := 2) (by norm_num) hax
  have h2 := Int.lt_zpow_succ_log_self (b := 2) (by norm_num) |x|
  push_cast at h1 h2
  generalize Int.log 2 |x| = L at *
  have hm0 : m ≠ 0 := by rintro rfl; apply hx; rw [hxe]; simp
  have hm1 : 1 ≤ |m| := by have := abs_pos.mpr hm0; omega
  have habs : |x| = (|m| : ℤ) * 2 ^ e := by
    rw [hxe, abs_mul, abs_of_pos (two_pow_pos e), Int.cast_abs]
  have hm1' : (1 : ℚ) ≤ ((|m| : ℤ) : ℚ) := by exact_mod_cast hm1
  have hm2' : ((|m| : ℤ) : ℚ) < 2 ^ 53 := by exact_mod_cast hm
  have hpe := two_pow_pos e
  -- e ≤ L < e + 53
  have g1 : e ≤ L := by
    have : (2 : ℚ) ^ e < 2 ^ (L + 1) := by
      calc (2 : ℚ) ^ e ≤ (|m| : ℤ) * 2 ^ e := by nlinarith
        _ = |x| := habs.symm
        _ < _ := h2
    have := (zpow_lt_zpow_iff_right₀ (a := (2 : ℚ)) (by norm_num)).1 this
    omega
  have g2 : L < e + 53 := by
    have : (2 : ℚ) ^ L < 2 ^ (e + 53) := by
      calc (2 : ℚ) ^ L ≤ |x| := h1
        _ = (|m| : ℤ) * 2 ^ e := habs
        _ < 2 ^ 53 * 2 ^ e := by nlinarith
        _ = 2 ^ (e + 53) := by rw [zpow_add₀ (by norm_num), mul_comm]; norm_num
    exact (zpow_lt_zpow_iff_right₀ (a := (2 : ℚ)) (by norm_num)).1 this
  obtain ⟨k, hk⟩ : ∃ k : Nat, (k : ℤ) = e + 52 - L := ⟨(e + 52 - L).toNat, by omega⟩
  have eM : x / 2 ^ (L + 1) * 2 ^ (53 : ℤ) = ((m * 2 ^ k : ℤ) : ℚ) := by
    rw [Int.cast_mul, Int.cast_pow, Int.cast_ofNat]
    rw [hxe, ← zpow_natCast, hk]
    rw [show e + 52 - L = e - (L + 1) + 53 by ring, zpow_add₀ (by norm_num : (2 : ℚ) ≠ 0) (e - (L + 1)), zpow_sub₀ (by norm_num : (2 : ℚ) ≠ 0) e (L + 1)]
    ring
  have eA : ((|m * 2 ^ k| : ℤ) : ℚ) = |x| / 2 ^ (L + 1) * 2 ^ (53 : ℤ) := by
    rw [Int.cast_abs, ← eM, abs_mul, abs_div, abs_of_pos (two_pow_pos _), abs_of_pos (two_pow_pos _)]
  refine ⟨m * 2 ^ k, eM, ?_, ?_, ?_, by omega, by omega⟩
  · have : ((2 ^ 52 : ℤ) : ℚ) ≤ ((|m * 2 ^ k| : ℤ) : ℚ) := by
      rw [eA, div_mul_eq_mul_div, le_div_iff₀ (two_pow_pos _)]
      calc ((2 ^ 52 : ℤ) : ℚ) * 2 ^ (L + 1) = 2 ^ L * 2 ^ (53 : ℤ) := by
            rw [zpow_add₀ (by norm_num)]; push_cast; norm_num; ring
        _ ≤ _ := by have := two_pow_pos (53 : ℤ); nlinarith
    exact_mod_cast this
  · have : ((|m * 2 ^ k| : ℤ) : ℚ) < ((2 ^ 53 : ℤ) : ℚ) := by
      rw [eA, div_mul_eq_mul_div, div_lt_iff₀ (two_pow_pos _)]
      calc |x| * 2 ^ (53 : ℤ) < 2 ^ (L + 1) * 2 ^ (53 : ℤ) := by have := two_pow_pos (53 : ℤ); nlinarith
        _ = _ := by rw [mul_comm]; congr 1
    exact_mod_cast this
  · rw [← eM, zpow_sub₀ (by norm_num : (2 : ℚ) ≠ 0)]
    field_simp

theorem castInt64_int {M : ℤ} (h : |M| < 2 ^ 53) : castInt64 (M : ℚ) = some (BitVec.ofInt 64 M) ∧
    (BitVec.ofInt 64 M).toInt = M := by
  have h1 := abs_lt.1 h
  constructor
  · unfold castInt64
    have : (if 0 ≤ (M : ℚ) then ⌊(M : ℚ)⌋ else ⌈(M : ℚ)⌉) = M := by split <;> simp
    simp only [this]
    rw [if_pos ⟨by omega, by omega⟩]
  · rw [BitVec.toInt_ofInt, Int.bmod_eq_of_le] <;> omega

/-- What `Decompose` returns. -/
theorem decompose_spec {b : BitVec 64} {x : ℚ} (h : doubleValue b = some x) :
    ∃ m e : ℤ, decompose x = some (m, e) ∧ x = m * 2 ^ e ∧ (x ≠ 0 → m % 2 = 1) ∧ (x = 0 → m = 0 ∧ e = 0) ∧
      |m| < 2 ^ 53 ∧ -1074 ≤ e ∧ e ≤ 1023 := by
  by_cases hx : x = 0
  · subst hx
    refine ⟨0, 0, ?_, by simp, by simp, by simp, by norm_num, by norm_num, by norm_num⟩
    unfold decompose frexp
    simp only [if_true]
    have : castInt64 (scalbn 0 53) = some 0 := by
      simp [castInt64, scalbn]
    rw [this]; rfl
  · obtain ⟨m0, e0, hm0, l0, u0, hxe⟩ := double_form h
    obtain ⟨M, hM, hM1, hM2, hxM, b1, b2⟩ := frexp_int hx hm0 hxe
    obtain ⟨hc, hti⟩ := castInt64_int hM2
    set r := BitVec.ofInt 64 M with hr
    have hr0 : r ≠ 0 := by
      intro hc; rw [hc] at hti; simp at hti; rw [← hti] at hM1; norm_num at hM1
    obtain ⟨t, ht, hd, hnd⟩ := trailingZerosPortable_spec r hr0
    have ht64 : t < 64 := by
      by_contra hc
      have h64 : 2 ^ 64 ∣ r.toNat := dvd_trans (pow_dvd_pow 2 (by omega)) hd
      have := Nat.eq_zero_of_dvd_of_lt h64 r.isLt
      exact hr0 (BitVec.eq_of_toNat_eq (by simpa using this))
    have hdi : ((2 : ℤ) ^ t) ∣ r.toInt := (dvd_toInt (by omega)).2 hd
    have hex := sshift_exact hdi
    have hdec : decompose x = some ((r.sshiftRight t).toInt, (frexp x).2 - 53 + t) := by
      unfold decompose
      simp only [hM, hc, Option.bind_eq_bind, Option.bind_some, if_neg hr0, ht]
      rfl
    have hval : x = (r.sshiftRight t).toInt * 2 ^ ((frexp x).2 - 53 + (t : ℤ)) := by
      have h3 : ((r.toInt : ℤ) : ℚ) = ((r.sshiftRight t).toInt : ℚ) * 2 ^ t := by
        rw [← hex]; push_cast; ring
      rw [zpow_add₀ (by norm_num : (2 : ℚ) ≠ 0), zpow_natCast, mul_comm (2 ^ _ : ℚ), ← mul_assoc, ← h3, hti]
      exact hxM
    have hodd : (r.sshiftRight t).toInt % 2 = 1 := by
      by_contra hodd
      have heven : (2 : ℤ) ∣ (r.sshiftRight t).toInt := by omega
      apply hnd
      rw [← dvd_toInt (by omega), ← hex, pow_succ, mul_comm]
      exact mul_dvd_mul_right heven _
    refine ⟨_, _, hdec, hval, fun _ => hodd, fun h => absurd h hx, ?_, ?_, ?_⟩
    · rw [hti] at hex
      have h2t : (1 : ℤ) ≤ 2 ^ t := one_le_pow₀ (by norm_num)
      have : |M| = |(r.sshiftRight t).toInt| * 2 ^ t := by rw [← hex, abs_mul, abs_of_pos (by positivity : (0 : ℤ) < 2 ^ t)]
      have h0 := abs_nonneg (r.sshiftRight t).toInt
      nlinarith
    · have := (odd_exp (hval.symm.trans hxe) hodd).1
      omega
    · -- `2 ^ t ≤ |M| < 2 ^ 53`
      rw [hti] at hdi
      have hM0 : M ≠ 0 := by rintro rfl; norm_num at hM1
      have := Int.le_of_dvd (abs_pos.mpr hM0) ((dvd_abs _ _).mpr hdi)
      have : (2 : ℤ) ^ t < 2 ^ 53 := by omega
      have := (pow_lt_pow_iff_right₀ (a := (2 : ℤ)) (by norm_num)).1 this
      omega

/-- Rounding to the nearest multiple of `2 ^ k`. -/
theorem round_shift (m : ℤ) (k : Nat) : (m >>> (k + 1)) + (m >>> k) % 2 = ⌊(m : ℚ) / 2 ^ (k + 1) + 1 / 2⌋ := by
  rw [Int.shiftRight_eq_div_pow, Int.shiftRight_eq_div_pow]
  push_cast
  have e : (m : ℚ) / 2 ^ (k + 1) + 1 / 2 = ((m + 2 ^ k : ℤ) : ℚ) / ((2 ^ (k + 1) : Nat) : ℚ) := by
    push_cast
    rw [pow_succ]; field_simp
  rw [e, Rat.floor_intCast_div_natCast]
  push_cast
  rw [pow_succ, ← Int.ediv_ediv_of_nonneg (by positivity), ← Int.ediv_ediv_of_nonneg (by positivity),
    Int.add_ediv_of_dvd_right dvd_rfl, Int.ediv_self (by positivity)]
  omega

end Walnut.Util
