/- Lemmas about rounding to nearest. -/
import Verif.Float.Spec
import Mathlib.Tactic.FieldSimp
import Mathlib.Tactic.Positivity
import Mathlib.Tactic.Ring
import Mathlib.Tactic.NormNum

namespace Walnut.Float

variable {F : Format} {rnd : ℚ → Fl}

theorem two_pos (e : ℤ) : (0 : ℚ) < 2 ^ e := zpow_pos (by norm_num) e

theorem pow_add' (a b : ℤ) : (2 : ℚ) ^ (a + b) = 2 ^ a * 2 ^ b := zpow_add₀ (by norm_num) a b

theorem pow_le {a b : ℤ} (h : a ≤ b) : (2 : ℚ) ^ a ≤ 2 ^ b := zpow_le_zpow_right₀ (by norm_num) h

theorem pow_lt {a b : ℤ} (h : a < b) : (2 : ℚ) ^ a < 2 ^ b := zpow_lt_zpow_right₀ (by norm_num) h

theorem pow_lt_iff {a b : ℤ} : (2 : ℚ) ^ a < 2 ^ b ↔ a < b := zpow_lt_zpow_iff_right₀ (by norm_num)

theorem Format.Has.lt (h : F.Has x) : |x| < 2 ^ F.emax - 2 ^ (F.emax - F.p - 1) := by
  obtain ⟨m, e, h1, -, h3, rfl⟩ := h
  have hm : |(m : ℚ)| ≤ 2 ^ (F.p : ℤ) - 1 := by
    rw [← Int.cast_abs]
    have : |m| ≤ 2 ^ F.p - 1 := by omega
    calc ((|m| : ℤ) : ℚ) ≤ ((2 ^ F.p - 1 : ℤ) : ℚ) := by exact_mod_cast this
      _ = _ := by push_cast; rw [zpow_natCast]
  rw [abs_mul, abs_of_pos (two_pos e)]
  have a1 : |(m : ℚ)| * 2 ^ e ≤ (2 ^ (F.p : ℤ) - 1) * 2 ^ (F.emax - F.p) :=
    mul_le_mul hm (pow_le (by omega)) (two_pos e).le (le_trans (abs_nonneg _) hm)
  have a2 : (2 ^ (F.p : ℤ) - 1) * 2 ^ (F.emax - F.p) = (2 : ℚ) ^ F.emax - 2 ^ (F.emax - F.p) := by
    rw [sub_mul, ← pow_add', one_mul]; congr 2; ring
  have a3 := pow_lt (show F.emax - F.p - 1 < F.emax - F.p by omega)
  linarith

theorem rnd_has (h : Nearest F rnd) {x : ℚ} (hx : F.Has x) : rnd x = .fin x := by
  obtain ⟨y, h1, -, h3⟩ := h.finite x hx.lt
  have := h3 x hx
  rw [sub_self, abs_zero] at this
  have := abs_eq_zero.1 (le_antisymm this (abs_nonneg _))
  rw [h1, sub_eq_zero.1 this]

/-- An integer multiple of a power of two with few bits. -/
theorem has_of_mult {n e : ℤ} (h1 : |n| ≤ 2 ^ F.p) (h2 : 3 - F.emax - F.p ≤ e) (hp : 1 ≤ F.p) (h3 : e + F.p ≤ F.emax) (h4 : |(n : ℚ) * 2 ^ e| < 2 ^ F.emax) :
    F.Has (n * 2 ^ e) := by
  rcases h1.lt_or_eq with h1 | h1
  · exact ⟨n, e, h1, h2, h3, rfl⟩
  have hn : |(n : ℚ)| = 2 ^ (F.p : ℤ) := by
    rw [← Int.cast_abs, h1]; push_cast; rw [zpow_natCast]
  rw [abs_mul, hn, abs_of_pos (two_pos e), ← pow_add', pow_lt_iff] at h4
  obtain ⟨q, hq⟩ : ∃ q, F.p = q + 1 := ⟨F.p - 1, by omega⟩
  have hn2 : n = 2 * (2 ^ q) ∨ n = 2 * -(2 ^ q) := by
    rcases abs_choice n with h | h <;> rw [h, hq, pow_succ] at h1
    · left; linarith
    · right; linarith
  have hq2 : (2 : ℤ) ^ q < 2 ^ F.p := by rw [hq, pow_succ]; have : (0:ℤ) < 2 ^ q := by positivity
                                         linarith
  have e1 : (2 : ℚ) ^ (e + 1) = 2 ^ e * 2 := by rw [pow_add']; simp
  rcases hn2 with rfl | rfl
  · refine ⟨2 ^ q, e + 1, ?_, by omega, by omega, ?_⟩
    · rwa [abs_of_pos (by positivity)]
    · rw [e1]; push_cast; ring
  · refine ⟨-(2 ^ q), e + 1, ?_, by omega, by omega, ?_⟩
    · rwa [abs_neg, abs_of_pos (by positivity)]
    · rw [e1]; push_cast; ring

theorem has_zero (he : 2 ≤ F.emax) : F.Has 0 :=
  ⟨0, F.emax - F.p, by simp, by omega, by omega, by simp⟩

/-- The relative error of a rounding. -/
theorem rnd_err (h : Nearest F rnd) (hp : 1 ≤ F.p) {x : ℚ} (h1 : 2 ^ (2 - F.emax) ≤ |x|) (h2 : |x| < 2 ^ (F.emax - 1)) :
    ∃ y, rnd x = .fin y ∧ F.Has y ∧ |y - x| ≤ |x| / 2 ^ F.p := by
  have hx : |x| < 2 ^ F.emax - 2 ^ (F.emax - F.p - 1) := by
    have e1 : (2 : ℚ) ^ F.emax = 2 ^ (F.emax - 1) * 2 := by
      rw [show F.emax = (F.emax - 1) + 1 by ring, pow_add']; simp
    have := pow_le (show F.emax - F.p - 1 ≤ F.emax - 1 by omega)
    linarith
  obtain ⟨y, hy, hy1, hy2⟩ := h.finite x hx
  refine ⟨y, hy, hy1, ?_⟩
  have hpos : 0 < |x| := lt_of_lt_of_le (two_pos _) h1
  obtain ⟨k, hk⟩ : ∃ k, k = Int.log 2 |x| := ⟨_, rfl⟩
  have k1 : (2 : ℚ) ^ k ≤ |x| := by rw [hk]; exact_mod_cast Int.zpow_log_le_self (b := 2) (by norm_num) hpos
  have k2 : |x| < (2 : ℚ) ^ (k + 1) := by rw [hk]; exact_mod_cast Int.lt_zpow_succ_log_self (b := 2) (by norm_num) |x|
  have k3 : 2 - F.emax < k + 1 := pow_lt_iff.1 (lt_of_le_of_lt h1 k2)
  have k4 : k < F.emax - 1 := pow_lt_iff.1 (lt_of_le_of_lt k1 h2)
  obtain ⟨E, hE⟩ : ∃ E : ℤ, E = k + 1 - F.p := ⟨_, rfl⟩
  have hr := abs_sub_round (x / 2 ^ E)
  have hx2 : x = x / 2 ^ E * 2 ^ E := by field_simp
  have hz : |(round (x / 2 ^ E) : ℚ) * 2 ^ E - x| ≤ 2 ^ (k - F.p) := by
    have e1 : (round (x / 2 ^ E) : ℚ) * 2 ^ E - x = -((x / 2 ^ E - round (x / 2 ^ E)) * 2 ^ E) := by
      conv_lhs => rw [hx2]
      field_simp
      ring
    rw [e1, abs_neg, abs_mul, abs_of_pos (two_pos E)]
    have e2 : (2 : ℚ) ^ (k - F.p) = 1 / 2 * 2 ^ E := by
      rw [hE, show k + 1 - (F.p : ℤ) = (k - F.p) + 1 by ring, pow_add']; simp; ring
    rw [e2]
    exact mul_le_mul_of_nonneg_right hr (two_pos E).le
  have hround : |round (x / 2 ^ E)| ≤ 2 ^ F.p := by
    have b1 : |x / 2 ^ E| < 2 ^ F.p := by
      rw [abs_div, abs_of_pos (two_pos E), div_lt_iff₀ (two_pos E), ← zpow_natCast, ← pow_add']
      rwa [hE, show (F.p : ℤ) + (k + 1 - F.p) = k + 1 by ring]
    have b2 : |(round (x / 2 ^ E) : ℚ)| < 2 ^ F.p + 1 := by
      have := abs_sub_abs_le_abs_sub (round (x / 2 ^ E) : ℚ) (x / 2 ^ E)
      rw [abs_sub_comm] at this
      linarith
    rw [← Int.cast_abs] at b2
    have : |round (x / 2 ^ E)| < 2 ^ F.p + 1 := by exact_mod_cast b2
    omega
  have hz2 : |(round (x / 2 ^ E) : ℚ) * 2 ^ E| < 2 ^ F.emax := by
    rw [abs_mul, abs_of_pos (two_pos E), ← Int.cast_abs]
    have : ((|round (x / 2 ^ E)| : ℤ) : ℚ) ≤ 2 ^ (F.p : ℤ) := by rw [zpow_natCast]; exact_mod_cast hround
    calc _ ≤ (2 : ℚ) ^ (F.p : ℤ) * 2 ^ E := mul_le_mul_of_nonneg_right this (two_pos E).le
      _ = 2 ^ (k + 1) := by rw [← pow_add', hE, show (F.p : ℤ) + (k + 1 - F.p) = k + 1 by ring]
      _ < _ := pow_lt (by omega)
  have := hy2 _ (has_of_mult hround (by omega) hp (by omega) hz2)
  refine le_trans this (le_trans hz ?_)
  rw [le_div_iff₀ (by positivity), ← zpow_natCast, ← pow_add']
  rwa [show k - (F.p : ℤ) + F.p = k by ring]

theorem has_shift (hF : 2 ≤ F.emax) {x : ℚ} (hx : F.Has x) (s : ℕ) (h : |x * 2 ^ s| < 2 ^ F.emax) : F.Has (x * 2 ^ s) := by
  obtain ⟨m, e, h1, h2, h3, rfl⟩ := hx
  have e0 : (m : ℚ) * 2 ^ e * 2 ^ s = m * 2 ^ (e + s) := by rw [pow_add', zpow_natCast]; ring
  rw [e0] at h ⊢
  by_cases hs : e + s + F.p ≤ F.emax
  · exact ⟨m, e + s, h1, by omega, hs, rfl⟩
  obtain ⟨j, hj⟩ : ∃ j : ℕ, (j : ℤ) = e + s + F.p - F.emax := ⟨(e + s + F.p - F.emax).toNat, by omega⟩
  refine ⟨m * 2 ^ j, F.emax - F.p, ?_, by omega, by omega, ?_⟩
  · rw [abs_mul, abs_of_pos (two_pos _)] at h
    have h' : |(m : ℚ)| * 2 ^ (j : ℤ) < 2 ^ (F.p : ℤ) := by
      have : (2 : ℚ) ^ F.emax = 2 ^ (F.p : ℤ) * 2 ^ (F.emax - F.p) := by rw [← pow_add']; congr 1; ring
      rw [this, show e + s = (j : ℤ) + (F.emax - F.p) by omega, pow_add', ← mul_assoc] at h
      exact lt_of_mul_lt_mul_right h (two_pos _).le
    rw [abs_mul, abs_of_pos (by positivity : (0 : ℤ) < 2 ^ j)]
    rw [← Int.cast_abs, zpow_natCast, zpow_natCast] at h'
    exact_mod_cast h'
  · push_cast
    rw [mul_assoc, ← zpow_natCast (2 : ℚ) j, ← pow_add']
    congr 2; omega

end Walnut.Float
