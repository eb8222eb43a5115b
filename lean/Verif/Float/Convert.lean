/- The error of the conversions of `BigInt`s to floating point numbers. -/
import Verif.Float.Round
import Verif.BigInt.Canon

namespace Walnut.Float
open Walnut Walnut.BigInt

variable {F : Format} {rnd : ℚ → Fl}

theorem npow (n : ℕ) : (2 : ℚ) ^ n = 2 ^ (n : ℤ) := (zpow_natCast _ _).symm

/-- One word with a shift. -/
theorem part_spec (hF : F.Usual) (h : Nearest F rnd) (c : ℤ) (s : ℕ) (hc : |c| ≤ 2 ^ 64) (hs : |(c : ℚ) * 2 ^ s| ≤ 2 ^ (F.emax - 2)) :
    ∃ y, ldexp rnd (rnd c) s = .fin y ∧ |y - c * 2 ^ s| ≤ |(c : ℚ) * 2 ^ s| / 2 ^ F.p ∧ (F.Has (c * 2 ^ s) → y = c * 2 ^ s) := by
  obtain ⟨hp, hp2, he, -⟩ := hF
  by_cases h0 : c = 0
  · subst h0
    have : rnd ((0 : ℤ) : ℚ) = .fin 0 := by rw [Int.cast_zero]; exact rnd_has h (has_zero (by omega))
    refine ⟨0, ?_, by simp, by simp⟩
    rw [this]
    show rnd (0 * 2 ^ s) = _
    rw [zero_mul]
    exact rnd_has h (has_zero (by omega))
  have c1 : (1 : ℚ) ≤ |(c : ℚ)| := by
    rw [← Int.cast_abs]; exact_mod_cast Int.one_le_abs h0
  have c2 : |(c : ℚ)| ≤ 2 ^ (64 : ℤ) := by
    rw [← Int.cast_abs]
    calc ((|c| : ℤ) : ℚ) ≤ ((2 ^ 64 : ℤ) : ℚ) := by exact_mod_cast hc
      _ = _ := by norm_num
  obtain ⟨y, y1, y2, y3⟩ := rnd_err h (by omega) (x := (c : ℚ)) (le_trans (by rw [← zpow_zero (2 : ℚ)]; exact pow_le (by omega)) c1)
    (lt_of_le_of_lt c2 (pow_lt (by omega)))
  have hs0 : (0 : ℚ) < 2 ^ s := by positivity
  have herr : |y * 2 ^ s - c * 2 ^ s| ≤ |(c : ℚ) * 2 ^ s| / 2 ^ F.p := by
    rw [← sub_mul, abs_mul, abs_of_pos hs0, abs_mul, abs_of_pos hs0, mul_div_right_comm]
    exact mul_le_mul_of_nonneg_right y3 hs0.le
  have hu : (1 : ℚ) ≤ 2 ^ F.p := one_le_pow₀ (by norm_num)
  have hlt : |y * 2 ^ s| < 2 ^ F.emax := by
    have a1 := abs_sub_abs_le_abs_sub (y * 2 ^ s) (c * 2 ^ s)
    have a2 : |(c : ℚ) * 2 ^ s| / 2 ^ F.p ≤ |(c : ℚ) * 2 ^ s| := div_le_self (abs_nonneg _) hu
    have a3 : (2 : ℚ) ^ F.emax = 2 ^ (F.emax - 2) * 4 := by
      rw [show F.emax = (F.emax - 2) + 2 by ring, pow_add']; norm_num
    have := two_pos (F.emax - 2)
    linarith
  refine ⟨y * 2 ^ s, ?_, herr, fun hH => ?_⟩
  · rw [y1]
    exact rnd_has h (has_shift (by omega) y2 s hlt)
  · have hHc : F.Has c := by
      obtain ⟨m, e, m1, m2, m3, m4⟩ := hH
      have hpq : (2 : ℚ) ^ s = 2 ^ (s : ℤ) := npow s
      by_cases hse : (s : ℤ) ≤ e
      · refine ⟨m, e - s, m1, by omega, by omega, ?_⟩
        have : (2 : ℚ) ^ e = 2 ^ (e - s) * 2 ^ s := by rw [hpq, ← pow_add']; congr 1; ring
        rw [this, ← mul_assoc] at m4
        exact mul_right_cancel₀ hs0.ne' m4
      · refine ⟨c, 0, ?_, by omega, by omega, by simp⟩
        obtain ⟨j, hj⟩ : ∃ j : ℕ, (j : ℤ) = s - e := ⟨(s - e).toNat, by omega⟩
        have : (2 : ℚ) ^ s = 2 ^ j * 2 ^ e := by rw [npow, npow, ← pow_add']; congr 1; omega
        rw [this, ← mul_assoc] at m4
        have hm : c * 2 ^ j = m := by
          have := mul_right_cancel₀ (two_pos e).ne' m4
          exact_mod_cast this
        rw [← hm, abs_mul, abs_of_pos (by positivity : (0 : ℤ) < 2 ^ j)] at m1
        have h2 : (1 : ℤ) ≤ 2 ^ j := one_le_pow₀ (by norm_num)
        nlinarith [abs_nonneg c]
    have := rnd_has h hHc
    rw [this] at y1
    cases y1
    rfl

/-- What the first two words say about the size of the number. -/
theorem leading {T S V : ℤ} (hS : 0 ≤ S) (hS2 : S < 2 ^ 64) (hV : V = S + 2 ^ 64 * T) (h : V < -2 ^ 63 ∨ 2 ^ 63 ≤ V) :
    2 ^ 64 * |T| ≤ 2 * |V| ∧ S ≤ |V| ∧ 2 ^ 63 ≤ |V| := by
  rcases abs_cases T with ⟨a, _⟩ | ⟨a, _⟩ <;> rcases abs_cases V with ⟨b, _⟩ | ⟨b, _⟩ <;> rw [a, b] <;> omega

theorem two_parts (hF : F.Usual) (h : Nearest F rnd) {T : ℤ} {S : ℕ} (hS : S < 2 ^ 64) {V : ℤ} (hV : V = S + 2 ^ 64 * T) (hT : |T| ≤ 2 ^ 63)
    (hl : V < -2 ^ 63 ∨ 2 ^ 63 ≤ V) (b : ℕ) (hb : |(V : ℚ) * 2 ^ b| ≤ 2 ^ (F.emax - 3)) :
    ∃ y, add rnd (ldexp rnd (rnd T) (b + 64)) (ldexp rnd (rnd S) b) = .fin y ∧
      |y - V * 2 ^ b| ≤ (4 / 2 ^ F.p + 3 / 2 ^ F.p * (1 / 2 ^ F.p)) * |(V : ℚ) * 2 ^ b| ∧
      (F.Has (T * 2 ^ (b + 64)) → F.Has ((S : ℤ) * 2 ^ b) → F.Has (V * 2 ^ b) → y = V * 2 ^ b) := by
  obtain ⟨l1, l2, l3⟩ := leading (by omega) (by exact_mod_cast hS) hV hl
  have hb0 : (0 : ℚ) < 2 ^ b := by positivity
  obtain ⟨X, hX⟩ : ∃ X, X = |(V : ℚ) * 2 ^ b| := ⟨_, rfl⟩
  have hXV : X = |(V : ℚ)| * 2 ^ b := by rw [hX, abs_mul, abs_of_pos hb0]
  have q1 : |(T : ℚ) * 2 ^ (b + 64)| ≤ 2 * X := by
    rw [abs_mul, abs_of_pos (show (0 : ℚ) < 2 ^ (b + 64) by positivity), pow_add, hXV]
    have : (2 : ℚ) ^ 64 * |(T : ℚ)| ≤ 2 * |(V : ℚ)| := by rw [← Int.cast_abs, ← Int.cast_abs]; exact_mod_cast l1
    calc |(T : ℚ)| * (2 ^ b * 2 ^ 64) = (2 ^ 64 * |(T : ℚ)|) * 2 ^ b := by ring
      _ ≤ (2 * |(V : ℚ)|) * 2 ^ b := mul_le_mul_of_nonneg_right this hb0.le
      _ = _ := by ring
  have q2 : |((S : ℤ) : ℚ) * 2 ^ b| ≤ X := by
    rw [abs_mul, abs_of_pos hb0, hXV]
    refine mul_le_mul_of_nonneg_right ?_ hb0.le
    rw [abs_of_nonneg (by exact_mod_cast Int.natCast_nonneg S), ← Int.cast_abs]
    exact_mod_cast l2
  have q3 : 1 ≤ X := by
    rw [hXV]
    have h1 : (2 : ℚ) ^ 63 ≤ |(V : ℚ)| := by rw [← Int.cast_abs]; exact_mod_cast l3
    have h2 : (1 : ℚ) ≤ 2 ^ b := one_le_pow₀ (by norm_num)
    nlinarith
  rw [← hX] at hb
  have e3 : (2 : ℚ) ^ (F.emax - 2) = 2 * 2 ^ (F.emax - 3) := by
    rw [show F.emax - 2 = (F.emax - 3) + 1 by ring, pow_add']; simp; ring
  have e4 : (2 : ℚ) ^ (F.emax - 1) = 4 * 2 ^ (F.emax - 3) := by
    rw [show F.emax - 1 = (F.emax - 3) + 2 by ring, pow_add']; norm_num; ring
  obtain ⟨y1, a1, a2, a3⟩ := part_spec hF h T (b + 64) (by omega) (by linarith)
  obtain ⟨y2, b1, b2, b3⟩ := part_spec hF h (S : ℤ) b (by rw [abs_of_nonneg (by omega)]; omega) (by linarith)
  have hu0 : (0 : ℚ) < 2 ^ F.p := by positivity
  obtain ⟨u, hu⟩ : ∃ u : ℚ, u = 1 / 2 ^ F.p := ⟨_, rfl⟩
  have hu1 : 0 < u := by rw [hu]; positivity
  have hu2 : u ≤ 1 / 2 ^ 53 := by
    rw [hu]; exact one_div_le_one_div_of_le (by positivity) (pow_le_pow_right₀ (by norm_num) hF.p_ge)
  have a2' : |y1 - T * 2 ^ (b + 64)| ≤ 2 * (u * X) := by
    refine le_trans a2 ?_
    rw [div_eq_mul_one_div, ← hu]
    nlinarith
  have b2' : |y2 - (S : ℤ) * 2 ^ b| ≤ u * X := by
    refine le_trans b2 ?_
    rw [div_eq_mul_one_div, ← hu]
    nlinarith
  have hVs : (V : ℚ) * 2 ^ b = T * 2 ^ (b + 64) + (S : ℤ) * 2 ^ b := by
    rw [hV, pow_add]; push_cast; ring
  have hsum : |y1 + y2 - V * 2 ^ b| ≤ 3 * (u * X) := by
    rw [hVs, show y1 + y2 - (T * 2 ^ (b + 64) + (S : ℤ) * 2 ^ b) = (y1 - T * 2 ^ (b + 64)) + (y2 - (S : ℤ) * 2 ^ b) by ring]
    exact le_trans (abs_add_le _ _) (by linarith)
  have huX : u * X ≤ X / 2 ^ 53 := by
    have := mul_le_mul_of_nonneg_right hu2 (by linarith : (0 : ℚ) ≤ X)
    linarith
  have s1 := abs_sub_abs_le_abs_sub (y1 + y2) ((V : ℚ) * 2 ^ b)
  have s2 := abs_sub_abs_le_abs_sub ((V : ℚ) * 2 ^ b) (y1 + y2)
  rw [abs_sub_comm] at s2
  rw [← hX] at s1 s2
  have hlow : 2 ^ (2 - F.emax) ≤ |y1 + y2| := by
    have := pow_le (show 2 - F.emax ≤ -1 by have := hF.emax_ge; omega)
    norm_num at this huX
    linarith
  have hhigh : |y1 + y2| < 2 ^ (F.emax - 1) := by
    rw [e4]; norm_num at huX; linarith [two_pos (F.emax - 3)]
  obtain ⟨y, c1, c2, c3⟩ := rnd_err h (by have := hF.p_ge; omega) hlow hhigh
  refine ⟨y, ?_, ?_, fun h1 h2 h3 => ?_⟩
  · rw [a1]
    have b1' : ldexp rnd (rnd (S : ℚ)) b = .fin y2 := by rw [← b1]; norm_num
    rw [b1']
    exact c1
  · rw [div_eq_mul_one_div, ← hu] at c3
    rw [show (4 : ℚ) / 2 ^ F.p = 4 * u by rw [hu]; ring, show (3 : ℚ) / 2 ^ F.p = 3 * u by rw [hu]; ring, ← hu, ← hX]
    have t := abs_sub_le y (y1 + y2) ((V : ℚ) * 2 ^ b)
    have : |y1 + y2| * u ≤ (X + 3 * (u * X)) * u := mul_le_mul_of_nonneg_right (by linarith) hu1.le
    nlinarith
  · have e1 := a3 h1
    have e2 := b3 h2
    rw [e1, e2, ← hVs, rnd_has h h3] at c1
    cases c1
    rfl

end Walnut.Float
