/- A function that rounds to nearest. -/
import Verif.Float.Round

namespace Walnut.Float

/-- The exponent of the last bit of the numbers of a format around `x`. -/
def lastExp (F : Format) (x : ℚ) : ℤ := max (Int.log 2 |x| + 1 - F.p) (3 - F.emax - F.p)

/-- Rounding to nearest. -/
def roundNearest (F : Format) (x : ℚ) : Fl :=
  if 2 ^ F.emax - 2 ^ (F.emax - F.p - 1) ≤ |x| then .inf (decide (x < 0)) else .fin (round (x / 2 ^ lastExp F x) * 2 ^ lastExp F x)

theorem round_nearest_int (t : ℚ) (n : ℤ) : |(round t : ℚ) - t| ≤ |(n : ℚ) - t| := by
  rw [abs_sub_comm, abs_sub_comm (n : ℚ)]
  exact round_le t n

theorem roundNearest_ok (F : Format) (hp : 1 ≤ F.p) (he : 2 ≤ F.emax) : Nearest F (roundNearest F) where
  overflow x hx := if_pos hx
  finite x hx := by
    refine ⟨_, if_neg (not_le.2 hx), ?_, ?_⟩
    all_goals
      by_cases h0 : x = 0
      swap
      have hpos : 0 < |x| := abs_pos.2 h0
      obtain ⟨k, hk⟩ : ∃ k, k = Int.log 2 |x| := ⟨_, rfl⟩
      have k1 : (2 : ℚ) ^ k ≤ |x| := by rw [hk]; exact_mod_cast Int.zpow_log_le_self (b := 2) (by norm_num) hpos
      have k2 : |x| < (2 : ℚ) ^ (k + 1) := by rw [hk]; exact_mod_cast Int.lt_zpow_succ_log_self (b := 2) (by norm_num) |x|
      obtain ⟨E, hE⟩ : ∃ E, E = lastExp F x := ⟨_, rfl⟩
      have hE' : E = max (k + 1 - F.p) (3 - F.emax - F.p) := by rw [hE, hk]; rfl
      rw [← hE]
    · have kem : k < F.emax := pow_lt_iff.1 (lt_of_le_of_lt k1 (lt_of_lt_of_le hx (by have := two_pos (F.emax - F.p - 1); linarith)))
      have hround : |round (x / 2 ^ E)| ≤ 2 ^ F.p := by
        have b1 : |x / 2 ^ E| < 2 ^ F.p := by
          rw [abs_div, abs_of_pos (two_pos E), div_lt_iff₀ (two_pos E), ← zpow_natCast, ← pow_add']
          exact lt_of_lt_of_le k2 (pow_le (by omega))
        have hr := abs_sub_round (x / 2 ^ E)
        have b2 : |(round (x / 2 ^ E) : ℚ)| < 2 ^ F.p + 1 := by
          have := abs_sub_abs_le_abs_sub (round (x / 2 ^ E) : ℚ) (x / 2 ^ E)
          rw [abs_sub_comm] at this
          linarith
        rw [← Int.cast_abs] at b2
        have : |round (x / 2 ^ E)| < 2 ^ F.p + 1 := by exact_mod_cast b2
        omega
      refine has_of_mult hround (by omega) hp (by omega) ?_
      -- the result is too great only if the number is
      have hr := round_nearest_int (x / 2 ^ E) (round (x / 2 ^ E))
      have hr2 := abs_sub_round (x / 2 ^ E)
      have e1 : (round (x / 2 ^ E) : ℚ) * 2 ^ E - x = -((x / 2 ^ E - round (x / 2 ^ E)) * 2 ^ E) := by
        have := (two_pos E).ne'
        field_simp
        ring
      have e2 : |(round (x / 2 ^ E) : ℚ) * 2 ^ E - x| ≤ 1 / 2 * 2 ^ E := by
        rw [e1, abs_neg, abs_mul, abs_of_pos (two_pos E)]
        exact mul_le_mul_of_nonneg_right hr2 (two_pos E).le
      have e3 := abs_sub_abs_le_abs_sub ((round (x / 2 ^ E) : ℚ) * 2 ^ E) x
      have e4 : 1 / 2 * (2 : ℚ) ^ E ≤ 2 ^ (F.emax - F.p - 1) := by
        have : (2 : ℚ) ^ (F.emax - F.p) = 2 ^ (F.emax - F.p - 1) * 2 := by
          rw [show F.emax - (F.p : ℤ) = (F.emax - F.p - 1) + 1 by ring, pow_add']; simp
        have := pow_le (show E ≤ F.emax - F.p by omega)
        linarith
      linarith
    · subst h0
      simp only [zero_div, round_zero, Int.cast_zero, zero_mul]
      exact has_zero he
    · intro z hz
      have hxE : x / 2 ^ E * 2 ^ E = x := by field_simp
      have scale : ∀ n : ℤ, |(round (x / 2 ^ E) : ℚ) * 2 ^ E - x| ≤ |(n : ℚ) * 2 ^ E - x| := by
        intro n
        have h1 := round_nearest_int (x / 2 ^ E) n
        have h2 : ∀ a : ℚ, a * 2 ^ E - x = (a - x / 2 ^ E) * 2 ^ E := by intro a; rw [sub_mul, hxE]
        rw [h2, h2, abs_mul, abs_mul]
        exact mul_le_mul_of_nonneg_right h1 (abs_nonneg _)
      obtain ⟨m, e, m1, m2, m3, rfl⟩ := hz
      by_cases heE : E ≤ e
      · obtain ⟨j, hj⟩ : ∃ j : ℕ, (j : ℤ) = e - E := ⟨(e - E).toNat, by omega⟩
        have := scale (m * 2 ^ j)
        have e5 : ((m * 2 ^ j : ℤ) : ℚ) * 2 ^ E = m * 2 ^ e := by
          push_cast
          rw [mul_assoc, ← zpow_natCast, ← pow_add']
          congr 2; omega
        rwa [e5] at this
      · have hEk : E = k + 1 - F.p := by omega
        have hz : |(m : ℚ) * 2 ^ e| ≤ 2 ^ k := by
          rw [abs_mul, abs_of_pos (two_pos e), ← Int.cast_abs]
          have : ((|m| : ℤ) : ℚ) ≤ 2 ^ (F.p : ℤ) := by rw [zpow_natCast]; exact_mod_cast m1.le
          calc _ ≤ (2 : ℚ) ^ (F.p : ℤ) * 2 ^ e := mul_le_mul_of_nonneg_right this (two_pos e).le
            _ = 2 ^ (F.p + e) := (pow_add' _ _).symm
            _ ≤ 2 ^ k := pow_le (by omega)
        obtain ⟨q, hq⟩ : ∃ q, F.p = q + 1 := ⟨F.p - 1, by omega⟩
        have h2k : ((2 ^ q : ℤ) : ℚ) * 2 ^ E = 2 ^ k := by
          push_cast
          rw [← zpow_natCast, ← pow_add', hEk, hq]
          congr 1; push_cast; ring
        obtain ⟨z1, z2⟩ := abs_le.1 hz
        rcases lt_or_gt_of_ne h0 with hx0 | hx0
        · have h3 := scale (-(2 ^ q))
          rw [abs_of_neg hx0] at k1
          rw [show ((-(2 ^ q) : ℤ) : ℚ) * 2 ^ E = -2 ^ k by rw [Int.cast_neg, neg_mul, h2k]] at h3
          refine le_trans h3 ?_
          rw [abs_of_nonneg (by linarith), abs_of_nonneg (by linarith)]
          linarith
        · have h3 := scale (2 ^ q)
          rw [abs_of_pos hx0] at k1
          rw [h2k] at h3
          refine le_trans h3 ?_
          rw [abs_of_nonpos (by linarith), abs_of_nonpos (by linarith)]
          linarith
    · subst h0
      intro z _
      simp only [zero_div, round_zero, Int.cast_zero, zero_mul, sub_zero, abs_zero]
      exact abs_nonneg _

end Walnut.Float
