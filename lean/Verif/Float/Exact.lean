/- The words of a number of a format are numbers of the format. -/
import Verif.Float.Round
import Mathlib.Tactic.LinearCombination

namespace Walnut.Float

variable {F : Format}

/-- An integer of a format has a natural exponent. -/
theorem has_nat (hF : F.Usual) {v : ℤ} (h : F.Has v) : ∃ (m : ℤ) (e : ℕ), |m| < 2 ^ F.p ∧ (e : ℤ) + F.p ≤ F.emax ∧ v = m * 2 ^ e := by
  obtain ⟨m, e, h1, h2, h3, h4⟩ := h
  by_cases he : 0 ≤ e
  · obtain ⟨n, rfl⟩ := Int.eq_ofNat_of_zero_le he
    refine ⟨m, n, h1, h3, ?_⟩
    rw [zpow_natCast] at h4
    exact_mod_cast h4
  · obtain ⟨j, hj⟩ : ∃ j : ℕ, (j : ℤ) = -e := ⟨(-e).toNat, by omega⟩
    refine ⟨v, 0, ?_, by have := hF.p_le; have := hF.emax_ge; omega, by simp⟩
    have hm : v * 2 ^ j = m := by
      have : (v : ℚ) * 2 ^ j = m := by
        rw [h4, mul_assoc, ← zpow_natCast, ← pow_add', hj]; simp
      exact_mod_cast this
    rw [← hm, abs_mul, abs_of_pos (by positivity : (0 : ℤ) < 2 ^ j)] at h1
    have h2 : (1 : ℤ) ≤ 2 ^ j := one_le_pow₀ (by norm_num)
    nlinarith [abs_nonneg v]

theorem zero_of_dvd {d r : ℤ} (h : d ∣ r) (h0 : 0 ≤ r) (h1 : r < d) : r = 0 := Int.eq_zero_of_dvd_of_nonneg_of_lt h0 h1 h

theorem has_mult_nat (hF : F.Usual) {n : ℤ} {e : ℕ} (h1 : |n| ≤ 2 ^ F.p) (h3 : (e : ℤ) + F.p ≤ F.emax) (h4 : |((n * 2 ^ e : ℤ) : ℚ)| < 2 ^ F.emax) :
    F.Has ((n * 2 ^ e : ℤ) : ℚ) := by
  have e0 : ((n * 2 ^ e : ℤ) : ℚ) = n * 2 ^ (e : ℤ) := by push_cast; rw [zpow_natCast]
  rw [e0] at h4 ⊢
  exact has_of_mult h1 (by have := hF.emax_ge; omega) (by have := hF.p_ge; omega) h3 h4

/-- The upper part of a number. -/
theorem floor_has (hF : F.Usual) {v m q r : ℤ} {e l : ℕ} (hm : |m| < 2 ^ F.p) (he : (e : ℤ) + F.p ≤ F.emax) (hv : v = m * 2 ^ e) (hq : v = q * 2 ^ l + r) (r0 : 0 ≤ r)
    (r1 : r < 2 ^ l) (hl : l ≤ e + F.p) (hb : |((q * 2 ^ l : ℤ) : ℚ)| < 2 ^ F.emax) : F.Has ((q * 2 ^ l : ℤ) : ℚ) := by
  rcases le_total l e with hle | hle
  · obtain ⟨j, rfl⟩ := Nat.exists_eq_add_of_le hle
    have : r = 0 := by
      refine zero_of_dvd (d := 2 ^ l) ⟨m * 2 ^ j - q, ?_⟩ r0 r1
      rw [pow_add] at hv
      linear_combination hv - hq
    have e2 : q * 2 ^ l = m * 2 ^ (l + j) := by rw [← hv, hq, this, add_zero]
    rw [e2] at hb ⊢
    exact has_mult_nat hF hm.le he hb
  · obtain ⟨j, rfl⟩ := Nat.exists_eq_add_of_le hle
    obtain ⟨i, hi⟩ := Nat.exists_eq_add_of_le (show j ≤ F.p by omega)
    have e2 : q * 2 ^ (e + j) = (q * 2 ^ j) * 2 ^ e := by rw [pow_add]; ring
    rw [e2] at hb ⊢
    refine has_mult_nat hF ?_ he hb
    rw [hi, pow_add]
    have hmb := abs_lt.1 hm
    rw [hi, pow_add] at hmb
    have p1 : (0 : ℤ) < 2 ^ e := by positivity
    have p2 : (0 : ℤ) < 2 ^ j := by positivity
    have hmr : m * 2 ^ e = (q * 2 ^ j) * 2 ^ e + r := by rw [← hv, hq, pow_add]; ring
    have r1' : r < 2 ^ e * 2 ^ j := by rw [← pow_add]; exact r1
    have k1 : q * 2 ^ j ≤ m := by
      by_contra hc
      have : m + 1 ≤ q * 2 ^ j := by omega
      nlinarith
    have k2 : m < (q + 1) * 2 ^ j := by
      by_contra hc
      have : (q + 1) * 2 ^ j ≤ m := by omega
      nlinarith
    have k3 : -(2 ^ i) ≤ q := by
      by_contra hc
      have : q + 1 ≤ -(2 ^ i) := by omega
      nlinarith
    rw [abs_le]
    constructor
    · nlinarith
    · linarith [hmb.2]

/-- A word of a number. -/
theorem word_has (hF : F.Usual) {v m T S r : ℤ} {e l : ℕ} (hm : |m| < 2 ^ F.p) (he : (e : ℤ) + F.p ≤ F.emax) (hv : v = m * 2 ^ e) (hq : v = T * 2 ^ (l + 64) + S * 2 ^ l + r) (r0 : 0 ≤ r)
    (r1 : r < 2 ^ l) (s0 : 0 ≤ S) (s1 : S < 2 ^ 64) (hl : l + 64 ≤ e + F.p) (hb : |((S * 2 ^ l : ℤ) : ℚ)| < 2 ^ F.emax) : F.Has ((S * 2 ^ l : ℤ) : ℚ) := by
  have pl : (0 : ℤ) < 2 ^ l := by positivity
  have pe : (0 : ℤ) < 2 ^ e := by positivity
  have main : ∃ n, S * 2 ^ l = n * 2 ^ e := by
    rcases le_total e l with hle | hle
    · obtain ⟨j, rfl⟩ := Nat.exists_eq_add_of_le hle
      exact ⟨S * 2 ^ j, by rw [pow_add]; ring⟩
    · have hr : r = 0 := by
        obtain ⟨j, rfl⟩ := Nat.exists_eq_add_of_le hle
        refine zero_of_dvd (d := 2 ^ l) ⟨m * 2 ^ j - T * 2 ^ 64 - S, ?_⟩ r0 r1
        rw [pow_add] at hv hq
        linear_combination hv - hq
      rcases le_total e (l + 64) with hle2 | hle2
      · obtain ⟨j, hj⟩ := Nat.exists_eq_add_of_le hle2
        refine ⟨m - T * 2 ^ j, ?_⟩
        rw [hj, pow_add] at hq
        linear_combination hv - hq - hr
      · obtain ⟨j, rfl⟩ := Nat.exists_eq_add_of_le hle2
        have : S * 2 ^ l = 0 := by
          refine zero_of_dvd (d := 2 ^ (l + 64)) ⟨m * 2 ^ j - T, ?_⟩ (by positivity) ?_
          · rw [pow_add _ (l + 64)] at hv
            linear_combination hv - hq - hr
          · rw [pow_add]; nlinarith
        exact ⟨0, by rw [this, zero_mul]⟩
  obtain ⟨n, hn⟩ := main
  rw [hn] at hb ⊢
  refine has_mult_nat hF ?_ he hb
  have n0 : 0 ≤ n := by
    by_contra hc
    have : n ≤ -1 := by omega
    nlinarith
  rw [abs_of_nonneg n0]
  have : n * 2 ^ e ≤ 2 ^ F.p * 2 ^ e := by
    rw [← hn, ← pow_add]
    calc S * 2 ^ l ≤ 2 ^ 64 * 2 ^ l := mul_le_mul_of_nonneg_right s1.le pl.le
      _ = 2 ^ (l + 64) := by rw [pow_add]; ring
      _ ≤ _ := pow_le_pow_right₀ (by norm_num) (by omega)
  exact le_of_mul_le_mul_right this pe

end Walnut.Float
