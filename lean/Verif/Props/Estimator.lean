/- C42: the `m * log2(n)` estimator. -/
import Verif.Bsp.Estimator
import Verif.BigInt.WordBits
import Mathlib.Analysis.SpecialFunctions.Log.Base
import Mathlib.Analysis.Complex.ExponentialBounds
import Mathlib.Analysis.Real.Sqrt
import Mathlib.Analysis.Convex.SpecificFunctions.Basic
import Mathlib.Tactic.IntervalCases

namespace Walnut.Props
open Walnut.Bsp Real

/-- Closed form of the estimate: `⌊m n / 2^k⌋ + m k - m` with `k = ⌊log2 n⌋`. -/
theorem estimate_closed (s : Int) (hs : 0 ≤ s ∧ s < 64) (m n : Word) (hn : n ≠ 0#64) :
    ∃ r, estimate s m n = some (r, (Nat.log2 n.toNat : Int)) ∧
      (m.toNat * 64 < 2 ^ 64 →
        r.toNat = m.toNat * n.toNat / 2 ^ Nat.log2 n.toNat + m.toNat * Nat.log2 n.toNat - m.toNat) := by
  have hn0 : n.toNat ≠ 0 := fun h => hn (BitVec.eq_of_toNat_eq (by simpa using h))
  have hlast : (if n >>> s.toNat ≠ 1#64 then (Word.highestSetBit n : Int) - 1 else s)
      = (Nat.log2 n.toNat : Int) := by
    split
    · obtain ⟨h1, h2⟩ := Word.highestSetBit_spec n
      rcases h2 with h2 | h2
      · rw [h2] at h1; simp at h1; omega
      · have h3 : Word.highestSetBit n ≠ 0 := by
          intro h; rw [h] at h1; simp at h1; omega
        have := (Nat.log2_eq_iff (n := n.toNat) (k := Word.highestSetBit n - 1) hn0).mpr
          ⟨h2, by rwa [Nat.sub_add_cancel (by omega)]⟩
        omega
    · rename_i h
      simp only [ne_eq, not_not] at h
      have h' : n.toNat / 2 ^ s.toNat = 1 := by
        have := congrArg BitVec.toNat h
        simpa [Nat.shiftRight_eq_div_pow] using this
      have hp : 0 < 2 ^ s.toNat := by positivity
      have := (Nat.log2_eq_iff (n := n.toNat) (k := s.toNat) hn0).mpr
        ⟨by
          have := Nat.div_mul_le_self n.toNat (2 ^ s.toNat)
          rw [h'] at this; omega, by
          have := Nat.lt_div_mul_add hp (a := n.toNat)
          rw [h'] at this
          rw [pow_succ]; omega⟩
      omega
  have hk : Nat.log2 n.toNat < 64 := (Nat.log2_lt hn0).mpr n.isLt
  have hle : 2 ^ Nat.log2 n.toNat ≤ n.toNat := Nat.log2_self_le hn0
  have hlt : n.toNat < 2 ^ (Nat.log2 n.toNat + 1) := Nat.lt_log2_self
  generalize Nat.log2 n.toNat = k at *
  unfold estimate
  rw [if_neg (by omega)]
  simp only [hlast]
  rw [if_neg (by omega)]
  refine ⟨_, rfl, ?_⟩
  intro hm
  have hmn : m.toNat * n.toNat < 2 ^ 128 := by
    calc m.toNat * n.toNat < 2 ^ 64 * 2 ^ 64 := Nat.mul_lt_mul'' m.isLt n.isLt
      _ = 2 ^ 128 := by norm_num
  have hfull : ((m.setWidth 128 * n.setWidth 128 : BitVec 128) >>> (k : Int).toNat).toNat
      = m.toNat * n.toNat / 2 ^ k := by
    have hm' := m.isLt
    have hn' := n.isLt
    rw [BitVec.toNat_ushiftRight, BitVec.toNat_mul, BitVec.toNat_setWidth, BitVec.toNat_setWidth,
      Nat.shiftRight_eq_div_pow, Int.toNat_natCast,
      Nat.mod_eq_of_lt (show m.toNat < 2 ^ 128 by omega),
      Nat.mod_eq_of_lt (show n.toNat < 2 ^ 128 by omega), Nat.mod_eq_of_lt hmn]
  have hge : m.toNat ≤ m.toNat * n.toNat / 2 ^ k := by
    rw [Nat.le_div_iff_mul_le (by positivity)]
    exact Nat.mul_le_mul_left _ hle
  have hle2 : m.toNat * n.toNat / 2 ^ k ≤ 2 * m.toNat := by
    apply Nat.div_le_of_le_mul
    rw [pow_succ] at hlt
    nlinarith
  have hmk : m.toNat * k ≤ m.toNat * 63 := Nat.mul_le_mul_left _ (by omega)
  rw [BitVec.toNat_add, BitVec.toNat_setWidth, hfull]
  generalize m.toNat * n.toNat / 2 ^ k = q at *
  have hm' := m.isLt
  cases k with
  | zero =>
    have e : m * BitVec.ofInt 64 (((0 : Nat) : Int) - 1) = -m := by
      rw [show BitVec.ofInt 64 (((0 : Nat) : Int) - 1) = -1#64 by decide, BitVec.mul_neg,
        BitVec.mul_one]
    rw [e, BitVec.toNat_neg]
    omega
  | succ k =>
    have e : BitVec.ofInt 64 (((k + 1 : Nat) : Int) - 1) = BitVec.ofNat 64 k := by
      rw [show (((k + 1 : Nat) : Int) - 1) = (k : Int) by omega, BitVec.ofInt_natCast]
    rw [e, BitVec.toNat_mul, BitVec.toNat_ofNat, Nat.mod_eq_of_lt (show k < 2 ^ 64 by omega)]
    rw [Nat.mul_succ] at hmk ⊢
    generalize m.toNat * k = w at *
    omega

/-- C42: after any sequence of calls with `n ≥ 1` the estimate is what a fresh
estimator returns: `⌊m n / 2^k⌋ + m (k - 1)` with `k = ⌊log2 n⌋`, whenever the
result fits (`64 m < 2^64`). -/
theorem C42_history (calls : List (Word × Word)) (hc : ∀ c ∈ calls, c.2 ≠ 0#64) (m n : Word)
    (hn : n ≠ 0#64) :
    ∃ s r, estimateRun 0 calls = some s ∧ (estimate s m n).map (·.1) = some r ∧
      (estimate 0 m n).map (·.1) = some r ∧
      (m.toNat * 64 < 2 ^ 64 →
        r.toNat + m.toNat =
          m.toNat * n.toNat / 2 ^ Nat.log2 n.toNat + m.toNat * Nat.log2 n.toNat) := by
  have run : ∀ (calls : List (Word × Word)) (s : Int), 0 ≤ s ∧ s < 64 →
      (∀ c ∈ calls, c.2 ≠ 0#64) → ∃ s', estimateRun s calls = some s' ∧ 0 ≤ s' ∧ s' < 64 := by
    intro calls
    induction calls with
    | nil => intro s hs _; exact ⟨s, rfl, hs⟩
    | cons c cs ih =>
      intro s hs h
      obtain ⟨r, hr, _⟩ := estimate_closed s hs c.1 c.2 (h c (by simp))
      have hk : Nat.log2 c.2.toNat < 64 :=
        (Nat.log2_lt fun h0 => h c (by simp) (BitVec.eq_of_toNat_eq (by simpa using h0))).mpr c.2.isLt
      obtain ⟨s', h1, h2⟩ := ih (Nat.log2 c.2.toNat : Int) (by omega) fun d hd => h d (by simp [hd])
      exact ⟨s', by simp [estimateRun, hr, h1], h2⟩
  obtain ⟨s, hs, hb⟩ := run calls 0 (by omega) hc
  obtain ⟨r, hr, hv⟩ := estimate_closed s hb m n hn
  obtain ⟨r0, hr0, hv0⟩ := estimate_closed 0 (by omega) m n hn
  have same : r0 = r := by
    have e1 : estimate s m n = estimate 0 m n := by
      have hs1 : ¬ (s < 0 ∨ 64 ≤ s) := by omega
      unfold estimate at hr hr0 ⊢
      rw [if_neg hs1] at hr ⊢
      rw [if_neg (by omega : ¬ ((0 : Int) < 0 ∨ 64 ≤ (0 : Int)))] at hr0 ⊢
      simp only at hr hr0 ⊢
      generalize (if n >>> s.toNat ≠ 1#64 then (Word.highestSetBit n : Int) - 1 else s) = a at *
      generalize (if n >>> (0 : Int).toNat ≠ 1#64 then (Word.highestSetBit n : Int) - 1 else 0) = b at *
      split at hr
      · simp at hr
      · split at hr0
        · simp at hr0
        · simp only [Option.some.injEq, Prod.mk.injEq] at hr hr0
          rw [hr.2, hr0.2]
    rw [hr, hr0] at e1
    simpa using e1.symm
  refine ⟨s, r, hs, by simp [hr], by simp [hr0, same], fun hm => ?_⟩
  have := hv hm
  have hle : 2 ^ Nat.log2 n.toNat ≤ n.toNat :=
    Nat.log2_self_le fun h0 => hn (BitVec.eq_of_toNat_eq (by simpa using h0))
  have hge : m.toNat ≤ m.toNat * n.toNat / 2 ^ Nat.log2 n.toNat := by
    rw [Nat.le_div_iff_mul_le (by positivity)]
    exact Nat.mul_le_mul_left _ hle
  omega

example : estimateRun 0 [(5, 7), (3, 100)] = some 6 ∧
    (estimate 6 12 11).map (·.1) = some 40 ∧ (estimate 0 12 11).map (·.1) = some 40 := by decide

/-- The estimator is undefined for `n = 0`, whose logarithm is undefined. -/
theorem C42_zero_undefined (m : Word) : estimate 0 m 0#64 = none := by
  have : Word.highestSetBit 0#64 = 0 := by decide
  simp [estimate, this]

/-! ### Relative error -/

/-- `x - 1 ≤ log2 x` between 1 and 2. -/
theorem sub_one_le_logb {x : ℝ} (h1 : 1 ≤ x) (h2 : x ≤ 2) : x - 1 ≤ Real.logb 2 x := by
  rw [Real.le_logb_iff_rpow_le (by norm_num) (by linarith)]
  have := rpow_one_add_le_one_add_mul_self (s := 1) (p := x - 1) (by norm_num) (by linarith)
    (by linarith)
  have e : (1 + 1 : ℝ) = 2 := by norm_num
  rw [e] at this
  linarith

/-- `log2 x ≤ x - 1 + 0.099` between 1 and 2. -/
theorem logb_le_add {x : ℝ} (h1 : 1 ≤ x) (h2 : x ≤ 2) : Real.logb 2 x ≤ x - 1 + 0.099 := by
  have hl := Real.log_two_gt_d9
  have hl' := Real.log_two_lt_d9
  have hs : (0 : ℝ) < √2 := by positivity
  have hs2 : √2 * √2 = 2 := Real.mul_self_sqrt (by norm_num)
  have hs3 : √2 < 1.4143 := by rw [Real.sqrt_lt' (by norm_num)]; norm_num
  have hs4 : 1.4142 < √2 := by rw [Real.lt_sqrt (by norm_num)]; norm_num
  have ht := Real.log_le_sub_one_of_pos (x := x / √2) (by positivity)
  rw [Real.log_div (by linarith) (by linarith), Real.log_sqrt (by norm_num)] at ht
  rw [Real.logb, div_le_iff₀ (by linarith)]
  have hx : x / √2 = x * √2 / 2 := by rw [div_eq_div_iff (by linarith) (by norm_num)]; linear_combination (-x) * hs2
  rw [hx] at ht
  nlinarith

/-- Bounds for `log2 n` from a comparison of integer powers. -/
theorem logb_le_of_pow {n a b : Nat} (hn : 0 < n) (hb : 0 < b) (h : n ^ b ≤ 2 ^ a) :
    Real.logb 2 n ≤ a / b := by
  have hb' : (0 : ℝ) < b := by exact_mod_cast hb
  rw [le_div_iff₀ hb', mul_comm, ← Real.logb_pow, Real.logb_le_iff_le_rpow (by norm_num) (by positivity),
    Real.rpow_natCast]
  exact_mod_cast h

theorem le_logb_of_pow {n a b : Nat} (hn : 0 < n) (hb : 0 < b) (h : 2 ^ a ≤ n ^ b) :
    (a : ℝ) / b ≤ Real.logb 2 n := by
  have hb' : (0 : ℝ) < b := by exact_mod_cast hb
  rw [div_le_iff₀ hb', mul_comm, ← Real.logb_pow, Real.le_logb_iff_rpow_le (by norm_num) (by positivity),
    Real.rpow_natCast]
  exact_mod_cast h

/-- The real value of the estimate before rounding down, against `m log2 n`. -/
theorem estimate_real {m n k : Nat} (hle : 2 ^ k ≤ n) (hlt : n < 2 ^ (k + 1)) {e : Nat}
    (he : e + m = m * n / 2 ^ k + m * k) :
    (e : ℝ) ≤ m * Real.logb 2 n ∧ m * Real.logb 2 n ≤ e + 1 + 0.099 * m := by
  have hp : (0 : ℝ) < 2 ^ k := by positivity
  have hn : (0 : ℝ) < n := by
    have : 0 < n := lt_of_lt_of_le (by positivity) hle
    exact_mod_cast this
  have hx : Real.logb 2 n = k + Real.logb 2 (n / 2 ^ k) := by
    rw [Real.logb_div hn.ne' hp.ne', Real.logb_pow, Real.logb_self_eq_one (by norm_num)]; ring
  have hx1 : (1 : ℝ) ≤ n / 2 ^ k := by rw [le_div_iff₀ hp]; simpa using (by exact_mod_cast hle : (2 : ℝ) ^ k ≤ n)
  have hx2 : (n : ℝ) / 2 ^ k ≤ 2 := by
    rw [div_le_iff₀ hp]
    have : (n : ℝ) < 2 ^ (k + 1) := by exact_mod_cast hlt
    rw [pow_succ] at this; linarith
  have l1 := sub_one_le_logb hx1 hx2
  have l2 := logb_le_add hx1 hx2
  have hf1 : ((m * n / 2 ^ k : Nat) : ℝ) ≤ m * (n / 2 ^ k) := by
    have := Nat.cast_div_le (α := ℝ) (m := m * n) (n := 2 ^ k)
    push_cast at this
    rwa [mul_div_assoc] at this
  have hf2 : (m : ℝ) * (n / 2 ^ k) ≤ ((m * n / 2 ^ k : Nat) : ℝ) + 1 := by
    rw [← mul_div_assoc, div_le_iff₀ hp]
    have := (Nat.lt_div_mul_add (a := m * n) (b := 2 ^ k) (by positivity)).le
    have h' : ((m * n : Nat) : ℝ) ≤ ((m * n / 2 ^ k : Nat) : ℝ) * 2 ^ k + 2 ^ k := by exact_mod_cast this
    push_cast at h' ⊢
    linarith
  have he' : (e : ℝ) + m = ((m * n / 2 ^ k : Nat) : ℝ) + m * k := by exact_mod_cast he
  have hm : (0 : ℝ) ≤ m := by positivity
  rw [hx]
  constructor <;> nlinarith

/-- C42: the documented accuracy of `Estimate`: within `1 + 0.033 v` of
`v = m log2(n)` when `m ≤ 4 n` (and the result fits 64 bits). -/
theorem C42_error (m n : Word) (hn : n ≠ 0#64) (hm : m.toNat ≤ 4 * n.toNat)
    (hfit : m.toNat * 64 < 2 ^ 64) :
    ∃ r, (estimate 0 m n).map (·.1) = some r ∧
      |(r.toNat : ℝ) - m.toNat * Real.logb 2 n.toNat|
        ≤ 1 + 0.033 * (m.toNat * Real.logb 2 n.toNat) := by
  obtain ⟨_, r, _, _, hr, hv⟩ := C42_history [] (by simp) m n hn
  refine ⟨r, hr, ?_⟩
  replace hv := hv hfit
  have hn0 : n.toNat ≠ 0 := fun h => hn (BitVec.eq_of_toNat_eq (by simpa using h))
  have hle : 2 ^ Nat.log2 n.toNat ≤ n.toNat := Nat.log2_self_le hn0
  have hlt : n.toNat < 2 ^ (Nat.log2 n.toNat + 1) := Nat.lt_log2_self
  generalize r.toNat = e at *
  generalize n.toNat = n at *
  generalize m.toNat = m at *
  obtain ⟨h1, h2⟩ := estimate_real hle hlt hv
  have hm0 : (0 : ℝ) ≤ m := by positivity
  have hm4 : (m : ℝ) ≤ 4 * n := by exact_mod_cast hm
  rw [abs_le]
  refine ⟨?_, by nlinarith [Real.logb_nonneg (b := 2) (x := n) (by norm_num) (by
    have : 1 ≤ n := by omega
    exact_mod_cast this)]⟩
  rcases Nat.lt_or_ge n 8 with hn8 | hn8
  · have small : ∀ a b : Nat, 0 < b → n ^ b ≤ 2 ^ a → m * Real.logb 2 n ≤ m * (a / b) :=
      fun a b hb h => mul_le_mul_of_nonneg_left (logb_le_of_pow (by omega) hb h) hm0
    have hcast : ∀ a b c : Nat, a * m ≤ b * e + c → (a : ℝ) * m ≤ b * e + c := by
      intro a b c h; exact_mod_cast h
    interval_cases n
    · omega
    · simp at h1 ⊢; linarith
    · have e1 : Nat.log2 2 = 1 := by decide
      rw [e1] at hv
      have s := small 1 1 (by norm_num) (by norm_num)
      have c := hcast 1 1 0 (by omega)
      push_cast at s c ⊢; linarith
    · have e1 : Nat.log2 3 = 1 := by decide
      rw [e1] at hv
      have s := small 27 17 (by norm_num) (by norm_num)
      have c := hcast 3 2 1 (by omega)
      push_cast at s c hm4 ⊢; linarith
    · have e1 : Nat.log2 4 = 2 := by decide
      rw [e1] at hv
      have s := small 2 1 (by norm_num) (by norm_num)
      have c := hcast 2 1 0 (by omega)
      push_cast at s c ⊢; linarith
    · have e1 : Nat.log2 5 = 2 := by decide
      rw [e1] at hv
      have s := small 72 31 (by norm_num) (by norm_num)
      have c := hcast 9 4 3 (by omega)
      push_cast at s c ⊢; linarith
    · have e1 : Nat.log2 6 = 2 := by decide
      rw [e1] at hv
      have s := small 13 5 (by norm_num) (by norm_num)
      have c := hcast 5 2 1 (by omega)
      push_cast at s c hm4 ⊢; linarith
    · have e1 : Nat.log2 7 = 2 := by decide
      rw [e1] at hv
      have s := small 17 6 (by norm_num) (by norm_num)
      have c := hcast 11 4 3 (by omega)
      push_cast at s c ⊢; linarith
  · have h3 : (3 : ℝ) ≤ Real.logb 2 n := by
      have := le_logb_of_pow (n := n) (a := 3) (b := 1) (by omega) (by norm_num) (by rw [pow_one]; omega)
      simpa using this
    nlinarith

/-- The estimate of `12 log2 11 = 41.5…` is 40. -/
example : ((estimate 0 12 11).map (·.1)) = some 40#64 := by decide

/-- C42: `GetSplitCost` does not have its documented accuracy `1 + 0.018 v`:
for 5 polygons on each side it returns 24 while `v = 2 · 5 · log2 6 > 25.71`. -/
theorem C42_split_cost_false :
    ¬ ∀ nt ne pt pe : Word, ne.toNat ≤ nt.toNat → pe.toNat ≤ pt.toNat →
      nt.toNat < 2 ^ 32 → pt.toNat < 2 ^ 32 →
      ∃ r, getSplitCost nt ne pt pe = some r ∧
        let v := (nt.toNat : ℝ) * Real.logb 2 (nt.toNat - ne.toNat + 1 : Nat) +
          pt.toNat * Real.logb 2 (pt.toNat - pe.toNat + 1 : Nat)
        |(r.toNat : ℝ) - v| ≤ 1 + 0.018 * v := by
  intro h
  obtain ⟨r, hr, hv⟩ := h 5#64 0#64 5#64 0#64 (by decide) (by decide) (by decide) (by decide)
  have e : getSplitCost 5#64 0#64 5#64 0#64 = some 24#64 := by decide
  rw [e] at hr
  obtain rfl := Option.some.inj hr
  have hl := le_logb_of_pow (n := 6) (a := 18) (b := 7) (by norm_num) (by norm_num) (by norm_num)
  have e1 : (5#64).toNat = 5 := by decide
  have e2 : (24#64).toNat = 24 := by decide
  have e3 : (0#64).toNat = 0 := by decide
  simp only [e1, e2, e3] at hv
  rw [abs_le] at hv
  norm_num at hv hl
  linarith [hv.1]

/-- What holds for `GetSplitCost`: it never exceeds `v` and is at least
`0.945 v - 2`, for counts below `2^32`. -/
theorem C42_split_cost_partial (nt ne pt pe : Word) (h1 : ne.toNat ≤ nt.toNat)
    (h2 : pe.toNat ≤ pt.toNat) (h3 : nt.toNat < 2 ^ 32) (h4 : pt.toNat < 2 ^ 32) :
    ∃ r, getSplitCost nt ne pt pe = some r ∧
      let v := (nt.toNat : ℝ) * Real.logb 2 (nt.toNat - ne.toNat + 1 : Nat) +
        pt.toNat * Real.logb 2 (pt.toNat - pe.toNat + 1 : Nat)
      0.945 * v - 2 ≤ r.toNat ∧ (r.toNat : ℝ) ≤ v := by
  have one : ∀ (s : Int) (m x : Word), 0 ≤ s ∧ s < 64 → x.toNat ≤ m.toNat → m.toNat < 2 ^ 32 →
      ∃ r s', estimate s m (m - x + 1#64) = some (r, s') ∧ (0 ≤ s' ∧ s' < 64) ∧
        r.toNat < 2 ^ 38 ∧
        0.945 * (m.toNat * Real.logb 2 (m.toNat - x.toNat + 1 : Nat)) - 1 ≤ r.toNat ∧
        (r.toNat : ℝ) ≤ m.toNat * Real.logb 2 (m.toNat - x.toNat + 1 : Nat) := by
    intro s m x hs hx hm
    have hN : (m - x + 1#64).toNat = m.toNat - x.toNat + 1 := by
      rw [BitVec.toNat_add, BitVec.toNat_sub]
      have : (1#64).toNat = 1 := rfl
      omega
    have hne : m - x + 1#64 ≠ 0#64 := by
      intro h; rw [h] at hN; simp at hN
    obtain ⟨r, hr, hv⟩ := estimate_closed s hs m _ hne
    rw [hN] at hr hv
    replace hv := hv (by omega)
    have hn0 : m.toNat - x.toNat + 1 ≠ 0 := by omega
    have hle : 2 ^ Nat.log2 (m.toNat - x.toNat + 1) ≤ m.toNat - x.toNat + 1 := Nat.log2_self_le hn0
    have hlt : m.toNat - x.toNat + 1 < 2 ^ (Nat.log2 (m.toNat - x.toNat + 1) + 1) := Nat.lt_log2_self
    have hk : Nat.log2 (m.toNat - x.toNat + 1) < 33 := (Nat.log2_lt hn0).mpr (by omega)
    refine ⟨r, _, hr, by omega, ?_⟩
    have hge : m.toNat ≤ m.toNat * (m.toNat - x.toNat + 1) / 2 ^ Nat.log2 (m.toNat - x.toNat + 1) := by
      rw [Nat.le_div_iff_mul_le (by positivity)]
      exact Nat.mul_le_mul_left _ hle
    have hup : m.toNat * (m.toNat - x.toNat + 1) / 2 ^ Nat.log2 (m.toNat - x.toNat + 1) ≤ 2 * m.toNat := by
      apply Nat.div_le_of_le_mul
      rw [pow_succ] at hlt
      nlinarith
    have hmk : m.toNat * Nat.log2 (m.toNat - x.toNat + 1) ≤ m.toNat * 32 :=
      Nat.mul_le_mul_left _ (by omega)
    refine ⟨by omega, ?_⟩
    have hv' : r.toNat + m.toNat = m.toNat * (m.toNat - x.toNat + 1) /
        2 ^ Nat.log2 (m.toNat - x.toNat + 1) + m.toNat * Nat.log2 (m.toNat - x.toNat + 1) := by omega
    clear hv hup hmk hge hr
    generalize r.toNat = e at *
    generalize m.toNat - x.toNat + 1 = n at *
    generalize m.toNat = m at *
    obtain ⟨h1, h2⟩ := estimate_real hle hlt hv'
    refine ⟨?_, h1⟩
    have hm0 : (0 : ℝ) ≤ m := by positivity
    rcases Nat.lt_or_ge n 4 with hn8 | hn8
    · have small : ∀ a b : Nat, 0 < b → n ^ b ≤ 2 ^ a → m * Real.logb 2 n ≤ m * (a / b) :=
        fun a b hb h => mul_le_mul_of_nonneg_left (logb_le_of_pow (by omega) hb h) hm0
      have hcast : ∀ a b c : Nat, a * m ≤ b * e + c → (a : ℝ) * m ≤ b * e + c := by
        intro a b c h; exact_mod_cast h
      interval_cases n
      · omega
      · simp at h1 ⊢; linarith
      · have e1 : Nat.log2 2 = 1 := by decide
        rw [e1] at hv'
        have s := small 1 1 (by norm_num) (by norm_num)
        have c := hcast 1 1 0 (by omega)
        push_cast at s c ⊢; linarith
      · have e1 : Nat.log2 3 = 1 := by decide
        rw [e1] at hv'
        have s := small 65 41 (by norm_num) (by norm_num)
        have c := hcast 3 2 1 (by omega)
        push_cast at s c ⊢; linarith
    · have h3 : (2 : ℝ) ≤ Real.logb 2 n := by
        have := le_logb_of_pow (n := n) (a := 2) (b := 1) (by omega) (by norm_num) (by rw [pow_one]; omega)
        simpa using this
      nlinarith
  obtain ⟨r1, s1, e1, b1, l1, v1, u1⟩ := one 0 nt ne (by omega) h1 h3
  obtain ⟨r2, s2, e2, b2, l2, v2, u2⟩ := one s1 pt pe b1 h2 h4
  refine ⟨r1 + r2, by simp [getSplitCost, e1, e2], ?_⟩
  have : (r1 + r2).toNat = r1.toNat + r2.toNat := by
    rw [BitVec.toNat_add]; omega
  simp only [this]
  push_cast at *
  constructor <;> linarith

example : getSplitCost 10#64 3#64 20#64 0#64 = some 116#64 := by decide

end Walnut.Props
