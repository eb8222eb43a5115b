/-
C59 (doubles).

`doubleValue b` is the exact value of the double with the bits `b`.
-/
import Verif.Util.DoubleProof
import Verif.Geom.Spec

namespace Walnut.Props
open Walnut Walnut.Geom Walnut.Util

/-- C59: `Decompose` is exact for every finite double, its mantissa is odd (or zero), and no other way to write the
double as an integer times a power of two has a smaller integer. -/
theorem C59_decompose (b : BitVec 64) (x : ℚ) (hx : doubleValue b = some x) :
    ∃ m e : ℤ, decompose x = some (m, e) ∧ x = m * 2 ^ e ∧ (x ≠ 0 → m % 2 = 1) ∧ (x = 0 → m = 0 ∧ e = 0) ∧
      (∀ m' e' : ℤ, x = m' * 2 ^ e' → |m| ≤ |m'|) ∧ |m| < 2 ^ 53 ∧ -1074 ≤ e ∧ e ≤ 1023 := by
  obtain ⟨m, e, h1, h2, h3, h4, h5, h6, h7⟩ := decompose_spec hx
  refine ⟨m, e, h1, h2, h3, h4, ?_, h5, h6, h7⟩
  intro m' e' h
  by_cases h0 : x = 0
  · rw [(h4 h0).1, abs_zero]; exact abs_nonneg _
  · obtain ⟨-, hm⟩ := odd_exp (h2.symm.trans h) (h3 h0)
    rw [hm, abs_mul, abs_of_pos (by positivity : (0 : ℤ) < 2 ^ (e - e').toNat)]
    have : (1 : ℤ) ≤ 2 ^ (e - e').toNat := one_le_pow₀ (by norm_num)
    have := abs_nonneg m
    nlinarith

theorem shift_coord {m e d : ℤ} {x : ℚ} (hx : x = m * 2 ^ e) (hed : d ≤ e) (hd : d ≤ 0) :
    ((m * 2 ^ (e - d).toNat : ℤ) : ℚ) / ((1 * 2 ^ (-d).toNat : ℤ) : ℚ) = x := by
  rw [one_mul, div_eq_iff (by positivity), hx]
  push_cast
  rw [mul_assoc, ← zpow_natCast, ← zpow_natCast, ← zpow_add₀ (by norm_num : (2 : ℚ) ≠ 0)]
  congr 2; omega

/-- C59: `FromDoublesExact` returns exactly the given point, with a positive denominator; it is the smallest
possible denominator: if it is even, a coordinate is odd. -/
theorem C59_exact (bx by' bz : BitVec 64) (x y z : ℚ) (hx : doubleValue bx = some x) (hy : doubleValue by' = some y)
    (hz : doubleValue bz = some z) :
    ∃ p, fromDoublesExact x y z = some p ∧ p.pt = ![x, y, z] ∧ 0 < p.w ∧
      (p.w % 2 = 0 → p.v.x % 2 = 1 ∨ p.v.y % 2 = 1 ∨ p.v.z % 2 = 1) := by
  obtain ⟨mx, ex, x1, x2, x3, x4, -⟩ := decompose_spec hx
  obtain ⟨my, ey, y1, y2, y3, y4, -⟩ := decompose_spec hy
  obtain ⟨mz, ez, z1, z2, z3, z4, -⟩ := decompose_spec hz
  unfold fromDoublesExact
  simp only [x1, y1, z1, Option.bind_eq_bind, Option.bind_some]
  generalize hd : min 0 (min ex (min ey ez)) = d
  have h0 : d ≤ 0 ∧ d ≤ ex ∧ d ≤ ey ∧ d ≤ ez ∧ (d = 0 ∨ d = ex ∨ d = ey ∨ d = ez) := by omega
  obtain ⟨d0, dx, dy, dz, hor⟩ := h0
  rw [if_pos (by omega)]
  refine ⟨_, rfl, ?_, ?_, ?_⟩
  · funext i
    fin_cases i
    · exact shift_coord x2 dx d0
    · exact shift_coord y2 dy d0
    · exact shift_coord z2 dz d0
  · show (0 : ℤ) < 1 * 2 ^ (-d).toNat
    positivity
  · intro hw
    have hdn : d < 0 := by
      by_contra hc
      have : d = 0 := by omega
      subst this
      simp at hw
    have nz : ∀ {q : ℚ} {m e : ℤ}, d = e → (q ≠ 0 → m % 2 = 1) → (q = 0 → m = 0 ∧ e = 0) →
        (m * 2 ^ (e - d).toNat) % 2 = 1 := by
      intro q m e he h1 h2
      have hq : q ≠ 0 := fun h => by have := (h2 h).2; omega
      rw [he]; simp [h1 hq]
    rcases hor with h | h | h | h
    · omega
    · exact Or.inl (nz h x3 x4)
    · exact Or.inr (Or.inl (nz h y3 y4))
    · exact Or.inr (Or.inr (nz h z3 z4))

/-- The nearest multiple of `2 ^ g`; the greater one of two. -/
def roundTo (g : ℤ) (x : ℚ) : ℚ := 2 ^ g * ⌊x / 2 ^ g + 1 / 2⌋

/-- `roundTo` is a multiple of the grain size, at most half of it away from the argument. -/
theorem roundTo_near (g : ℤ) (x : ℚ) : (∃ k : ℤ, roundTo g x = k * 2 ^ g) ∧ |roundTo g x - x| ≤ 2 ^ g / 2 := by
  have hp := two_pow_pos g
  refine ⟨⟨_, mul_comm _ _⟩, ?_⟩
  have h1 := Int.floor_le (x / 2 ^ g + 1 / 2)
  have h2 := Int.lt_floor_add_one (x / 2 ^ g + 1 / 2)
  unfold roundTo
  generalize (⌊x / 2 ^ g + 1 / 2⌋ : ℤ) = n at *
  have e : x = 2 ^ g * (x / 2 ^ g) := by field_simp
  generalize x / 2 ^ g = r at *
  rw [e, ← mul_sub, abs_mul, abs_of_pos hp]
  have : |(n : ℚ) - r| ≤ 1 / 2 := abs_le.2 ⟨by linarith, by linarith⟩
  nlinarith

theorem roundTo_exact {m e g : ℤ} (h : g ≤ e) : roundTo g (m * 2 ^ e) = m * 2 ^ e := by
  have h2 : (2 : ℚ) ≠ 0 := by norm_num
  have hp := two_pow_pos g
  have : (m : ℚ) * 2 ^ e / 2 ^ g = ((m * 2 ^ (e - g).toNat : ℤ) : ℚ) := by
    rw [div_eq_iff hp.ne']
    push_cast
    rw [mul_assoc, ← zpow_natCast, ← zpow_add₀ h2]
    congr 2; omega
  unfold roundTo
  rw [this]
  have hf : ⌊((m * 2 ^ (e - g).toNat : ℤ) : ℚ) + 1 / 2⌋ = m * 2 ^ (e - g).toNat := by
    rw [Int.floor_intCast_add]; norm_num
  rw [hf, ← this]
  field_simp

theorem safe_coord {m e d g : ℤ} {x : ℚ} (hx : x = m * 2 ^ e) (hm : |m| < 2 ^ 53) (hd : d ≤ 0) (hgd : g ≤ d)
    (hdg : e < d → d = g) :
    ((safeShiftLeft m (e - d) : ℤ) : ℚ) / ((1 * 2 ^ (-d).toNat : ℤ) : ℚ) = roundTo g x := by
  unfold safeShiftLeft
  by_cases hs : 0 ≤ e - d
  · rw [if_pos hs, shift_coord hx (by omega) hd, hx, roundTo_exact (by omega)]
  · rw [if_neg hs]
    have hdg := hdg (by omega)
    have hden : ((1 * 2 ^ (-d).toNat : ℤ) : ℚ) = (2 ^ d)⁻¹ := by
      rw [← zpow_neg, one_mul]; push_cast; rw [← zpow_natCast]; congr 1; omega
    have h2 : (2 : ℚ) ≠ 0 := by norm_num
    obtain ⟨k, hk⟩ : ∃ k : Nat, d - e = k + 1 := ⟨(d - e - 1).toNat, by omega⟩
    have hxd : x / 2 ^ d = (m : ℚ) / 2 ^ (k + 1) := by
      rw [hx, mul_div_assoc, ← zpow_sub₀ h2, ← zpow_natCast, div_eq_mul_inv (m : ℚ), ← zpow_neg]
      congr 2; push_cast; omega
    rw [hden, div_inv_eq_mul, mul_comm]
    unfold roundTo
    rw [← hdg, hxd, ← round_shift]
    congr 2
    by_cases h64 : 64 ≤ -(e - d)
    · rw [if_pos h64, round_shift]
      symm
      rw [Int.floor_eq_zero_iff, Set.mem_Ico]
      have h1 : |(m : ℚ)| < 2 ^ 53 := by rw [← Int.cast_abs]; exact_mod_cast hm
      obtain ⟨l, u⟩ := abs_lt.1 h1
      have hp : (2 : ℚ) ^ 64 ≤ 2 ^ (k + 1) := pow_le_pow_right₀ (by norm_num) (by omega)
      have hp0 : (0 : ℚ) < 2 ^ (k + 1) := by positivity
      constructor
      · have : -(1 / 2) ≤ (m : ℚ) / 2 ^ (k + 1) := by
          rw [le_div_iff₀ hp0]; nlinarith
        linarith
      · have : (m : ℚ) / 2 ^ (k + 1) < 1 / 2 := by
          rw [div_lt_iff₀ hp0]; nlinarith
        linarith
    · rw [if_neg h64]
      simp only
      rw [show (-(e - d)).toNat = k + 1 by omega, show (-(e - d) - 1).toNat = k by omega]

/-- C59: `FromDoubles` rounds each coordinate to the nearest multiple of `2 ^ min_exponent`, the greater one of two,
for grain sizes of at most one.  Greater grain sizes are ignored (`C59_grain_false`): the coordinates are rounded to
integers. -/
theorem C59_rounded_partial (minExponent : ℤ) (bx by' bz : BitVec 64) (x y z : ℚ) (hx : doubleValue bx = some x)
    (hy : doubleValue by' = some y) (hz : doubleValue bz = some z) :
    ∃ p, fromDoubles minExponent x y z = some p ∧ 0 < p.w ∧
      p.pt = ![roundTo (min 0 minExponent) x, roundTo (min 0 minExponent) y, roundTo (min 0 minExponent) z] := by
  obtain ⟨mx, ex, x1, x2, -, -, x5, -⟩ := decompose_spec hx
  obtain ⟨my, ey, y1, y2, -, -, y5, -⟩ := decompose_spec hy
  obtain ⟨mz, ez, z1, z2, -, -, z5, -⟩ := decompose_spec hz
  unfold fromDoubles
  simp only [x1, y1, z1, Option.bind_eq_bind, Option.bind_some]
  generalize hd : min 0 (max minExponent (min ex (min ey ez))) = d
  generalize hg : min 0 minExponent = g
  refine ⟨_, rfl, ?_, ?_⟩
  · show (0 : ℤ) < 1 * 2 ^ (-d).toNat
    positivity
  · funext i
    fin_cases i
    · exact safe_coord x2 x5 (by omega) (by omega) (by omega)
    · exact safe_coord y2 y5 (by omega) (by omega) (by omega)
    · exact safe_coord z2 z5 (by omega) (by omega) (by omega)

/-- The bits of the doubles 5 and -0.75, and of the smallest positive double. -/
theorem some_doubles : doubleValue 0x4014000000000000#64 = some 5 ∧ doubleValue 0xBFE8000000000000#64 = some (-3 / 4) ∧
    doubleValue 1#64 = some (2 ^ (-1074 : ℤ)) ∧ doubleValue 0 = some 0 ∧ doubleValue 0x7FF0000000000000#64 = none := by
  refine ⟨?_, ?_, ?_, ?_, ?_⟩
  · simp [doubleValue, show (0x4014000000000000#64).msb = false by decide]; norm_num
  · simp [doubleValue, show (0xBFE8000000000000#64).msb = true by decide]; norm_num
  · simp [doubleValue, show (1#64).msb = false by decide]
  · simp [doubleValue]
  · simp [doubleValue]

/-- The documentation of `FromDoubles` (homo_point3.h 52-58) is wrong for `min_exponent > 0`: with the grain size
`2 ^ 3`, the coordinate 5 is not rounded to a multiple of 8. -/
theorem C59_grain_false : ∃ p, fromDoubles 3 5 0 0 = some p ∧ p.pt 0 = 5 ∧ ¬ ∃ k : ℤ, p.pt 0 = k * 2 ^ (3 : ℤ) := by
  obtain ⟨p, h1, -, h2⟩ := C59_rounded_partial 3 _ _ _ 5 0 0 some_doubles.1 some_doubles.2.2.2.1 some_doubles.2.2.2.1
  have h5 : p.pt 0 = 5 := by
    rw [h2]
    have : roundTo (min 0 3) 5 = 5 := by
      have := roundTo_exact (m := 5) (e := 0) (g := min 0 3) (by norm_num)
      simpa using this
    simpa using this
  refine ⟨p, h1, h5, ?_⟩
  rintro ⟨k, hk⟩
  rw [h5] at hk
  have : (5 : ℤ) = k * 8 := by
    have : ((5 : ℤ) : ℚ) = ((k * 8 : ℤ) : ℚ) := by push_cast; rw [hk]; norm_num
    exact_mod_cast this
  omega

/-- The decomposition of -0.75 and the point (5, -0.75, 0). -/
example : decompose (-3 / 4) = some (-3, -2) ∧ fromDoublesExact 5 (-3 / 4) 0 = some ⟨⟨20, -3, 0⟩, 4⟩ ∧
    fromDoubles (-1) 5 (-3 / 4) 0 = some ⟨⟨10, -1, 0⟩, 2⟩ := by
  refine ⟨?_, ?_, ?_⟩ <;> decide +kernel

end Walnut.Props
