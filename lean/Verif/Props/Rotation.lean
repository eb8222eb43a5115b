/-
Properties C18 and C19: rotation order and direction tests of vectors.
-/
import Verif.Geom.Lemmas
import Mathlib.Analysis.SpecialFunctions.Trigonometric.Basic
import Mathlib.Analysis.SpecialFunctions.Complex.Arg

namespace Walnut.Props
open Walnut.Geom Real

/-! ### C18 -/

/-- Polar coordinates: `v = r (cos θ, sin θ)`. -/
def Polar (v : V2) (r θ : ℝ) : Prop := (v.x : ℝ) = r * cos θ ∧ (v.y : ℝ) = r * sin θ

/-- Every nonzero vector has an angle in `[0, 2π)`. -/
theorem exists_polar (v : V2) (h : v ≠ ⟨0, 0⟩) : ∃ r θ, 0 < r ∧ 0 ≤ θ ∧ θ < 2 * π ∧ Polar v r θ := by
  have hz : (⟨(v.x : ℝ), (v.y : ℝ)⟩ : ℂ) ≠ 0 := by
    intro e
    apply h
    have h1 := congrArg Complex.re e
    have h2 := congrArg Complex.im e
    simp at h1 h2
    cases v; simp_all
  obtain ⟨z, hze⟩ : ∃ z : ℂ, z = ⟨(v.x : ℝ), (v.y : ℝ)⟩ := ⟨_, rfl⟩
  rw [← hze] at hz
  have hx : (v.x : ℝ) = ‖z‖ * cos z.arg := by rw [Complex.norm_mul_cos_arg, hze]
  have hy : (v.y : ℝ) = ‖z‖ * sin z.arg := by rw [Complex.norm_mul_sin_arg, hze]
  have hn : 0 < ‖z‖ := norm_pos_iff.mpr hz
  have h1 := Complex.neg_pi_lt_arg z
  have h2 := Complex.arg_le_pi z
  have hpi := pi_pos
  by_cases h0 : z.arg < 0
  · refine ⟨‖z‖, z.arg + 2 * π, hn, by linarith, by linarith, ?_, ?_⟩
    · rw [cos_add_two_pi]; exact hx
    · rw [sin_add_two_pi]; exact hy
  · exact ⟨‖z‖, z.arg, hn, by linarith, by linarith, hx, hy⟩

/-- The four quadrants. -/
theorem quadrant {θ : ℝ} (h0 : 0 ≤ θ) (h1 : θ < 2 * π) :
    (¬ sin θ < 0 ∧ ¬ cos θ < 0 ∧ θ ≤ π / 2) ∨ (¬ sin θ < 0 ∧ cos θ < 0 ∧ π / 2 < θ ∧ θ ≤ π) ∨
    (sin θ < 0 ∧ cos θ < 0 ∧ π < θ ∧ θ < 3 * π / 2) ∨ (sin θ < 0 ∧ ¬ cos θ < 0 ∧ 3 * π / 2 ≤ θ) := by
  simp only [not_lt]
  have hpi := pi_pos
  have hsneg : π < θ → sin θ < 0 := by
    intro h
    have : sin (θ - π) = -sin θ := sin_sub_pi θ
    have h2 : 0 < sin (θ - π) := sin_pos_of_pos_of_lt_pi (by linarith) (by linarith)
    linarith
  rcases le_or_gt θ (π / 2) with h | h
  · left
    exact ⟨sin_nonneg_of_nonneg_of_le_pi h0 (by linarith),
      cos_nonneg_of_neg_pi_div_two_le_of_le (by linarith) h, h⟩
  right
  rcases le_or_gt θ π with h2 | h2
  · left
    exact ⟨sin_nonneg_of_nonneg_of_le_pi h0 h2,
      cos_neg_of_pi_div_two_lt_of_lt h (by linarith), h, h2⟩
  right
  rcases lt_or_ge θ (3 * π / 2) with h3 | h3
  · left
    exact ⟨hsneg h2, cos_neg_of_pi_div_two_lt_of_lt h (by linarith), h2, h3⟩
  · right
    refine ⟨hsneg h2, ?_, h3⟩
    rw [← cos_two_pi_sub]
    exact cos_nonneg_of_neg_pi_div_two_le_of_le (by linarith) (by linarith)

theorem sign_iff {n : Int} {r s : ℝ} (hr : 0 < r) (h : (n : ℝ) = r * s) : n < 0 ↔ s < 0 := by
  rw [← Int.cast_lt_zero (R := ℝ), h, mul_neg_iff]
  constructor
  · rintro (⟨_, h⟩ | ⟨h, _⟩)
    · exact h
    · linarith
  · intro h; left; exact ⟨hr, h⟩

/-- `y1 x2 - y2 x1` in polar coordinates. -/
theorem cross_polar {v u : V2} {r s α β : ℝ} (hv : Polar v r α) (hu : Polar u s β) :
    ((v.y * u.x - u.y * v.x : Int) : ℝ) = r * s * sin (α - β) := by
  push_cast
  rw [hv.1, hv.2, hu.1, hu.2, sin_sub]; ring

theorem sin_sub_neg_iff {α β : ℝ} (h1 : α - β < π) (h2 : β - α < π) : sin (α - β) < 0 ↔ α < β := by
  constructor
  · intro h
    by_contra hc
    have := sin_nonneg_of_nonneg_of_le_pi (show 0 ≤ α - β by linarith) h1.le
    linarith
  · intro h
    exact sin_neg_of_neg_of_neg_pi_lt (by linarith) (by linarith)

theorem cross_lt_iff {v u : V2} {r s α β : ℝ} (hr : 0 < r) (hs : 0 < s) (hv : Polar v r α)
    (hu : Polar u s β) (h1 : α - β < π) (h2 : β - α < π) : v.y * u.x < u.y * v.x ↔ α < β := by
  rw [← sin_sub_neg_iff h1 h2, ← sub_neg, sign_iff (mul_pos hr hs) (cross_polar hv hu)]

/-- C18: `IsRotationLessThan` compares the counter-clockwise angles from the x
axis, taken in `[0, 2π)`. -/
theorem C18_rotation (v u : V2) (r s α β : ℝ) (hr : 0 < r) (hs : 0 < s)
    (hv : Polar v r α) (hu : Polar u s β) (ha : 0 ≤ α ∧ α < 2 * π) (hb : 0 ≤ β ∧ β < 2 * π) :
    v.isRotationLessThan u = true ↔ α < β := by
  have hpi := pi_pos
  have vx := sign_iff hr hv.1
  have vy := sign_iff hr hv.2
  have ux := sign_iff hs hu.1
  have uy := sign_iff hs hu.2
  have key := cross_lt_iff hr hs hv hu
  unfold V2.isRotationLessThan
  rcases quadrant ha.1 ha.2 with ⟨a1, a2, a3⟩ | ⟨a1, a2, a3, a4⟩ | ⟨a1, a2, a3, a4⟩ | ⟨a1, a2, a3⟩ <;>
  rcases quadrant hb.1 hb.2 with ⟨b1, b2, b3⟩ | ⟨b1, b2, b3, b4⟩ | ⟨b1, b2, b3, b4⟩ | ⟨b1, b2, b3⟩ <;>
  simp only [vx, vy, ux, uy, a1, a2, b1, b2, if_true, if_false] <;>
  first
  | (simp; exact key (by linarith [ha.1, ha.2, hb.1, hb.2]) (by linarith [ha.1, ha.2, hb.1, hb.2]))
  | (simp; linarith [ha.1, ha.2, hb.1, hb.2])

theorem half_neg {v : V2} {r θ : ℝ} (hr : r ≠ 0) (hv : Polar v r θ) (h0 : 0 ≤ θ) (h1 : θ < π) :
    (v.y - (if 0 ≤ v.y ∧ v.x < 0 then 1 else 0) < 0) ↔ r < 0 := by
  have hc : (v.y - (if 0 ≤ v.y ∧ v.x < 0 then 1 else 0) < 0) ↔ (v.y < 0 ∨ (v.y = 0 ∧ v.x < 0)) := by
    split_ifs <;> omega
  rw [hc]
  rcases h0.lt_or_eq with h | h
  · have hs := sin_pos_of_pos_of_lt_pi h h1
    have hy0 : v.y ≠ 0 := by
      intro e
      have := hv.2
      rw [e] at this
      simp at this
      rcases this with h | h <;> [exact hr h; linarith]
    rw [← Int.cast_lt_zero (R := ℝ), hv.2, mul_neg_iff]
    constructor
    · rintro ((⟨_, h⟩ | ⟨h, _⟩) | ⟨h, _⟩)
      · linarith
      · exact h
      · exact absurd h hy0
    · intro h; left; right; exact ⟨h, hs⟩
  · subst h
    have e1 := hv.1
    have e2 := hv.2
    simp at e1 e2
    rw [e2, ← Int.cast_lt_zero (R := ℝ), ← Int.cast_lt_zero (R := ℝ), e1]
    simp

/-- C18: `IsHalfRotationLessThan` compares the angles in `[0, π)` of the lines
spanned by the vectors (`r` and `s` may be negative). -/
theorem C18_half_rotation (v u : V2) (r s α β : ℝ) (hr : r ≠ 0) (hs : s ≠ 0)
    (hv : Polar v r α) (hu : Polar u s β) (ha : 0 ≤ α ∧ α < π) (hb : 0 ≤ β ∧ β < π) :
    v.isHalfRotationLessThan u = true ↔ α < β := by
  have h1 := half_neg hr hv ha.1 ha.2
  have h2 := half_neg hs hu hb.1 hb.2
  rw [← sin_sub_neg_iff (show α - β < π by linarith) (show β - α < π by linarith)]
  unfold V2.isHalfRotationLessThan Rational.isHalfRotationLessThan
  simp only
  rw [lessThan_iff]
  simp only [xor_decide_iff, h1, h2]
  have hc := cross_polar hv hu
  have hrs : r * s ≠ 0 := mul_ne_zero hr hs
  by_cases h : (r < 0 ↔ s < 0)
  · have hp : 0 < r * s := by
      rcases lt_or_gt_of_ne hr with a | a
      · exact mul_pos_of_neg_of_neg a (h.mp a)
      · exact mul_pos a (lt_of_le_of_ne (not_lt.mp fun b => absurd (h.mpr b) (not_lt.mpr a.le)) hs.symm)
    rw [if_neg (by simpa using h), ← sub_neg, sign_iff hp hc]
  · have hp : 0 < -(r * s) := by
      rcases lt_or_gt_of_ne hr with a | a
      · have : 0 < s := lt_of_le_of_ne (not_lt.mp fun b => h ⟨fun _ => b, fun _ => a⟩) hs.symm
        have := mul_neg_of_neg_of_pos a this; linarith
      · have : s < 0 := by
          by_contra hcc
          exact h ⟨fun hh => absurd hh (not_lt.mpr a.le), fun hh => absurd hh hcc⟩
        have := mul_neg_of_pos_of_neg a this; linarith
    rw [if_pos h, ← sub_neg]
    refine sign_iff hp ?_
    push_cast at hc ⊢
    linarith

/-- The half-turn representation of a nonzero vector. -/
theorem exists_half_polar (v : V2) (h : v ≠ ⟨0, 0⟩) : ∃ r θ, r ≠ 0 ∧ 0 ≤ θ ∧ θ < π ∧ Polar v r θ := by
  obtain ⟨r, θ, hr, h0, h1, hx, hy⟩ := exists_polar v h
  rcases lt_or_ge θ π with h2 | h2
  · exact ⟨r, θ, hr.ne', h0, h2, hx, hy⟩
  · refine ⟨-r, θ - π, by linarith [neg_ne_zero.mpr hr.ne', hr], by linarith, by linarith, ?_, ?_⟩
    · rw [cos_sub_pi, hx]; ring
    · rw [sin_sub_pi, hy]; ring

/-- The vectors are positive multiples of each other. -/
def SameDir2 (a b : V2) : Prop := ∃ k l : Int, 0 < k ∧ 0 < l ∧ a.scale k = b.scale l
/-- The vectors are nonzero multiples of each other. -/
def Parallel2 (a b : V2) : Prop := ∃ k l : Int, k ≠ 0 ∧ l ≠ 0 ∧ a.scale k = b.scale l

theorem sameDir2_iff {a b : V2} (ha : a ≠ ⟨0, 0⟩) (hb : b ≠ ⟨0, 0⟩) :
    SameDir2 a b ↔ (a.y * b.x = b.y * a.x ∧ 0 < a.x * b.x + a.y * b.y) := by
  obtain ⟨ax, ay⟩ := a
  obtain ⟨bx, by'⟩ := b
  simp only [V2.scale, SameDir2, V2.mk.injEq] at *
  have pa : 0 < ax * ax + ay * ay := by
    rcases not_and_or.mp (by simpa using ha) with h | h
    · nlinarith [mul_self_pos.mpr h, mul_self_nonneg ay]
    · nlinarith [mul_self_pos.mpr h, mul_self_nonneg ax]
  have pb : 0 < bx * bx + by' * by' := by
    rcases not_and_or.mp (by simpa using hb) with h | h
    · nlinarith [mul_self_pos.mpr h, mul_self_nonneg by']
    · nlinarith [mul_self_pos.mpr h, mul_self_nonneg bx]
  constructor
  · rintro ⟨k, l, hk, hl, e1, e2⟩
    constructor
    · have : k * (ay * bx - by' * ax) = 0 := by linear_combination bx * e2 - by' * e1
      rcases mul_eq_zero.mp this with h | h <;> omega
    · have : k * (ax * bx + ay * by') = l * (bx * bx + by' * by') := by
        linear_combination bx * e1 + by' * e2
      by_contra hc
      have h1 : k * (ax * bx + ay * by') ≤ 0 := Int.mul_nonpos_of_nonneg_of_nonpos hk.le (not_lt.mp hc)
      have h2 := Int.mul_pos hl pb
      omega
  · rintro ⟨h1, h2⟩
    refine ⟨bx * bx + by' * by', ax * bx + ay * by', pb, h2, ?_, ?_⟩
    · linear_combination -by' * h1
    · linear_combination bx * h1

theorem sin_sub_zero_iff {α β : ℝ} (ha : 0 ≤ α ∧ α < 2 * π) (hb : 0 ≤ β ∧ β < 2 * π) :
    (sin (α - β) = 0 ∧ 0 < cos (α - β)) ↔ α = β := by
  constructor
  · rintro ⟨h1, h2⟩
    rcases sin_eq_zero_iff_cos_eq.mp h1 with h | h
    · rcases (cos_eq_one_iff_of_lt_of_lt (by linarith) (by linarith)).mp h with h
      linarith
    · linarith
  · rintro rfl; simp

/-- C18: consequently the rotation order is a strict weak order on nonzero
vectors, and two vectors are equivalent iff they point in the same direction. -/
theorem C18_strict_weak_order (a b c : V2) (ha : a ≠ ⟨0, 0⟩) (hb : b ≠ ⟨0, 0⟩) (hc : c ≠ ⟨0, 0⟩) :
    a.isRotationLessThan a = false ∧
    (a.isRotationLessThan b = true → b.isRotationLessThan c = true → a.isRotationLessThan c = true) ∧
    (a.isRotationLessThan b = true → b.isRotationLessThan a = false) ∧
    ((a.isRotationLessThan b = false ∧ b.isRotationLessThan a = false) ↔ SameDir2 a b) := by
  obtain ⟨r, α, hr, a0, a1, pa⟩ := exists_polar a ha
  obtain ⟨s, β, hs, b0, b1, pb⟩ := exists_polar b hb
  obtain ⟨t, γ, ht, c0, c1, pc⟩ := exists_polar c hc
  have ab := C18_rotation a b r s α β hr hs pa pb ⟨a0, a1⟩ ⟨b0, b1⟩
  have ba := C18_rotation b a s r β α hs hr pb pa ⟨b0, b1⟩ ⟨a0, a1⟩
  have bc := C18_rotation b c s t β γ hs ht pb pc ⟨b0, b1⟩ ⟨c0, c1⟩
  have ac := C18_rotation a c r t α γ hr ht pa pc ⟨a0, a1⟩ ⟨c0, c1⟩
  have aa := C18_rotation a a r r α α hr hr pa pa ⟨a0, a1⟩ ⟨a0, a1⟩
  refine ⟨?_, ?_, ?_, ?_⟩
  · rw [Bool.eq_false_iff, Ne, aa]; exact lt_irrefl _
  · rw [ab, bc, ac]; exact lt_trans
  · rw [ab, Bool.eq_false_iff, Ne, ba]; exact lt_asymm
  · rw [Bool.eq_false_iff, Bool.eq_false_iff, Ne, Ne, ab, ba, sameDir2_iff ha hb]
    have h1 : (¬ α < β ∧ ¬ β < α) ↔ α = β := by
      constructor
      · rintro ⟨h1, h2⟩; linarith
      · rintro rfl; simp
    rw [h1, ← sin_sub_zero_iff ⟨a0, a1⟩ ⟨b0, b1⟩]
    have hrs := mul_pos hr hs
    have e1 := cross_polar pa pb
    have e2 : ((a.x * b.x + a.y * b.y : Int) : ℝ) = r * s * cos (α - β) := by
      push_cast
      rw [pa.1, pa.2, pb.1, pb.2, cos_sub]; ring
    constructor
    · rintro ⟨h2, h3⟩
      constructor
      · rw [h2, mul_zero] at e1
        have : a.y * b.x - b.y * a.x = 0 := by exact_mod_cast e1
        omega
      · have : (0 : ℝ) < ((a.x * b.x + a.y * b.y : Int) : ℝ) := by rw [e2]; exact mul_pos hrs h3
        exact_mod_cast this
    · rintro ⟨h2, h3⟩
      have h4 : a.y * b.x - b.y * a.x = 0 := by omega
      rw [h4] at e1
      have h5 : (0 : ℝ) < r * s * cos (α - β) := by rw [← e2]; exact_mod_cast h3
      constructor
      · simp only [Int.cast_zero] at e1
        rcases mul_eq_zero.mp e1.symm with h | h
        · linarith
        · exact h
      · exact (mul_pos_iff_of_pos_left hrs).mp h5

theorem parallel2_iff {a b : V2} (ha : a ≠ ⟨0, 0⟩) (hb : b ≠ ⟨0, 0⟩) :
    Parallel2 a b ↔ a.y * b.x = b.y * a.x := by
  obtain ⟨ax, ay⟩ := a
  obtain ⟨bx, by'⟩ := b
  simp only [V2.scale, Parallel2, V2.mk.injEq] at *
  have pb : bx * bx + by' * by' ≠ 0 := by
    rcases not_and_or.mp (by simpa using hb) with h | h
    · nlinarith [mul_self_pos.mpr h, mul_self_nonneg by']
    · nlinarith [mul_self_pos.mpr h, mul_self_nonneg bx]
  constructor
  · rintro ⟨k, l, hk, hl, e1, e2⟩
    have : k * (ay * bx - by' * ax) = 0 := by linear_combination bx * e2 - by' * e1
    rcases mul_eq_zero.mp this with h | h <;> omega
  · intro h1
    refine ⟨bx * bx + by' * by', ax * bx + ay * by', pb, ?_, ?_, ?_⟩
    · intro h0
      apply ha
      have e1 : ax * (bx * bx + by' * by') = 0 := by linear_combination bx * h0 - by' * h1
      have e2 : ay * (bx * bx + by' * by') = 0 := by linear_combination by' * h0 + bx * h1
      simp [pb] at e1 e2
      rw [e1, e2]
    · linear_combination -by' * h1
    · linear_combination bx * h1

/-- C18: the half rotation order is a strict weak order on nonzero vectors, and
two vectors are equivalent iff they span the same line. -/
theorem C18_half_strict_weak_order (a b c : V2) (ha : a ≠ ⟨0, 0⟩) (hb : b ≠ ⟨0, 0⟩)
    (hc : c ≠ ⟨0, 0⟩) :
    a.isHalfRotationLessThan a = false ∧
    (a.isHalfRotationLessThan b = true → b.isHalfRotationLessThan c = true →
      a.isHalfRotationLessThan c = true) ∧
    (a.isHalfRotationLessThan b = true → b.isHalfRotationLessThan a = false) ∧
    ((a.isHalfRotationLessThan b = false ∧ b.isHalfRotationLessThan a = false) ↔ Parallel2 a b) := by
  obtain ⟨r, α, hr, a0, a1, pa⟩ := exists_half_polar a ha
  obtain ⟨s, β, hs, b0, b1, pb⟩ := exists_half_polar b hb
  obtain ⟨t, γ, ht, c0, c1, pc⟩ := exists_half_polar c hc
  have ab := C18_half_rotation a b r s α β hr hs pa pb ⟨a0, a1⟩ ⟨b0, b1⟩
  have ba := C18_half_rotation b a s r β α hs hr pb pa ⟨b0, b1⟩ ⟨a0, a1⟩
  have bc := C18_half_rotation b c s t β γ hs ht pb pc ⟨b0, b1⟩ ⟨c0, c1⟩
  have ac := C18_half_rotation a c r t α γ hr ht pa pc ⟨a0, a1⟩ ⟨c0, c1⟩
  have aa := C18_half_rotation a a r r α α hr hr pa pa ⟨a0, a1⟩ ⟨a0, a1⟩
  refine ⟨?_, ?_, ?_, ?_⟩
  · rw [Bool.eq_false_iff, Ne, aa]; exact lt_irrefl _
  · rw [ab, bc, ac]; exact lt_trans
  · rw [ab, Bool.eq_false_iff, Ne, ba]; exact lt_asymm
  · rw [Bool.eq_false_iff, Bool.eq_false_iff, Ne, Ne, ab, ba, parallel2_iff ha hb]
    have e1 := cross_polar pa pb
    constructor
    · rintro ⟨h1, h2⟩
      have : α = β := by linarith
      rw [this, sub_self, sin_zero, mul_zero] at e1
      have : a.y * b.x - b.y * a.x = 0 := by exact_mod_cast e1
      omega
    · intro h
      have h4 : a.y * b.x - b.y * a.x = 0 := by omega
      rw [h4] at e1
      simp only [Int.cast_zero] at e1
      rcases mul_eq_zero.mp e1.symm with h | h
      · exact absurd h (mul_ne_zero hr hs)
      · rw [← sin_sub_neg_iff (show α - β < π by linarith) (show β - α < π by linarith),
          ← sin_sub_neg_iff (show β - α < π by linarith) (show α - β < π by linarith), h,
          ← neg_sub, sin_neg, h]
        simp

example : V2.isRotationLessThan ⟨-1, 0⟩ ⟨-1, -5⟩ = true := by decide
example : V2.isRotationLessThan ⟨-1, -5⟩ ⟨-1, 0⟩ = false :=
  (C18_strict_weak_order ⟨-1, 0⟩ ⟨-1, -5⟩ ⟨0, 1⟩ (by decide) (by decide) (by decide)).2.2.1 (by decide)

/-! ### C19 -/

/-- The vectors are positive multiples of each other. -/
def SameDir3 (a b : V3) : Prop := ∃ k l : Int, 0 < k ∧ 0 < l ∧ a.scale k = b.scale l
/-- The vectors are nonzero multiples of each other. -/
def Parallel3 (a b : V3) : Prop := ∃ k l : Int, k ≠ 0 ∧ l ≠ 0 ∧ a.scale k = b.scale l

/-- No component is `-2^63` (see `C10_abs_false`). -/
def NoMin3 (v : V3) : Prop := v.x ≠ -2 ^ 63 ∧ v.y ≠ -2 ^ 63 ∧ v.z ≠ -2 ^ 63
def NoMin2 (v : V2) : Prop := v.x ≠ -2 ^ 63 ∧ v.y ≠ -2 ^ 63

theorem abs?_some {a : Int} (h : a ≠ -2 ^ 63) : abs? a = some |a| := by
  unfold abs?; rw [if_neg h]

/-- A comparison after scaling by the absolute values of a nonzero component and
the corresponding one means that the two lists of numbers are proportional. -/
theorem scaled_eq {p q : Int} (hp : p ≠ 0) {f g : Fin n → Int} {j : Fin n} (hfj : f j = p)
    (hgj : g j = q) (hg : g ≠ 0) :
    (∀ i, f i * |q| = g i * |p|) ↔ ∃ k l : Int, 0 < k ∧ 0 < l ∧ ∀ i, f i * k = g i * l := by
  constructor
  · intro h
    refine ⟨|q|, |p|, ?_, abs_pos.mpr hp, h⟩
    refine abs_pos.mpr ?_
    rintro rfl
    apply hg
    funext i
    have := h i
    simp only [abs_zero, mul_zero] at this
    rcases mul_eq_zero.mp this.symm with h | h
    · exact h
    · exact absurd (abs_eq_zero.mp h) hp
  · rintro ⟨k, l, hk, hl, h⟩ i
    have hj := h j
    rw [hfj, hgj] at hj
    have habs : |p| * k = |q| * l := by
      have h1 : |p * k| = |q * l| := by rw [hj]
      rwa [abs_mul, abs_mul, abs_of_pos hk, abs_of_pos hl] at h1
    have : l * (f i * |q|) = l * (g i * |p|) := by
      calc l * (f i * |q|) = f i * (|q| * l) := by ring
        _ = f i * (|p| * k) := by rw [habs]
        _ = |p| * (f i * k) := by ring
        _ = |p| * (g i * l) := by rw [h i]
        _ = l * (g i * |p|) := by ring
    exact Int.eq_of_mul_eq_mul_left hl.ne' this

theorem scaled_eq_signed {p q : Int} (hp : p ≠ 0) {f g : Fin n → Int} {j : Fin n} (hfj : f j = p)
    (hgj : g j = q) (hg : g ≠ 0) :
    (∀ i, f i * q = g i * p) ↔ ∃ k l : Int, k ≠ 0 ∧ l ≠ 0 ∧ ∀ i, f i * k = g i * l := by
  constructor
  · intro h
    refine ⟨q, p, ?_, hp, h⟩
    rintro rfl
    apply hg
    funext i
    have := h i
    simp only [mul_zero] at this
    rcases mul_eq_zero.mp this.symm with h | h
    · exact h
    · exact absurd h hp
  · rintro ⟨k, l, hk, hl, h⟩ i
    have hj := h j
    rw [hfj, hgj] at hj
    have : l * (f i * q) = l * (g i * p) := by
      calc l * (f i * q) = f i * (q * l) := by ring
        _ = f i * (p * k) := by rw [hj]
        _ = p * (f i * k) := by ring
        _ = p * (g i * l) := by rw [h i]
        _ = l * (g i * p) := by ring
    exact Int.eq_of_mul_eq_mul_left hl this

theorem V3.vec_ne_zero {v : V3} (h : v ≠ ⟨0, 0, 0⟩) : (![v.x, v.y, v.z] : Fin 3 → Int) ≠ 0 := by
  intro e
  apply h
  have h0 := congrFun e 0; have h1 := congrFun e 1; have h2 := congrFun e 2
  simp at h0 h1 h2
  ext <;> assumption

theorem forall_fin3 {P : Fin 3 → Prop} : (∀ i, P i) ↔ P 0 ∧ P 1 ∧ P 2 :=
  ⟨fun h => ⟨h 0, h 1, h 2⟩, fun ⟨a, b, c⟩ i => by fin_cases i <;> assumption⟩
theorem forall_fin2 {P : Fin 2 → Prop} : (∀ i, P i) ↔ P 0 ∧ P 1 :=
  ⟨fun h => ⟨h 0, h 1⟩, fun ⟨a, b⟩ i => by fin_cases i <;> assumption⟩

/-- C19 (partial): `IsSameDir` in space.  Missing: vectors with a component
`-2^63`, where `abs` is undefined, see `C19_false`. -/
theorem C19_same_dir_partial (a b : V3) (ha : a ≠ ⟨0, 0, 0⟩) (hb : b ≠ ⟨0, 0, 0⟩)
    (ma : NoMin3 a) (mb : NoMin3 b) : ∃ r, a.isSameDir b = some r ∧ (r = true ↔ SameDir3 a b) := by
  have hg := V3.vec_ne_zero hb
  have key : ∀ {j : Fin 3} {p q : Int}, p ≠ 0 → ![a.x, a.y, a.z] j = p → ![b.x, b.y, b.z] j = q →
      ((a.x * |q| = b.x * |p| ∧ a.y * |q| = b.y * |p| ∧ a.z * |q| = b.z * |p|) ↔ SameDir3 a b) := by
    intro j p q hp h1 h2
    have := scaled_eq hp h1 h2 hg
    simp only [forall_fin3] at this
    simpa [SameDir3, V3.scale] using this
  unfold V3.isSameDir
  rw [abs?_some ma.1, abs?_some ma.2.1, abs?_some ma.2.2, abs?_some mb.1, abs?_some mb.2.1,
    abs?_some mb.2.2]
  by_cases hx : a.x = 0
  · by_cases hy : a.y = 0
    · have hz : a.z ≠ 0 := by
        intro hz; apply ha; ext <;> assumption
      simp only [hx, hy, ne_eq, not_true, if_false, Option.bind_eq_bind, Option.bind_some]
      refine ⟨_, rfl, ?_⟩
      rw [← key (j := 2) hz rfl rfl, hx, hy]; simp
    · simp only [hx, hy, ne_eq, not_true, not_false_eq_true, if_true, if_false, Option.bind_eq_bind, Option.bind_some]
      refine ⟨_, rfl, ?_⟩
      rw [← key (j := 1) hy rfl rfl, hx]; simp
  · simp only [hx, ne_eq, not_false_eq_true, if_true, Option.bind_eq_bind, Option.bind_some]
    refine ⟨_, rfl, ?_⟩
    rw [← key (j := 0) hx rfl rfl]; simp

/-- C19: `IsSameOrOppositeDir` in space. -/
theorem C19_same_or_opposite (a b : V3) (ha : a ≠ ⟨0, 0, 0⟩) (hb : b ≠ ⟨0, 0, 0⟩) :
    a.isSameOrOppositeDir b = true ↔ Parallel3 a b := by
  have hg := V3.vec_ne_zero hb
  have key : ∀ {j : Fin 3} {p q : Int}, p ≠ 0 → ![a.x, a.y, a.z] j = p → ![b.x, b.y, b.z] j = q →
      ((a.x * q = b.x * p ∧ a.y * q = b.y * p ∧ a.z * q = b.z * p) ↔ Parallel3 a b) := by
    intro j p q hp h1 h2
    have := scaled_eq_signed hp h1 h2 hg
    simp only [forall_fin3] at this
    simpa [Parallel3, V3.scale] using this
  unfold V3.isSameOrOppositeDir
  by_cases hx : a.x = 0
  · by_cases hy : a.y = 0
    · have hz : a.z ≠ 0 := by
        intro hz; apply ha; ext <;> assumption
      rw [← key (j := 2) hz rfl rfl, hx, hy]; simp
    · rw [← key (j := 1) hy rfl rfl, hx]; simp [hy]
  · rw [← key (j := 0) hx rfl rfl]; simp [hx]

theorem V2.vec_ne_zero {v : V2} (h : v ≠ ⟨0, 0⟩) : (![v.x, v.y] : Fin 2 → Int) ≠ 0 := by
  intro e
  apply h
  have h0 := congrFun e 0; have h1 := congrFun e 1
  simp at h0 h1
  cases v; simp_all

/-- C19 (partial): `IsSameDir` in the plane; missing as above. -/
theorem C19_same_dir2_partial (a b : V2) (ha : a ≠ ⟨0, 0⟩) (hb : b ≠ ⟨0, 0⟩)
    (ma : NoMin2 a) (mb : NoMin2 b) : ∃ r, a.isSameDir b = some r ∧ (r = true ↔ SameDir2 a b) := by
  have hg := V2.vec_ne_zero hb
  have key : ∀ {j : Fin 2} {p q : Int}, p ≠ 0 → ![a.x, a.y] j = p → ![b.x, b.y] j = q →
      ((a.x * |q| = b.x * |p| ∧ a.y * |q| = b.y * |p|) ↔ SameDir2 a b) := by
    intro j p q hp h1 h2
    have := scaled_eq hp h1 h2 hg
    simp only [forall_fin2] at this
    simpa [SameDir2, V2.scale] using this
  unfold V2.isSameDir
  rw [abs?_some ma.1, abs?_some ma.2, abs?_some mb.1, abs?_some mb.2]
  by_cases hx : a.x = 0
  · have hy : a.y ≠ 0 := by
      intro hy; apply ha; cases a; simp_all
    simp only [hx, ne_eq, not_true, if_false, Option.bind_eq_bind, Option.bind_some]
    refine ⟨_, rfl, ?_⟩
    rw [← key (j := 1) hy rfl rfl, hx]; simp
  · simp only [hx, ne_eq, not_false_eq_true, if_true, Option.bind_eq_bind, Option.bind_some]
    refine ⟨_, rfl, ?_⟩
    rw [← key (j := 0) hx rfl rfl]; simp

/-- C19: `IsSameOrOppositeDir` in the plane. -/
theorem C19_same_or_opposite2 (a b : V2) (ha : a ≠ ⟨0, 0⟩) (hb : b ≠ ⟨0, 0⟩) :
    a.isSameOrOppositeDir b = true ↔ Parallel2 a b := by
  have hg := V2.vec_ne_zero hb
  have key : ∀ {j : Fin 2} {p q : Int}, p ≠ 0 → ![a.x, a.y] j = p → ![b.x, b.y] j = q →
      ((a.x * q = b.x * p ∧ a.y * q = b.y * p) ↔ Parallel2 a b) := by
    intro j p q hp h1 h2
    have := scaled_eq_signed hp h1 h2 hg
    simp only [forall_fin2] at this
    simpa [Parallel2, V2.scale] using this
  unfold V2.isSameOrOppositeDir
  by_cases hx : a.x = 0
  · have hy : a.y ≠ 0 := by
      intro hy; apply ha; cases a; simp_all
    rw [← key (j := 1) hy rfl rfl, hx]; simp
  · rw [← key (j := 0) hx rfl rfl]; simp [hx]

/-- C19 is false of the code for a component `-2^63`: `IsSameDir` is undefined. -/
theorem C19_false : V3.isSameDir ⟨-2 ^ 63, 0, 0⟩ ⟨-1, 0, 0⟩ = none ∧
    SameDir3 ⟨-2 ^ 63, 0, 0⟩ ⟨-1, 0, 0⟩ :=
  ⟨by decide, 1, 2 ^ 63, by norm_num, by norm_num, by norm_num [V3.scale]⟩

example : ∃ r, V3.isSameDir ⟨0, -2, 4⟩ ⟨0, -3, 6⟩ = some r ∧
    (r = true ↔ SameDir3 ⟨0, -2, 4⟩ ⟨0, -3, 6⟩) :=
  C19_same_dir_partial _ _ (by decide) (by decide) (by norm_num [NoMin3]) (by norm_num [NoMin3])
example : V3.isSameOrOppositeDir ⟨0, -2, 4⟩ ⟨0, 3, -6⟩ = true :=
  (C19_same_or_opposite _ _ (by decide) (by decide)).mpr ⟨3, -2, by decide, by decide, by decide⟩

end Walnut.Props
