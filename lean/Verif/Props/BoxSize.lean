/-
Property C90: the size of a box.  Also the remaining constructors and `IsOnBorder(Point3)` (C27).
-/
import Verif.Geom.BoxMore
import Verif.Props.Boxes

namespace Walnut.Props
open Walnut.Geom

/-! ### C27 -/

/-- C27: the box between two points with integer coordinates. -/
theorem C27_of_points (lo hi : V3) (q : Q3) : InBox (AABB.ofPoints lo hi) q ↔ ∀ i, lo.q i ≤ q i ∧ q i ≤ hi.q i := by
  simp [InBox, AABB.ofPoints, V3.q]

/-- C27: the cube around the origin. -/
theorem C27_of_radius (r : Int) (hr : -2 ^ 31 < r) : ∃ b, AABB.ofRadius r = some b ∧ ∀ q, InBox b q ↔ ∀ i, |q i| ≤ (r : ℚ) := by
  refine ⟨_, if_neg hr.ne', fun q => forall_congr' fun i => ?_⟩
  rw [abs_le]
  have h : ((⟨-r, -r, -r⟩ : V3).comp i : Int) = -r := by fin_cases i <;> rfl
  have h' : ((⟨r, r, r⟩ : V3).comp i : Int) = r := by fin_cases i <;> rfl
  simp only [h, h']
  push_cast
  simp

/-- C27: `IsOnBorder` of a point with integer coordinates. -/
theorem C27_is_on_border_point (b : AABB) (hb : 0 < b.den) (p : V3) : b.isOnBorderPoint p = true ↔ OnBoxBorder b p.q := by
  unfold AABB.isOnBorderPoint OnBoxBorder
  have hq : (b.den : ℚ) ≠ 0 := by exact_mod_cast hb.ne'
  rw [Bool.and_eq_true, C27_is_inside_point b hb p, any_fin3]
  refine and_congr_right fun _ => exists_congr fun i => ?_
  simp only [Bool.or_eq_true, decide_eq_true_eq, V3.q]
  rw [eq_div_iff hq, eq_div_iff hq]
  exact_mod_cast Iff.rfl

/-- C27: a nonempty box contains the points `min_point()` and `max_point()`, which bound all its points. -/
theorem C27_corners (b : AABB) (hb : 0 < b.den) (hne : NonemptyBox b) :
    InBox b b.minPoint.pt ∧ InBox b b.maxPoint.pt ∧ ∀ q, InBox b q → ∀ i, b.minPoint.pt i ≤ q i ∧ q i ≤ b.maxPoint.pt i := by
  have hq : (0 : ℚ) < b.den := by exact_mod_cast hb
  have h : ∀ i, (b.lo.comp i : ℚ) / b.den ≤ (b.hi.comp i : ℚ) / b.den := fun i =>
    div_le_div_of_nonneg_right (by exact_mod_cast hne i) hq.le
  exact ⟨fun i => ⟨le_rfl, h i⟩, fun i => ⟨h i, le_rfl⟩, fun q hi => hi⟩

/-! ### C90 -/

/-- The square of the distance of two points. -/
def distanceSq (p q : Q3) : ℚ := (p 0 - q 0) ^ 2 + (p 1 - q 1) ^ 2 + (p 2 - q 2) ^ 2

/-- The distance of two points. -/
noncomputable def distance (p q : Q3) : ℝ := Real.sqrt (distanceSq p q)

/-- C90: the squared length of the diagonal is the returned numerator over the square of the denominator. -/
theorem C90_squared (b : AABB) (hb : 0 < b.den) :
    distanceSq b.minPoint.pt b.maxPoint.pt = (b.squaredDiagonal : ℚ) / (b.den : ℚ) ^ 2 := by
  have hq : (b.den : ℚ) ≠ 0 := by exact_mod_cast hb.ne'
  simp only [distanceSq, HP3.pt, AABB.minPoint, AABB.maxPoint, AABB.squaredDiagonal, V3.sub, V3.dot, V3.comp]
  push_cast
  field_simp
  ring

/-- C90: the diagonal is the largest distance of two points of the box. -/
theorem C90_largest (b : AABB) (p q : Q3) (hp : InBox b p) (hq : InBox b q) : distanceSq p q ≤ distanceSq b.minPoint.pt b.maxPoint.pt := by
  have h : ∀ i, (p i - q i) ^ 2 ≤ (b.minPoint.pt i - b.maxPoint.pt i) ^ 2 := by
    intro i
    have h1 : b.minPoint.pt i ≤ p i ∧ p i ≤ b.maxPoint.pt i := hp i
    have h2 : b.minPoint.pt i ≤ q i ∧ q i ≤ b.maxPoint.pt i := hq i
    rw [sq_le_sq, abs_le]
    rw [abs_of_nonpos (by linarith)]
    constructor <;> linarith
  unfold distanceSq
  linarith [h 0, h 1, h 2]

/-- What `GetDiagonalLength` returns for every box: the length of the diagonal, times the square root of the denominator. -/
theorem C90_actual (b : AABB) (hb : 0 < b.den) :
    b.diagonalLength = Real.sqrt b.den * distance b.minPoint.pt b.maxPoint.pt := by
  have hr : (0 : ℝ) < b.den := by exact_mod_cast hb
  unfold AABB.diagonalLength distance
  rw [C90_squared b hb, ← Real.sqrt_mul hr.le]
  congr 1
  push_cast
  field_simp

/-- C90 for boxes with the denominator 1: `GetDiagonalLength` is the length of the diagonal.  Missing: other denominators
(`C90_length_false`). -/
theorem C90_length_partial (b : AABB) (hb : b.den = 1) : b.diagonalLength = distance b.minPoint.pt b.maxPoint.pt := by
  rw [C90_actual b (by omega), hb]
  simp

/-- C90 (disagreement): for every box with another denominator and more than one point, `GetDiagonalLength` is too large. -/
theorem C90_too_large (b : AABB) (hb : 1 < b.den) (hne : b.minPoint.pt ≠ b.maxPoint.pt) :
    distance b.minPoint.pt b.maxPoint.pt < b.diagonalLength := by
  have hpos : 0 < distance b.minPoint.pt b.maxPoint.pt := by
    refine Real.sqrt_pos.2 ?_
    have h : 0 < distanceSq b.minPoint.pt b.maxPoint.pt := by
      obtain ⟨i, hi⟩ := Function.ne_iff.1 hne
      have h3 : 0 < (b.minPoint.pt i - b.maxPoint.pt i) ^ 2 := by
        have := sub_ne_zero.2 hi
        positivity
      unfold distanceSq
      have := sq_nonneg (b.minPoint.pt 0 - b.maxPoint.pt 0)
      have := sq_nonneg (b.minPoint.pt 1 - b.maxPoint.pt 1)
      have := sq_nonneg (b.minPoint.pt 2 - b.maxPoint.pt 2)
      fin_cases i <;> simp only [Fin.zero_eta, Fin.mk_one, Fin.reduceFinMk] at h3 <;> linarith
    exact_mod_cast h
  have h1 : 1 < Real.sqrt b.den := by
    rw [Real.lt_sqrt (by norm_num)]
    norm_num
    exact_mod_cast hb
  rw [C90_actual b (by omega)]
  nlinarith

/-- C90 (disagreement), a case: the unit interval on the x axis, with the denominator 4, has the length 2. -/
theorem C90_length_false : ∃ b : AABB, 0 < b.den ∧ NonemptyBox b ∧ distance b.minPoint.pt b.maxPoint.pt = 1 ∧ b.diagonalLength = 2 := by
  refine ⟨⟨⟨0, 0, 0⟩, ⟨4, 0, 0⟩, 4⟩, by decide, fun i => by fin_cases i <;> decide, ?_, ?_⟩
  · simp [distance, distanceSq, HP3.pt, AABB.minPoint, AABB.maxPoint, V3.comp]
  · simp only [AABB.diagonalLength, AABB.squaredDiagonal, V3.sub, V3.dot]
    rw [show ((((4 - 0) * (4 - 0) + (0 - 0) * (0 - 0) + (0 - 0) * (0 - 0) : Int) : ℝ) / ((4 : Int) : ℝ)) = 2 ^ 2 by norm_num]
    exact Real.sqrt_sq (by norm_num)

/-! ### The hypotheses are met -/

example : ∃ b, AABB.ofRadius 3 = some b ∧ InBox b ![3, -3, 0] ∧ ¬ InBox b ![4, 0, 0] := by
  obtain ⟨b, h, hb⟩ := C27_of_radius 3 (by norm_num)
  refine ⟨b, h, (hb _).2 fun i => ?_, fun hi => ?_⟩
  · fin_cases i <;> norm_num [abs_le]
  · have := (hb _).1 hi 0
    norm_num at this

example : (⟨⟨0, 0, 0⟩, ⟨4, 4, 4⟩, 2⟩ : AABB).isOnBorderPoint ⟨1, 2, 1⟩ = true ∧ (⟨⟨0, 0, 0⟩, ⟨4, 4, 4⟩, 2⟩ : AABB).isOnBorderPoint ⟨1, 1, 1⟩ = false := by
  decide

example : (⟨⟨0, 0, 0⟩, ⟨3, 4, 0⟩, 1⟩ : AABB).diagonalLength = 5 := by
  simp only [AABB.diagonalLength, AABB.squaredDiagonal, V3.sub, V3.dot]
  rw [show ((((3 - 0) * (3 - 0) + (4 - 0) * (4 - 0) + (0 - 0) * (0 - 0) : Int) : ℝ) / ((1 : Int) : ℝ)) = 5 ^ 2 by norm_num]
  exact Real.sqrt_sq (by norm_num)

example : let b : AABB := ⟨⟨0, 0, 0⟩, ⟨4, 0, 0⟩, 4⟩; 1 < b.den ∧ b.minPoint.pt ≠ b.maxPoint.pt := by
  refine ⟨by decide, fun h => ?_⟩
  have := congrFun h 0
  simp [AABB.minPoint, AABB.maxPoint, HP3.pt, V3.comp] at this

example : InBox ⟨⟨0, 0, 0⟩, ⟨4, 4, 4⟩, 2⟩ ![1, 2, 0] := by
  intro i
  fin_cases i <;> norm_num [V3.comp]

end Walnut.Props
