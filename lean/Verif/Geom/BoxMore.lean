/-
Model of the remaining members of `AABB` (aabb.h): further constructors, `IsOnBorder(Point3)`, the corners and the diagonal.
-/
import Verif.Geom.Model
import Mathlib.Analysis.Real.Sqrt

namespace Walnut.Geom
namespace AABB

/-- `AABB(Point3, Point3)` (aabb.h 19-21); the denominator is initialised to 1 (aabb.h 179). -/
def ofPoints (lo hi : V3) : AABB := ⟨lo, hi, 1⟩

/-- `AABB(int radius)` (aabb.h 53-55).  Negating the minimum of `int` is undefined. -/
def ofRadius (r : Int) : Option AABB :=
  if r = -2 ^ 31 then none else some ⟨⟨-r, -r, -r⟩, ⟨r, r, r⟩, 1⟩

/-- `IsOnBorder(Point3)` (aabb.h 58-67). -/
def isOnBorderPoint (b : AABB) (p : V3) : Bool :=
  b.isInsidePoint p && [0, 1, 2].any fun i =>
    decide (p.comp i * b.den = b.lo.comp i) || decide (p.comp i * b.den = b.hi.comp i)

/-- `min_point` (aabb.h 130-132). -/
def minPoint (b : AABB) : HP3 := ⟨b.lo, b.den⟩

/-- `max_point` (aabb.h 138-140). -/
def maxPoint (b : AABB) : HP3 := ⟨b.hi, b.den⟩

/-- `GetSquaredDiagonalLengthNumerator` (aabb.h 164-166, with vector3.h 108-110). -/
def squaredDiagonal (b : AABB) : Int := (b.hi.sub b.lo).dot (b.hi.sub b.lo)

/-- `GetDiagonalLength` (aabb.h 168-170), simplified: the conversions, the division and the square root are those of real numbers,
without rounding. -/
noncomputable def diagonalLength (b : AABB) : ℝ := Real.sqrt ((b.squaredDiagonal : ℝ) / (b.den : ℝ))

end AABB
end Walnut.Geom
