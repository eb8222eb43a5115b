/-
What the geometric objects mean: points with rational coordinates, half-spaces
and lines as sets of such points.  Independent of the algorithms.
-/
import Verif.Geom.Model
import Mathlib.Data.Rat.Defs
import Mathlib.Algebra.Order.Field.Basic
import Mathlib.Algebra.Order.Field.Rat
import Mathlib.Data.Fin.VecNotation
import Mathlib.Tactic.FieldSimp
import Mathlib.Tactic.FinCases
import Mathlib.Tactic.Linarith
import Mathlib.Tactic.LinearCombination
import Mathlib.Tactic.Positivity
import Mathlib.Tactic.Ring

namespace Walnut.Geom

/-- A point of rational 3-space. -/
abbrev Q3 := Fin 3 → ℚ
/-- A point of the rational plane. -/
abbrev Q2 := Fin 2 → ℚ

/-- The vector as rational coordinates. -/
def V3.q (v : V3) : Q3 := fun i => (v.comp i : ℚ)
/-- The 2D vector as rational coordinates. -/
def V2.q (v : V2) : Q2 := ![(v.x : ℚ), (v.y : ℚ)]
/-- The point a homogeneous point denotes. -/
def HP3.pt (p : HP3) : Q3 := fun i => (p.v.comp i : ℚ) / p.w
/-- The point a 2D homogeneous point denotes. -/
def HP2.pt (p : HP2) : Q2 := ![(p.v.x : ℚ) / p.w, (p.v.y : ℚ) / p.w]

/-- Inner product. -/
def dotQ (a b : Q3) : ℚ := a 0 * b 0 + a 1 * b 1 + a 2 * b 2
/-- Cross product. -/
def crossQ (a b : Q3) : Q3 :=
  ![a 1 * b 2 - a 2 * b 1, a 2 * b 0 - a 0 * b 2, a 0 * b 1 - a 1 * b 0]
/-- Cross product in the plane. -/
def cross2Q (a b : Q2) : ℚ := a 0 * b 1 - a 1 * b 0

/-- Signed (unnormalised) distance of a point from the boundary plane: positive
inside the half-space, zero on the plane. -/
def HS3.side (h : HS3) (q : Q3) : ℚ := dotQ h.n.q q - h.d
/-- The same for a 2D half-space. -/
def HS2.side (h : HS2) (q : Q2) : ℚ := (h.n.x : ℚ) * q 0 + h.n.y * q 1 - h.d

/-- Lexicographic order on the coordinates 0, 1, 2. -/
def LexLt (a b : Q3) : Prop :=
  a 0 < b 0 ∨ (a 0 = b 0 ∧ (a 1 < b 1 ∨ (a 1 = b 1 ∧ a 2 < b 2)))
/-- Lexicographic order on the coordinates 2, 1, 0. -/
def TopLt (a b : Q3) : Prop :=
  a 2 < b 2 ∨ (a 2 = b 2 ∧ (a 1 < b 1 ∨ (a 1 = b 1 ∧ a 0 < b 0)))
/-- Lexicographic order in the plane. -/
def LexLt2 (a b : Q2) : Prop := a 0 < b 0 ∨ (a 0 = b 0 ∧ a 1 < b 1)

/-- `s` has the sign of `t`. -/
def SameSign (s : Int) (t : ℚ) : Prop := (s < 0 ↔ t < 0) ∧ (s = 0 ↔ t = 0) ∧ (0 < s ↔ 0 < t)

end Walnut.Geom
