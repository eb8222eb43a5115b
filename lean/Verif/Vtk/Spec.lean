/-
Specification for C83: polygon meshes given by points and cells.
-/
import Verif.Vtk.Model
import Verif.Props.Double
import Verif.Props.Winding
import Mathlib.Data.List.Rotate

namespace Walnut.Vtk
open Walnut.Geom Walnut.Poly Walnut.Util Walnut.Props

/-- The position of a point after rounding its coordinates to multiples of `2 ^ minExponent` (of 1 if `minExponent` is
positive, see C59); `none` if they are not finite. -/
def roundedPoint (minExponent : Int) (p : BitVec 64 × BitVec 64 × BitVec 64) : Option Q3 := do
  let x ← doubleValue p.1
  let y ← doubleValue p.2.1
  let z ← doubleValue p.2.2
  let g := min 0 minExponent
  return ![roundTo g x, roundTo g y, roundTo g z]

/-- The position of the point with this id. -/
def pointOf (minExponent : Int) (data : PolyData) (i : Nat) : Option Q3 := data.points[i]?.bind (roundedPoint minExponent)

/-- The corners of a polygon, in order. -/
abbrev Cell := List Q3

/-- The same polygon, seen from the other side. -/
def Cell.flipped (c : Cell) : Cell := List.reverse c

/-- The normal of the triangle with these corners; it points to the side from which they are counter-clockwise. -/
def normal3 (x y z : Q3) : Q3 := crossQ (subQ y x) (subQ z x)

/-- The normal of the first three corners. -/
def Cell.normal : Cell → Q3
  | x :: y :: z :: _ => normal3 x y z
  | _ => 0

/-- The corners are those of a strictly convex polygon in a plane: any three of them, in their order, are a triangle that
has a normal, with the same direction for all of them. -/
structure StrictlyConvex (c : Cell) : Prop where
  three : 3 ≤ c.length
  normal : c.normal ≠ 0
  turns : ∀ x y z, [x, y, z].Sublist c → ∃ μ : ℚ, 0 < μ ∧ normal3 x y z = μ • c.normal

/-- The points of the polygon. -/
def Cell.region (c : Cell) : Set Q3 := convexHull ℚ {p | p ∈ c}

/-- The directed sides of a polygon. -/
def Cell.sides (c : Cell) : List (Q3 × Q3) := List.zip c (List.rotate c 1)

/-- The mesh has these polygons: the points are finite, and the cells are polygons that are strictly convex after
rounding.  For cells with more than three points: no cross product of three of them is `-2 ^ 63` (`twistCross`, see C86). -/
structure CellData (minExponent : Int) (data : PolyData) (T : List Cell) : Prop where
  finite : ∀ p ∈ data.points, roundedPoint minExponent p ≠ none
  strips : data.strips = []
  cells : List.Forall₂ (fun cell c => cell.map (pointOf minExponent data) = c.map some) data.polys T
  convex : ∀ c ∈ T, StrictlyConvex c
  minFree : ∀ cell ∈ data.polys, cell.length = 3 ∨ ∀ i ∈ cell, ∀ j ∈ cell, ∀ k ∈ cell, ∀ p q r, data.points[i]?.bind (convertPoint minExponent) = some p →
    data.points[j]?.bind (convertPoint minExponent) = some q → data.points[k]?.bind (convertPoint minExponent) = some r →
    ∀ drop, p.twistCross drop q r ≠ -2 ^ 63

/-- The directed sides of the polygons. -/
def sides (T : List Cell) : List (Q3 × Q3) := T.flatMap Cell.sides

/-- Every side occurs as often in one direction as in the other. -/
def ClosedInput (T : List Cell) : Prop := ∀ a b : Q3, (sides T).count (a, b) = (sides T).count (b, a)

open Classical in
/-- How the ray from `q` in direction `v` crosses the polygon: 1 from the back, -1 from the front, 0 not at all. -/
noncomputable def Cell.hits (q v : Q3) (c : Cell) : ℤ :=
  if ∃ s : ℚ, 0 < s ∧ q + s • v ∈ c.region then (if 0 < dotQ c.normal v then 1 else if dotQ c.normal v < 0 then -1 else 0) else 0

/-- The number of times that the polygons go around `q`, counted on the ray. -/
noncomputable def cellWinding (T : List Cell) (q v : Q3) : ℤ := (T.map (Cell.hits q v)).sum

/-- The ray meets no side of a polygon. -/
def Generic (T : List Cell) (q v : Q3) : Prop :=
  v ≠ 0 ∧ ∀ c ∈ T, ∀ s : ℚ, 0 < s → ∀ e ∈ c.sides, q + s • v ∉ segment ℚ e.1 e.2

/-- The polygon is this one: it is convex, its vertices are the corners, and its normal points to the side from which
they are counter-clockwise. -/
def CellOf (c : Cell) (P : Polygon Unit) : Prop :=
  IsConvexPolygon P ∧ (List.range P.count).map P.pt ~r c ∧ ∃ k : ℚ, 0 < k ∧ P.plane.n.q = k • c.normal

/-- Which points belong to the result, given which of the `n` inputs they are inside of. -/
def InResult (op : Operation) (n : Nat) (inside : Nat → Prop) : Prop :=
  match op with
  | .union => ∃ i < n, inside i
  | .intersection => ∀ i < n, inside i
  | .difference => inside 0 ∧ ∀ i < n, 0 < i → ¬ inside i

end Walnut.Vtk
