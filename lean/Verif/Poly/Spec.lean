/-
What a convex polygon is: vertices with rational coordinates in a plane, in
counter-clockwise order around the plane's normal, and the set of points it covers.
Independent of the algorithms.
-/
import Verif.Geom.Spec
import Verif.Poly.Model
import Mathlib.Analysis.Convex.Hull

namespace Walnut.Poly
open Walnut.Geom

/-- Twice the signed area of the triangle `a b c` seen from the tip of the normal `n`,
times the length of `n`: positive for a counter-clockwise triangle. -/
def turn (n a b c : Q3) : ℚ := dotQ n (crossQ (fun i => b i - a i) (fun i => c i - a i))

/-- The line runs through `p` towards `q`. -/
structure EdgeLine (l : PL) (p q : Q3) : Prop where
  on : crossQ p l.d.q = l.m.q
  dir : ∃ s : ℚ, 0 < s ∧ ∀ i, l.d.q i = s * (q i - p i)

/-- The position of vertex `i`. -/
def Polygon.pt {D : Type} (P : Polygon D) (i : Nat) : Q3 := (P.vertexD i).pt

/-- The vertices of `P` are the distinct corners of a convex polygon (with possible
further vertices inside of the sides) in the plane of `P`, in counter-clockwise order,
and each edge's line runs from its vertex to the next one. -/
structure IsConvexPolygon {D : Type} (P : Polygon D) : Prop where
  drop : P.plane.n.comp P.drop ≠ 0
  finite : ∀ i, i < P.count → (P.vertexD i).w ≠ 0
  onPlane : ∀ i, i < P.count → P.plane.side (P.pt i) = 0
  line : ∀ i, i < P.count → EdgeLine (P.lineD i) (P.pt i) (P.pt ((i + 1) % P.count))
  ccw : ∀ i j k, i < j → j < k → k < P.count → 0 ≤ turn P.plane.n.q (P.pt i) (P.pt j) (P.pt k)
  distinct : ∀ i j, i < j → j < P.count → P.pt i ≠ P.pt j
  proper : ∃ i j k, i < j ∧ j < k ∧ k < P.count ∧ 0 < turn P.plane.n.q (P.pt i) (P.pt j) (P.pt k)

/-- The points covered by the polygon. -/
def Polygon.region {D : Type} (P : Polygon D) : Set Q3 :=
  convexHull ℚ {q | ∃ i, i < P.count ∧ q = P.pt i}

end Walnut.Poly
