/-
What a triangulation or a decomposition of a closed polyline has to do, independent
of the algorithms.
-/
import Verif.Geom.Spec

namespace Walnut.Mono
open Walnut.Geom

/-- The turn `p1, p, p3` in the projection that drops a coordinate: positive when
`p3` is counter-clockwise from `p1` seen from `p`. -/
def turnAt (drop : Fin 3) (p p1 p3 : Q3) : ℚ :=
  (p1 (drop + 1) - p (drop + 1)) * (p3 (drop + 2) - p (drop + 2)) -
    (p1 (drop + 2) - p (drop + 2)) * (p3 (drop + 1) - p (drop + 1))

/-- A quantity attached to directed segments that changes its sign with the
direction.  Examples: twice the area swept over by the segment seen from the origin
in a projection, the number of crossings (counted with their direction) of the
segment with a ray, or "this directed segment occurs" minus "its reverse occurs". -/
def Antisymmetric (f : Q3 → Q3 → ℚ) : Prop := ∀ a b, f a b = -f b a

/-- The sum of a quantity over the segments of an open polyline. -/
def pathSum (f : Q3 → Q3 → ℚ) : List Q3 → ℚ
  | a :: b :: r => f a b + pathSum f (b :: r)
  | _ => 0

/-- The sum of a quantity over the segments of a closed polyline: the last vertex is
connected to the first one. -/
def loopSum (f : Q3 → Q3 → ℚ) : List Q3 → ℚ
  | [] => 0
  | a :: r => pathSum f (a :: r ++ [a])

/-- The quantity whose sum over a closed polyline is twice its signed area in the
projection that drops a coordinate. -/
def areaForm (drop : Fin 3) (a b : Q3) : ℚ :=
  a (drop + 1) * b (drop + 2) - a (drop + 2) * b (drop + 1)

/-- Twice the signed area of a closed polyline in the projection. -/
def area2 (drop : Fin 3) (l : List Q3) : ℚ := loopSum (areaForm drop) l

/-- The closed polyline never turns against `o`: at each vertex the turn from the
vertex before to the one after has the sign `o` or is zero, and is zero for `o = 0`. -/
def TurnsOnly (drop : Fin 3) (o : Int) (l : List Q3) : Prop :=
  ∀ a b c, [a, b, c] <:+: l ++ l.take 2 →
    0 ≤ turnAt drop b a c * o ∧ (o = 0 → turnAt drop b a c = 0)

/-- The closed polyline `upper` reversed and `lower` is a monotone polygon whose upper
chain never passes below the lower one ("below" is the right hand side of the
direction of the chains).  Both chains run from the minimum to the maximum in the
dimension `mono`, and have those two vertices in common. -/
structure NonCrossing (drop mono : Fin 3) (upper lower : List Q3) : Prop where
  below : ∀ u v, [u, v] <:+: upper → ∀ w ∈ lower, u mono ≤ w mono → w mono ≤ v mono →
    turnAt drop w u v ≤ 0
  above : ∀ u v, [u, v] <:+: lower → ∀ w ∈ upper, u mono ≤ w mono → w mono ≤ v mono →
    0 ≤ turnAt drop w u v

/-- The chain never goes back in the dimension `mono`. -/
def Ascending (mono : Fin 3) (l : List Q3) : Prop := l.Pairwise fun a b => a mono ≤ b mono

/-- The two polylines `c1` and `c2` are cut off from the closed polyline `all`, and `rest`
is left.  `all` is divided into five parts.  `c1` consists of the last part and the first one,
it runs through the start of `all`.  `c2` connects the last vertex of `c1`, the second part,
the fourth part and the first vertex of `c1`, in this order.  `rest` is the third part, with the
vertex before and the one after it, or nothing if the third part is empty.  So `c1` and `c2`
are a closed polyline, and it differs from `all` by the closed polyline `rest`.  (If
`all` is only one vertex, it is not repeated in `c2`.) -/
def Cut {α : Type} (all c1 c2 rest : List α) : Prop :=
  ∃ p1 p2 p3 p4 p5 : List α, ∃ lo hi : α,
    all = p1 ++ p2 ++ p3 ++ p4 ++ p5 ∧
    c1 = p5 ++ p1 ∧ c1.head? = some lo ∧ c1.getLast? = some hi ∧
    (c2 = hi :: (p2 ++ p4) ++ [lo] ∨ all = [lo] ∧ c2 = [lo]) ∧
    ((p3 = [] ∧ rest = []) ∨
      ∃ x y, (p1 ++ p2).getLast? = some x ∧ (p4 ++ p5).head? = some y ∧ rest = x :: p3 ++ [y])

/-- The polygon `taken` is cut off from the closed polyline `all` along one segment, and `rest` is
left.  `all` is divided into three parts.  `taken` is the first and the last one.  `rest` is the
one in the middle, with the vertex before and the one after it, or nothing. -/
def CutMiddle {α : Type} (all taken rest : List α) : Prop :=
  ∃ F R B : List α, all = F ++ R ++ B ∧ taken = F ++ B ∧
    ((R = [] ∧ rest = []) ∨ ∃ x y, F.getLast? = some x ∧ B.head? = some y ∧ R ≠ [] ∧ rest = x :: R ++ [y])

end Walnut.Mono
