/-
Model of merging polygons that carry a bounding box tracker.
-/
import Verif.Poly.Track
import Verif.Poly.Merge

namespace Walnut.Poly
open Walnut.Geom

variable {D : Type}

/-- `AABBConvexPolygon::TryMergePolygon` (aabb_convex_polygon.h 224-235): if the polygons
are merged, the tracker of this polygon is built anew, otherwise it stays.  The result
is the returned value, this polygon, its tracker and the other polygon.  The tracker of
the other polygon is not touched. -/
def tryMergeTracked (ops : MergeOps D) (dim : Fin 3) (P : Polygon D) (T : Tracker) (a : Nat) (Q : Polygon D) (b : Nat) :
    Option (Bool × Polygon D × Tracker × Polygon D) :=
  match tryMergePolygon ops dim P a Q b with
  | none => none
  | some (false, R, S) => some (false, R, T, S)
  | some (true, R, S) => (Tracker.build R).map fun T' => (true, R, T', S)

end Walnut.Poly
