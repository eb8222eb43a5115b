/-
Model of the iterators over the vertices of a polygon (convex_polygon_vertex_iterator.h and convex_polygon.h 156-162), and of a loop
over all vertices.
-/
import Verif.Poly.Model
import Verif.Util.TransformIter

namespace Walnut.Poly
open Walnut.Geom Walnut.Util

variable {D : Type}

/-- `ConvexPolygonVertexIterator` (convex_polygon_vertex_iterator.h 10-26): the transformer `ReturnVertexFromEdge` has no members
and returns the vertex of an edge. -/
def vertexKind : TransformKind Unit (Edge D) HP3 := ⟨(), fun _ e => some e.vertex⟩

namespace Polygon

/-- `vertices_begin` (convex_polygon.h 156-158). -/
def verticesBegin (_P : Polygon D) : TransformIter Unit := TransformIter.ofInput (vertexKind (D := D)) 0

/-- `vertices_end` (convex_polygon.h 160-162). -/
def verticesEnd (P : Polygon D) : TransformIter Unit := TransformIter.ofInput (vertexKind (D := D)) P.edges.length

end Polygon

/-- A loop `for (it = first; it != last; ++it) visit(*it)`, as at convex_vertex_aabb_tracker.h 39-41 with the iterators of
convex_polygon.h 156-162: the values that it visits.  `none` if a value is read outside of the edges, or if the loop does not end
within the given number of rounds. -/
def visitRange (edges : List (Edge D)) (last : TransformIter Unit) : Nat → TransformIter Unit → Option (List HP3)
  | fuel, it =>
    if it.ne last then
      match fuel with
      | 0 => none
      | fuel + 1 => do
        let v ← it.deref vertexKind edges
        let l ← visitRange edges last fuel it.preInc
        return v :: l
    else some []

end Walnut.Poly
