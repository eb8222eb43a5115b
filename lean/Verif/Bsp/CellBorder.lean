/-
Model of the first part of `BSPTree::GetNodeBorder` (bsp_tree.h 119-192): the polygons from which the
polyhedron of a node is made, up to the traversal.
-/
import Verif.Bsp.Border

namespace Walnut.Bsp
open Walnut.Geom Walnut.Poly

/-- `bounding_box_planes.find(g) != bounding_box_planes.end()` (bsp_tree.h 126, 139, 148): a wall whose
plane is neither before nor after `g`.  (The search tree evaluates only some of these comparisons.) -/
def isWallPlane (g : HS3) : List (Polygon Unit) → Option Bool
  | [] => some false
  | P :: l =>
    match P.plane.setCompare g, g.setCompare P.plane, isWallPlane g l with
    | some r1, some r2, some r => some ((!r1 && !r2) || r)
    | _, _, _ => none

/-- The loop that adds the walls of the box with the content id 0 (bsp_tree.h 128-132). -/
def addWalls (aabb : Bool) : List (Polygon Unit) → Node → Option Node
  | [], t => some t
  | P :: l, t => (t.addRoot aabb 0 P).bind (addWalls aabb l)

/-- The loop that adds the split planes with the content id 1 (bsp_tree.h 133-157).  An empty
intersection fails the assertion. -/
def addCuts (aabb : Bool) (b : AABB) : List (HS3 × Bool) → Node → Option Node
  | [], t => some t
  | a :: l, t =>
    match isWallPlane (outward a) (walls () b) with
    | none => none
    | some true => addCuts aabb b l t
    | some false =>
      match intersectPlane plainOps () b (outward a) with
      | some (some P) => (t.addRoot aabb 1 P).bind (addCuts aabb b l)
      | _ => none

/-- The mapped node at the end of the path after the splits (bsp_tree.h 169-184). -/
def mappedCell (aabb : Bool) (t : Node) (path : List Bool) (b : AABB) : Option NodeData :=
  (pathPlanes t path).bind fun l =>
  (addWalls aabb (walls () b) (.leaf {})).bind fun m =>
  (addCuts aabb b l m).bind fun m =>
  (splitPath l [] m).bind fun m =>
  (m.follow path).map fun s => s.data

/-- The condition under which `GetNodeBorder` returns an empty vector without a traversal (bsp_tree.h 184-192). -/
def returnsEarly (d : NodeData) : Bool := decide ((d.infoFor 0).pwn < 1) && !(d.infoFor 0).hasPolygons

end Walnut.Bsp
