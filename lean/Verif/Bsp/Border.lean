/-
Model of `BSPTree::GetNodeBorderNoBoundWalls` (bsp_tree.h 213-261).
-/
import Verif.Bsp.Node
import Verif.Poly.Box

namespace Walnut.Bsp
open Walnut.Geom Walnut.Poly

/-- The split planes on the way along a path, with the side of the path (the loops at
bsp_tree.h 221-234 and 238-252 read `original_node->split()`).  A path that goes on below a
leaf dereferences a null pointer. -/
def pathPlanes : Node → List Bool → Option (List (HS3 × Bool))
  | _, [] => some []
  | .leaf _, _ :: _ => none
  | .inner _ g n p, b :: l => (pathPlanes (if b then p else n) l).map ((g, b) :: ·)

/-- The half-space that is intersected with the box (bsp_tree.h 224, 229). -/
def outward (a : HS3 × Bool) : HS3 := if a.2 then a.1.neg else a.1

/-- Edges without additional members.  The edge parent class of the polygons at bsp_tree.h 221-234. -/
def plainOps : EdgeOps Unit := ⟨fun _ _ => (), fun _ _ => (), fun _ _ _ => ()⟩

/-- The loop that adds the polygons (bsp_tree.h 221-234).  An empty intersection fails the
assertion. -/
def addBorders (aabb : Bool) (b : AABB) : List (HS3 × Bool) → Node → Option Node
  | [], t => some t
  | a :: l, t =>
    match intersectPlane plainOps () b (outward a) with
    | some (some P) => (t.addRoot aabb 0 P).bind (addBorders aabb b l)
    | _ => none

/-- The loop that splits the node (bsp_tree.h 238-252); `done` is the path so far. -/
def splitPath : List (HS3 × Bool) → List Bool → Node → Option Node
  | [], _, t => some t
  | a :: l, done, t => (t.splitAt [] done a.1).bind (splitPath l (done ++ [a.2]))

/-- The node at a path.  Walks the children as bsp_tree.h 238-252 does. -/
def Node.follow : Node → List Bool → Option Node
  | t, [] => some t
  | .leaf _, _ :: _ => none
  | .inner _ _ n p, b :: l => (if b then p else n).follow l

/-- `GetNodeBorderNoBoundWalls` (bsp_tree.h 213-261). -/
def nodeBorder (aabb : Bool) (t : Node) (path : List Bool) (b : AABB) : Option (List BPoly) :=
  (pathPlanes t path).bind fun l =>
  (addBorders aabb b l (.leaf {})).bind fun m =>
  (splitPath l [] m).bind fun m =>
  (m.follow path).map fun s => s.data.border ++ s.data.contents

end Walnut.Bsp
