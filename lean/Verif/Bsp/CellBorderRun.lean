/-
Model of the second part of `BSPTree::GetNodeBorder` (bsp_tree.h 163-209): the calls that its visitor receives.

Not modelled here: how `ConnectingVisitor` joins the polygons that it accepts (see Bsp/Visitor.lean).
-/
import Verif.Bsp.CellBorder
import Verif.Bsp.Filter
import Verif.Bsp.Traverse

namespace Walnut.Bsp
open Walnut.Geom Walnut.Poly

/-- The filter for the border of a node (bsp_tree.h 163-164). -/
def cellFilter : Filter := .xor (.odd 0) (.odd 1)

/-- The split planes above the mapped node (bsp_tree.h 169-182), from the root downwards. -/
def pathRefs : List Bool → List (HS3 × Bool) → List PlaneRef
  | _, [] => []
  | done, a :: l => ⟨done, a.1⟩ :: pathRefs (done ++ [a.2]) l

/-- The calls that the visitor receives (bsp_tree.h 184-208): none if the function returns early. -/
def nodeBorderVisits (choose : Choose) (group : Group) (pfuel fuel : Nat) (aabb : Bool) (t : Node) (path : List Bool) (b : AABB) : Option (List Visit) :=
  (pathPlanes t path).bind fun l =>
  (mappedCell aabb t path b).bind fun d =>
  if returnsEarly d then some []
  else (run cellFilter.eval choose group pfuel fuel (.leaf d) path d).map fun r =>
    (pathRefs [] l).map (.enter false) ++ (r.2 ++ (pathRefs [] l).reverse.map (.leave false))

end Walnut.Bsp
