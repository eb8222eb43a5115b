/-
Model of the traversal of a binary space partition: bsp_traverser.h.

Not modelled: how `SplitStrategy` chooses a split plane; the choice is a function `choose`
of the node's path and vectors.  The axis aligned splits of the k-d strategy move the
polygons with another algorithm (`ApplyPrimary`); here they are ordinary splits.  That
strategy is modelled in Bsp/KdStrategy.lean.  The iteration order of the multimap is a
function `group`, which may differ between leaves: C++ only guarantees that entries with
equal keys are adjacent.  `fuel` bounds the depth of the recursion; `none` is a failed
assertion, undefined behaviour or not enough fuel.
-/
import Verif.Bsp.Partition

namespace Walnut.Bsp
open Walnut.Geom Walnut.Poly

/-- How a split plane is chosen (bsp_traverser.h 29-113). -/
abbrev Choose := List Bool → NodeData → HS3

/-- The ranges of entries with equal keys of the multimap that `VisitLeaf` fills, in the order
of iteration (bsp_traverser.h 233-249), for the leaf at a path. -/
abbrev Group := List Bool → List BPoly → List (List BPoly)

/-- `ProcessPolygonsOnPlane` (bsp_traverser.h 208-227). -/
def processOnPlane (v : IsInside) (info : List Info) (fuel : Nat) (path : List Bool) (l : List BPoly) : Option (List Visit) :=
  match l with
  | [] => none
  | p :: _ => partition v p.poly.drop (decide (p.poly.plane.n.comp p.poly.drop < 0)) info fuel path l

/-- The loop of `VisitLeaf` over the ranges (bsp_traverser.h 237-249). -/
def visitFaces (v : IsInside) (info : List Info) (fuel : Nat) (path : List Bool) : List (List BPoly) → Option (List Visit)
  | [] => some []
  | l :: ls =>
    match processOnPlane v info fuel path l with
    | none => none
    | some tr => (visitFaces v info fuel path ls).map fun tr' => tr ++ tr'

/-- `VisitLeaf` (bsp_traverser.h 229-251). -/
def visitLeaf (v : IsInside) (group : Group) (fuel : Nat) (path : List Bool) (d : NodeData) : Option (List Visit) :=
  if !d.contents.isEmpty then none
  else if d.border.any fun p => p.onNode.split.isNone then none
  else visitFaces v d.info fuel path (group path d.border)

/-- The calls for an interior node (bsp_traverser.h 170-173 and 198-201). -/
def bracket (ref : PlaneRef) (a b : List Visit) : List Visit := .enter false ref :: (a ++ (b ++ [.leave false ref]))

/-- `RunLeaf` (bsp_traverser.h 182-206); returns the node, which may have been split, and the
calls that the visitor receives. -/
def runLeaf (v : IsInside) (choose : Choose) (group : Group) (pfuel : Nat) : Nat → List Bool → NodeData → Option (Node × List Visit)
  | 0, _, _ => none
  | fuel + 1, path, d =>
    if !(v d.info).2 then some (.leaf d, [])
    else if !d.contents.isEmpty then
      match split path d (choose path d) with
      | some (.inner d' g (.leaf n) (.leaf p)) =>
        match runLeaf v choose group pfuel fuel (path ++ [false]) n with
        | none => none
        | some a =>
          (runLeaf v choose group pfuel fuel (path ++ [true]) p).map fun b =>
            (.inner d' g a.1 b.1, bracket ⟨path, g⟩ a.2 b.2)
      | _ => none
    else (visitLeaf v group pfuel path d).map fun tr => (.leaf d, tr)

/-- `Run` (bsp_traverser.h 151-174) on a node whose vectors are `d`.  The polygons of an
interior node are only moved to its children if there are interior ones. -/
def run (v : IsInside) (choose : Choose) (group : Group) (pfuel fuel : Nat) : Node → List Bool → NodeData → Option (Node × List Visit)
  | .leaf _, path, d =>
    if !(v d.info).2 then some (.leaf d, []) else runLeaf v choose group pfuel fuel path d
  | .inner _ g n p, path, d =>
    if !(v d.info).2 then some (.inner d g n p, [])
    else
      match (if d.contents.isEmpty then some (n.data, p.data) else pushChildren ⟨path, g⟩ d (n.data, p.data)) with
      | none => none
      | some k =>
        match run v choose group pfuel fuel n (path ++ [false]) k.1 with
        | none => none
        | some a =>
          (run v choose group pfuel fuel p (path ++ [true]) k.2).map fun b =>
            (.inner (if d.contents.isEmpty then d else d.clear) g a.1 b.1, bracket ⟨path, g⟩ a.2 b.2)

/-- `Run` on the root of a tree (bsp_traverser.h 146-149). -/
def traverse (v : IsInside) (choose : Choose) (group : Group) (pfuel fuel : Nat) (t : Node) : Option (Node × List Visit) :=
  run v choose group pfuel fuel t [] t.data

end Walnut.Bsp
