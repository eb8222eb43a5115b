/-
Model of the plane partitioner: plane_partitioner.h.

The visitor is a filter (`IsInside`) and the list of the calls it receives.  The planes
of the partitioner are local variables; the pointer to one is modelled like the pointer to
the split plane of a node, as if the partitioner's nodes were below the leaf, at `path`,
whose border polygons are partitioned: a piece never holds a pointer to a plane that is
not in scope.  `fuel` bounds the depth of the recursion; `none` is a failed assertion, an
access outside of a vector or not enough fuel.  The free list of vectors is not modelled.
-/
import Verif.Bsp.Node

namespace Walnut.Bsp
open Walnut.Geom Walnut.Poly

/-- `BSPVisitor::IsInside` (bsp_visitor.h 184-193). -/
abbrev IsInside := List Info → Bool × Bool

/-- The other calls that a visitor receives (bsp_visitor.h 195-211). -/
inductive Visit where
  | enter (fromPartitioner : Bool) (split : PlaneRef)
  | leave (fromPartitioner : Bool) (split : PlaneRef)
  | leaf
  | accept (p : BPoly)

/-- `a.split == b.split`: the pointers are equal if they point to the plane of the same
node (plane_partitioner.h 133-134). -/
def sameSplit (a b : SplitSide) : Bool := decide (a.split.map PlaneRef.path = b.split.map PlaneRef.path)

/-- `SearchForSplitEdge` (plane_partitioner.h 129-139). -/
def searchEdge (p : BPoly) : Option (Edge EdgeInfo) := p.poly.edges.find? fun e => sameSplit e.data.first e.data.edgeLast

/-- The search of the public `Run` (plane_partitioner.h 74-82). -/
def searchFirst : List BPoly → Option (Edge EdgeInfo)
  | [] => none
  | p :: l =>
    match searchEdge p with
    | some e => some e
    | none => searchFirst l

/-- The search of the private `Run` (plane_partitioner.h 155-176) with `mid - offset`
rounds left. -/
def searchMid (l : List BPoly) (mid : Nat) : Nat → Option (Option (Edge EdgeInfo))
  | 0 => if l.length % 2 = 1 then (l[mid + mid]?).map searchEdge else some none
  | r + 1 =>
    match l[mid + (mid - (r + 1))]?, l[mid - (mid - (r + 1)) - 1]? with
    | some p, some q =>
      match searchEdge p with
      | some e => some (some e)
      | none =>
        match searchEdge q with
        | some e => some (some e)
        | none => searchMid l mid r
    | _, _ => none

/-- The plane through an edge, parallel to the dropped axis (plane_partitioner.h 88-89 and
185-186). -/
def splitPlane (e : Edge EdgeInfo) (drop : Fin 3) : HS3 := HS3.extrude (PL.project2D e.line drop) drop

/-- `PushToChildren` (plane_partitioner.h 209-237).  A polygon on the plane fails the
assertion. -/
def pushSides (ref : PlaneRef) : List BPoly → Option (List BPoly × List BPoly)
  | [] => some ([], [])
  | p :: l =>
    match route false ref p with
    | none => none
    | some (.both N Q) => (pushSides ref l).map fun k => (N :: k.1, Q :: k.2)
    | some (.neg N) => (pushSides ref l).map fun k => (N :: k.1, k.2)
    | some (.pos Q) => (pushSides ref l).map fun k => (k.1, Q :: k.2)
    | some .on => none

/-- The second loop of `SetCurrentContentInfoPolygons` (plane_partitioner.h 255-257). -/
def markBorder : List BPoly → List Info → Option (List Info)
  | [], c => some c
  | p :: l, c =>
    match bump c p.id fun i => { i with border := 1 } with
    | none => none
    | some c => markBorder l c

/-- `SetCurrentContentInfoPolygons` (plane_partitioner.h 250-258). -/
def setPolygons (l : List BPoly) (c : List Info) : Option (List Info) :=
  if c.any fun i => i.interior ≠ 0 then none else markBorder l (c.map fun i => { i with border := 0 })

/-- `RestoreCurrentContentInfoPWN` (plane_partitioner.h 241-246). -/
def restorePwn (init c : List Info) : Option (List Info) :=
  if c.length = init.length then some (List.zipWith (fun i j => { i with pwn := j.pwn }) c init) else none

/-- The change of the winding number when a polygon is peeled off
(plane_partitioner.h 275, 283-289); the sign of a number that is not zero is `1` or `-1`, and
the exclusive or of two such is negative if they differ. -/
def pwnChange (drop : Fin 3) (posNormal : Bool) (p : BPoly) : Int :=
  if decide (p.poly.plane.n.comp drop < 0) != !posNormal then -1 else 1

/-- The loop of `ProcessLeaf` (plane_partitioner.h 276-297); returns the calls of `Accept` and
`current_content_info_`. -/
def peel (v : IsInside) (drop : Fin 3) (posNormal : Bool) : List BPoly → Bool → List Info → Option (List Visit × List Info)
  | [], _, c => some ([], c)
  | p :: l, inner, c =>
    if p.poly.plane.n.comp drop = 0 then none
    else
      match bump c p.id fun i => { i with pwn := i.pwn + pwnChange drop posNormal p } with
      | none => none
      | some c =>
        (peel v drop posNormal l (v c).1 c).map fun r => (if (v c).1 != inner then .accept p :: r.1 else r.1, r.2)

/-- `ProcessLeaf` (plane_partitioner.h 269-298). -/
def processLeaf (v : IsInside) (drop : Fin 3) (posNormal : Bool) (l : List BPoly) (inner : Bool) (c : List Info) :
    Option (List Visit × List Info) :=
  (peel v drop posNormal l inner c).map fun r => (.leaf :: r.1, r.2)

/-- The private `Run` (plane_partitioner.h 143-205) on `polygons` with `current_content_info_`
`c`. -/
def partitionVec (v : IsInside) (drop : Fin 3) (posNormal : Bool) (init : List Info) :
    Nat → List Bool → List BPoly → List Info → Option (List Visit × List Info)
  | 0, _, _, _ => none
  | fuel + 1, path, l, c =>
    if !(v c).2 then some ([], c)
    else
      match searchMid l (l.length / 2) (l.length / 2) with
      | none => none
      | some none =>
        match processLeaf v drop posNormal l (v c).1 c with
        | none => none
        | some r => (restorePwn init r.2).map fun c => (r.1, c)
      | some (some e) =>
        let ref : PlaneRef := ⟨path, splitPlane e drop⟩
        match pushSides ref l with
        | none => none
        | some k =>
          match setPolygons k.1 c with
          | none => none
          | some c =>
            match partitionVec v drop posNormal init fuel (path ++ [false]) k.1 c with
            | none => none
            | some r =>
              match setPolygons k.2 r.2 with
              | none => none
              | some c =>
                (partitionVec v drop posNormal init fuel (path ++ [true]) k.2 c).map fun s =>
                  (.enter true ref :: (r.1 ++ (s.1 ++ [.leave true ref])), s.2)

/-- `ContentInfoMatches` (plane_partitioner.h 108-117). -/
def infoMatches (l : List BPoly) (c : List Info) : Bool :=
  l.all fun p =>
    match c[p.id]? with
    | none => false
    | some i => decide (i.border ≠ 0)

/-- The public `Run` (plane_partitioner.h 59-104); returns the calls that the visitor
receives. -/
def partition (v : IsInside) (drop : Fin 3) (posNormal : Bool) (init : List Info) (fuel : Nat) (path : List Bool) (l : List BPoly) :
    Option (List Visit) :=
  if !infoMatches l init then none
  else if !(v init).2 then some []
  else
    match searchFirst l with
    | none => (processLeaf v drop posNormal l (v init).1 init).map Prod.fst
    | some e =>
      let ref : PlaneRef := ⟨path, splitPlane e drop⟩
      match pushSides ref l with
      | none => none
      | some k =>
        match setPolygons k.1 init with
        | none => none
        | some c =>
          match partitionVec v drop posNormal init fuel (path ++ [false]) k.1 c with
          | none => none
          | some r =>
            match setPolygons k.2 r.2 with
            | none => none
            | some c =>
              (partitionVec v drop posNormal init fuel (path ++ [true]) k.2 c).map fun s =>
                .enter true ref :: (r.1 ++ (s.1 ++ [.leave true ref]))

end Walnut.Bsp
