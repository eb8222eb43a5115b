/-
Model of the nodes of the binary space partition: split_side.h, bsp_edge_info.h,
bsp_polygon.h and bsp_node.h.

A pointer to the split plane of a node is the node's path from the root (`false` for
the negative child) together with the plane it points to; a node's plane does not change
while pointers to it are in use.  `none` is a failed assertion, an access outside of a
vector, a null pointer dereference or another undefined behaviour.  `has_interior_polygons`
and `has_border_polygons` are natural numbers and `pwn` is an integer: they count
polygons, so overflow needs more than `2 ^ 63` of them and is not modelled.
-/
import Verif.Bsp.Filter
import Verif.Poly.Track

namespace Walnut.Bsp
open Walnut.Geom Walnut.Poly

/-- `const HalfSpace3*` pointing to the split plane of a node. -/
structure PlaneRef where
  path : List Bool
  plane : HS3

/-- `SplitSide` (split_side.h 11-22). -/
structure SplitSide where
  split : Option PlaneRef := none
  pos : Bool := false

/-- The members of `BSPEdgeInfo` (bsp_edge_info.h 67-86). -/
structure EdgeInfo where
  createdBy : SplitSide := {}
  first : SplitSide := {}
  vertexLast : SplitSide := {}
  edgeLast : SplitSide := {}

/-- The constructors deriving an edge (bsp_edge_info.h 27-51). -/
def bspOps : EdgeOps EdgeInfo where
  atVertex d _ := ⟨d.createdBy, d.first, d.edgeLast, d.edgeLast⟩
  atLine d _ := { vertexLast := d.vertexLast }
  atBoth d _ _ := { vertexLast := d.edgeLast }

/-- `BSPPolygon` (bsp_polygon.h 251-258).  `tracker` is present if the parent class is
`AABBConvexPolygon` and absent if it is `ConvexPolygon`. -/
structure BPoly where
  poly : Polygon EdgeInfo
  tracker : Option Tracker
  id : Nat
  onNode : SplitSide

/-- `GetSplitInfo` of the parent class (convex_polygon.h 1115-1199 or
aabb_convex_polygon.h 163-186). -/
def BPoly.splitInfo (p : BPoly) (g : HS3) : Option SplitInfo :=
  match p.tracker with
  | none => p.poly.splitInfo g
  | some T => splitInfoBox p.poly T g

/-- The trackers of the children (aabb_convex_polygon.h 250-268). -/
def BPoly.splitTrackers (p : BPoly) (r : Ranges) (N Q : Polygon EdgeInfo) : Option (Option Tracker × Option Tracker) :=
  match p.tracker with
  | none => some (none, none)
  | some T => (T.split p.poly.count N Q r).map fun t => (some t.1, some t.2)

/-- `CreateSplitChildren` (bsp_polygon.h 111-127 and 260-274). -/
def BPoly.splitChildren (p : BPoly) (s : SplitInfo) : Option (BPoly × BPoly) :=
  match p.poly.splitChildren bspOps s with
  | none => none
  | some (N, Q) =>
    (p.splitTrackers s.ranges N Q).map fun t => (⟨N, t.1, p.id, p.onNode⟩, ⟨Q, t.2, p.id, p.onNode⟩)

/-- What `SetBoundaryAngles` does to an edge in its range (bsp_polygon.h 159-172). -/
def EdgeInfo.coincide (onNode c : SplitSide) (d : EdgeInfo) : EdgeInfo :=
  { d with
    first := if d.first.split.isNone then (if onNode.split.isSome then onNode else c) else d.first
    edgeLast := c
    vertexLast := c }

/-- Changes the parent class of an edge.  The assignments to members of `BSPEdgeInfo`, bsp_edge_info.h 67-86. -/
def mapData (f : EdgeInfo → EdgeInfo) (e : Edge EdgeInfo) : Edge EdgeInfo := { e with data := f e.data }

/-- The loop of `SetBoundaryAngles` over `count` edges from `first` on
(bsp_polygon.h 158-173). -/
def coincideLoop (onNode c : SplitSide) (n : Nat) (l : List (Edge EdgeInfo)) (first count : Nat) : List (Edge EdgeInfo) :=
  (List.range' first count).foldl (fun l pos => l.modify (pos % n) (mapData (EdgeInfo.coincide onNode c))) l

/-- `SetBoundaryAngles(coincident_info, coincident_begin, coincident_end)`
(bsp_polygon.h 148-177); the caller ensures `first ≤ last` and a polygon with vertices. -/
def BPoly.setBoundary (p : BPoly) (c : SplitSide) (first last : Nat) : BPoly :=
  if first = last then p
  else
    let l := coincideLoop p.onNode c p.poly.count p.poly.edges first (last - 1 - first)
    { p with poly := { p.poly with
        edges := l.modify ((last - 1) % p.poly.count) (mapData fun d => { d with vertexLast := c }) } }

/-- `SetBoundaryAngles(coincident_info, exclude_range)` (bsp_polygon.h 181-185). -/
def BPoly.setBoundaryExcept (p : BPoly) (c : SplitSide) (exclude : Nat × Nat) : BPoly :=
  p.setBoundary c exclude.2 (p.poly.count + exclude.1)

/-- `bsp_edge_info(i).edge_created_by = c` (bsp_polygon.h 240 and 248). -/
def BPoly.setCreated (p : BPoly) (c : SplitSide) (i : Nat) : BPoly :=
  { p with poly := { p.poly with edges := p.poly.edges.modify i (mapData fun d => { d with createdBy := c }) } }

/-- `SetChildBoundaryAngles` (bsp_polygon.h 227-249). -/
def setChildBoundary (N Q : BPoly) (ref : PlaneRef) : Option (BPoly × BPoly) :=
  if N.poly.count ≤ 2 ∨ Q.poly.count ≤ 2 then none
  else
    let N := (N.setBoundary ⟨some ref, false⟩ (N.poly.count - 2) N.poly.count).setCreated ⟨some ref, false⟩ (N.poly.count - 2)
    let Q := (Q.setBoundary ⟨some ref, true⟩ (Q.poly.count - 1) (Q.poly.count + 1)).setCreated ⟨some ref, true⟩
      (Q.poly.count - 1)
    some (N, Q)

/-- `contents_`, `border_contents_` and `content_info_by_id_` (bsp_node.h 288-311). -/
structure NodeData where
  contents : List BPoly := []
  border : List BPoly := []
  info : List Info := []

/-- `BSPNode`: a node is a leaf if and only if `split_` is not valid, and then it has no
children (bsp_node.h 118-120, 303-309). -/
inductive Node where
  | leaf (d : NodeData)
  | inner (d : NodeData) (g : HS3) (neg pos : Node)

/-- The vectors of a node (bsp_node.h 294-312). -/
def Node.data : Node → NodeData
  | .leaf d => d
  | .inner d _ _ _ => d

/-- Replaces the vectors of a node (bsp_node.h 294-312). -/
def Node.setData : Node → NodeData → Node
  | .leaf _, d => .leaf d
  | .inner _ g n p, d => .inner d g n p

/-- `content_info_by_id_[id]` is changed; an id outside of the vector is `none` (bsp_node.h 521, 553 and 616). -/
def bump (info : List Info) (id : Nat) (f : Info → Info) : Option (List Info) :=
  if id < info.length then some (info.modify id f) else none

/-- A polygon is appended to `contents_` and counted (bsp_node.h 616-632). -/
def NodeData.addInterior (d : NodeData) (p : BPoly) : Option NodeData :=
  (bump d.info p.id fun i => { i with interior := i.interior + 1 }).map fun info =>
    { d with contents := d.contents ++ [p], info := info }

/-- A polygon is appended to `border_contents_` and counted (bsp_node.h 553-567 and 586-589). -/
def NodeData.addBorder (d : NodeData) (p : BPoly) : Option NodeData :=
  (bump d.info p.id fun i => { i with border := i.border + 1 }).map fun info =>
    { d with border := d.border ++ [p], info := info }

/-- Both children's vectors, changed independently.  Plumbing of the model for bsp_node.h 540-660, where `negative_child_`
and `positive_child_` are changed. -/
def both (n p : Option NodeData) : Option (NodeData × NodeData) :=
  match n, p with
  | some n, some p => some (n, p)
  | _, _ => none

/-- Whether the polygon on the split plane goes to the positive child
(bsp_node.h 636-641): the signs of the normals' components in the drop dimension differ. -/
def onPlanePos (p : BPoly) (g : HS3) : Bool :=
  hasDifferentSign (p.poly.plane.n.comp p.poly.drop) (g.n.comp p.poly.drop)

/-- The outcome of comparing a polygon with a split plane: pieces on both sides, the
polygon with updated boundary angles on one side, or a polygon on the plane.  The cases of bsp_node.h 546-591. -/
inductive Routed where
  | both (N Q : BPoly)
  | neg (N : BPoly)
  | pos (Q : BPoly)
  | on

/-- The part that the loops of `PushContentsToChildren` (bsp_node.h 606-635) and
`PushBorderContentsToChildren` (bsp_node.h 545-570) have in common.  Only the first one
asserts that the split information is valid (`check`). -/
def route (check : Bool) (ref : PlaneRef) (p : BPoly) : Option Routed :=
  if p.poly.count = 0 then none
  else
    match p.splitInfo ref.plane with
    | none => none
    | some s =>
      if check && !s.isValid p.poly.count then none
      else if s.ranges.emitNeg then
        if s.ranges.emitPos then
          match p.splitChildren s with
          | none => none
          | some c => (setChildBoundary c.1 c.2 ref).map fun c => .both c.1 c.2
        else some (.neg (p.setBoundaryExcept ⟨some ref, false⟩ s.ranges.neg))
      else if s.ranges.emitPos then some (.pos (p.setBoundaryExcept ⟨some ref, true⟩ s.ranges.pos))
      else some .on

/-- The polygon on the split plane with its boundary angles (bsp_node.h 642-655). -/
def onPlane (ref : PlaneRef) (p : BPoly) : BPoly :=
  let c : SplitSide := ⟨some ref, onPlanePos p ref.plane⟩
  { p.setBoundary c 0 (p.poly.count + 1) with onNode := c }

/-- One round of the loop of `PushContentsToChildren` (bsp_node.h 605-657) for the node
whose split plane is `ref`. -/
def pushContent (ref : PlaneRef) (p : BPoly) (k : NodeData × NodeData) : Option (NodeData × NodeData) :=
  match route true ref p with
  | none => none
  | some (.both N Q) => both (k.1.addInterior N) (k.2.addInterior Q)
  | some (.neg N) => both (k.1.addInterior N) (some k.2)
  | some (.pos Q) => both (some k.1) (k.2.addInterior Q)
  | some .on =>
    if onPlanePos p ref.plane then both (some k.1) (k.2.addBorder (onPlane ref p))
    else both (k.1.addBorder (onPlane ref p)) (some k.2)

/-- One round of the loop of `PushBorderContentsToChildren` (bsp_node.h 544-593).  A
polygon on the split plane fails an assertion. -/
def pushBorder (ref : PlaneRef) (p : BPoly) (k : NodeData × NodeData) : Option (NodeData × NodeData) :=
  match route false ref p with
  | none => none
  | some (.both N Q) => both (k.1.addBorder N) (k.2.addBorder Q)
  | some (.neg N) => both (k.1.addBorder N) (some k.2)
  | some (.pos Q) => both (some k.1) (k.2.addBorder Q)
  | some .on => none

/-- The loops over the polygons (bsp_node.h 544 and 605). -/
def pushAll (f : BPoly → NodeData × NodeData → Option (NodeData × NodeData)) :
    List BPoly → NodeData × NodeData → Option (NodeData × NodeData)
  | [], k => some k
  | p :: l, k =>
    match f p k with
    | none => none
    | some k => pushAll f l k

/-! ### Winding numbers -/

/-- `RXYCompareBivector(Vector3, SplitSide)`; a null plane is `none`
(r_transformation.cpp 18-20). -/
def compareSide (u : V3) (s : SplitSide) : Option Int := s.split.map fun r => rxyCompareBivector u r.plane.n * (if s.pos then -1 else 1)

/-- `GetPWNEffectAtVertex` (bsp_node.h 421-498). -/
def pwnEffect (g : HS3) (edgeCmp : Int) (edgeLast : SplitSide) (v : Edge EdgeInfo) : Option (Int × Bool) :=
  match compareSide g.n v.data.vertexLast, v.data.vertexLast.split, edgeLast.split with
  | some vertexCmp, some vs, some es =>
    if edgeCmp + vertexCmp ≠ 0 then some (0, false)
    else if ¬ ((edgeCmp < 0 ∧ 0 < vertexCmp) ∨ (0 < edgeCmp ∧ vertexCmp < 0)) then none
    else
      let mult : Int := if v.data.vertexLast.pos != edgeLast.pos then -1 else 1
      let vertexToEdge := rxyCompareBivector vs.plane.n es.plane.n * mult
      if vertexToEdge = 0 then none
      else
        let side := vertexCmp * vertexToEdge
        if ¬ (side = 1 ∨ side = -1) then none
        else if ¬ (vertexToEdge = 1 ∨ vertexToEdge = -1) then none
        else if side * g.compareHomo v.vertex ≥ 0 then
          let minMax := g.n.dot (vs.plane.n.cross es.plane.n)
          if (decide (minMax < 0) != decide (vertexCmp < 0)) != decide (mult < 0) then some (0, false)
          else some (vertexToEdge, decide (side = -1))
        else some (0, false)
  | _, _, _ => none

/-- `push_to_child->content_info_by_id_[id].pwn += delta` (bsp_node.h 517-523 and 529-535). -/
def addPwn (k : List Info × List Info) (id : Nat) (effect : Int × Bool) (sign : Int) : Option (List Info × List Info) :=
  if effect.1 = 0 then some k
  else if effect.2 then (bump k.2 id fun i => { i with pwn := i.pwn + sign * effect.1 }).map fun x => (k.1, x)
  else (bump k.1 id fun i => { i with pwn := i.pwn + sign * effect.1 }).map fun x => (x, k.2)

/-- The body of the inner loop of `PushContentPWNToChildren` (bsp_node.h 505-535): the
edge `e` and the one after it. -/
def pushEdgePwn (g : HS3) (id : Nat) (e next : Edge EdgeInfo) (k : List Info × List Info) : Option (List Info × List Info) :=
  match compareSide g.n e.data.edgeLast with
  | none => some k
  | some c =>
    if c = 0 then some k
    else
      match pwnEffect g c e.data.edgeLast e with
      | none => none
      | some x =>
        match addPwn k id x 1 with
        | none => none
        | some k =>
          match pwnEffect g c e.data.edgeLast next with
          | none => none
          | some y => addPwn k id y (-1)

/-- The inner loop: the edges with their successors, the last one with `first` (bsp_node.h 504-536). -/
def pushPolyPwn (g : HS3) (id : Nat) (first : Edge EdgeInfo) : List (Edge EdgeInfo) → List Info × List Info → Option (List Info × List Info)
  | [], k => some k
  | e :: l, k =>
    match pushEdgePwn g id e (l.headD first) k with
    | none => none
    | some k => pushPolyPwn g id first l k

/-- `PushContentPWNToChildren` (bsp_node.h 500-538). -/
def pushPwn (g : HS3) : List BPoly → List Info × List Info → Option (List Info × List Info)
  | [], k => some k
  | p :: l, k =>
    match p.poly.edges with
    | [] => pushPwn g l k
    | e :: t =>
      match pushPolyPwn g p.id e (e :: t) k with
      | none => none
      | some k => pushPwn g l k

/-! ### Nodes -/

/-- `PushContentsToChildren` of an interior node (bsp_node.h 598-662) on the node's
vectors and those of its children. -/
def pushChildren (ref : PlaneRef) (d : NodeData) (k : NodeData × NodeData) : Option (NodeData × NodeData) :=
  match pushPwn ref.plane d.contents (k.1.info, k.2.info) with
  | none => none
  | some i =>
    match pushAll (pushContent ref) d.contents ({ k.1 with info := i.1 }, { k.2 with info := i.2 }) with
    | none => none
    | some k => pushAll (pushBorder ref) d.border k

/-- `contents_.clear(); border_contents_.clear();` (bsp_node.h 594 and 658) -/
def NodeData.clear (d : NodeData) : NodeData := { d with contents := [], border := [] }

/-- `SetPWN` on a new node (bsp_node.h 260-269). -/
def setPwn (info : List Info) : NodeData := { info := info.map fun i => { pwn := i.pwn } }

/-- `Split(half_space)` on the leaf at `path` (bsp_node.h 46-50, 236-245). -/
def split (path : List Bool) (d : NodeData) (g : HS3) : Option Node :=
  if g.n.isZero then none
  else
    (pushChildren ⟨path, g⟩ d (setPwn d.info, setPwn d.info)).map fun k => .inner d.clear g (.leaf k.1) (.leaf k.2)

/-- `PushContentsToLeaves` (bsp_node.h 664-674) on a node whose vectors are `d`. -/
def Node.pushDown : Node → List Bool → NodeData → Option Node
  | .leaf _, _, d => some (.leaf d)
  | .inner _ g n p, path, d =>
    if d.contents.isEmpty && d.border.isEmpty then some (.inner d g n p)
    else
      match pushChildren ⟨path, g⟩ d (n.data, p.data) with
      | none => none
      | some k =>
        match n.pushDown (path ++ [false]) k.1, p.pushDown (path ++ [true]) k.2 with
        | some n, some p => some (.inner d.clear g n p)
        | _, _ => none

/-- `PushContentsToLeaves` (bsp_node.h 664-674). -/
def Node.pushToLeaves (t : Node) (path : List Bool) : Option Node := t.pushDown path t.data

/-- `AddRootContent` (bsp_node.h 178-193): the edges get fresh `BSPEdgeInfo`s, the
tracker is built if the output polygons have one. -/
def NodeData.addRoot (d : NodeData) (aabb : Bool) (id : Nat) (P : Polygon Unit) : Option NodeData :=
  let poly : Polygon EdgeInfo := ⟨P.plane, P.drop, P.edges.map fun e => ⟨e.vertex, e.line, {}⟩⟩
  match (if aabb then (Tracker.build poly).map some else some none) with
  | none => none
  | some T =>
    let info := d.info ++ List.replicate (id + 1 - d.info.length) {}
    some { d with
      contents := d.contents ++ [⟨poly, T, id, {}⟩]
      info := info.modify id fun i => { i with interior := i.interior + 1 } }

/-- `root.AddRootContent` (bsp_node.h 178-193). -/
def Node.addRoot (t : Node) (aabb : Bool) (id : Nat) (P : Polygon Unit) : Option Node :=
  (t.data.addRoot aabb id P).map t.setData

/-- `AddContents` (bsp_tree.h 40-56); `AddContent` (29-33) is the case of one polygon. -/
def Node.addContents (t : Node) (aabb : Bool) (id : Nat) : List (Polygon Unit) → Option Node
  | [] => t.pushToLeaves []
  | P :: l =>
    match t.addRoot aabb id P with
    | none => none
    | some t => t.addContents aabb id l

/-- `Split` called on the leaf reached by a path from the node at `done`; `none` if the
path does not lead to a leaf (bsp_node.h 46-50). -/
def Node.splitAt : Node → List Bool → List Bool → HS3 → Option Node
  | .leaf d, done, [], g => split done d g
  | .inner d h n p, done, false :: path, g => (n.splitAt (done ++ [false]) path g).map fun n => .inner d h n p
  | .inner d h n p, done, true :: path, g => (p.splitAt (done ++ [true]) path g).map fun p => .inner d h n p
  | _, _, _, _ => none

/-- `PushContentsToChildren` called on the interior node reached by a path from the node at
`done`; `none` if the path leads to no node.  On a leaf it does nothing (bsp_node.h 599-660). -/
def Node.pushAt : Node → List Bool → List Bool → Option Node
  | .leaf d, _, [] => some (.leaf d)
  | .inner d g n p, done, [] =>
    (pushChildren ⟨done, g⟩ d (n.data, p.data)).map fun k => .inner d.clear g (n.setData k.1) (p.setData k.2)
  | .inner d h n p, done, false :: path => (n.pushAt (done ++ [false]) path).map fun n => .inner d h n p
  | .inner d h n p, done, true :: path => (p.pushAt (done ++ [true]) path).map fun p => .inner d h n p
  | _, _, _ => none

/-- `GetContentInfoForId` (bsp_node.h 146-152). -/
def NodeData.infoFor (d : NodeData) (id : Nat) : Info := d.info.getD id {}

end Walnut.Bsp
