/-
Model of the visitors that collect the output of a traversal: `ConnectingVisitor`
(connecting_visitor.h) and `CollectorVisitor` (bsp_visitor.h 238-318).

A pointer to a split plane is identified by the path of the node, as in Bsp/Partition; two
planes that exist at the same time have different paths.  A failed assertion is `none`.
-/
import Verif.Bsp.Partition

namespace Walnut.Bsp
open Walnut.Geom Walnut.Poly

/-- The pointer `split`, as a key of a map (connecting_visitor.h 79-95, bsp_visitor.h 271-281). -/
def SplitSide.ptr (s : SplitSide) : Option (List Bool) := s.split.map PlaneRef.path

/-! ### ConnectingVisitor -/

/-- `ConnectingVisitor::EdgeInfo` (connecting_visitor.h 224-231).  The deed stands for the edge
number `edge` of the accepted polygon number `poly`. -/
structure Entry where
  depth : Nat
  poly : Nat
  edge : Nat
deriving DecidableEq

/-- `ConnectingVisitor::NodeInfo` (connecting_visitor.h 234-237). -/
structure NodeInfo where
  temporary : Bool
  edges : List Entry

/-- `ConnectingVisitor::NodeMap` (connecting_visitor.h 238). -/
abbrev NodeMap := List (Option (List Bool) × NodeInfo)

/-- The members of `ConnectingVisitor` (connecting_visitor.h 241-249) without the free list of
vectors.  `calls` records the calls of `ConnectUnsorted`: the plane of the node that is left
and the edges, in the order in which they were collected (the code sorts them). -/
structure ConnState where
  nodes : NodeMap := []
  depths : List (Option (List Bool) × Nat) := [(none, 0)]
  polygons : List BPoly := []
  calls : List (PlaneRef × List Entry) := []

/-- `it->second.first_coincident_edges.emplace_back` (connecting_visitor.h 83-84). -/
def addEntry (k : Option (List Bool)) (x : Entry) (m : NodeMap) : NodeMap :=
  m.map fun e => if e.1 = k then (e.1, { e.2 with edges := e.2.edges ++ [x] }) else e

/-- `if (it->second.temporary) edge.…split = nullptr` (connecting_visitor.h 85-87, 91-93,
97-99). -/
def clearSplit (temporary : Bool) (s : SplitSide) : SplitSide := if temporary then { s with split := none } else s

/-- The body of the loop of `Accept` (connecting_visitor.h 78-99). -/
def acceptEdge (depths : List (Option (List Bool) × Nat)) (poly i : Nat) (e : Edge EdgeInfo) (m : NodeMap) : Option (NodeMap × Edge EdgeInfo) := do
  let n1 ← m.lookup e.data.first.ptr
  let depth ← depths.lookup e.data.createdBy.ptr
  let m' := addEntry e.data.first.ptr ⟨depth, poly, i⟩ m
  let n2 ← m'.lookup e.data.vertexLast.ptr
  let n3 ← m'.lookup e.data.edgeLast.ptr
  let data : EdgeInfo := ⟨e.data.createdBy, clearSplit n1.temporary e.data.first, clearSplit n2.temporary e.data.vertexLast, clearSplit n3.temporary e.data.edgeLast⟩
  return (m', { e with data := data })

/-- The loop of `Accept` (connecting_visitor.h 77-100). -/
def acceptEdges (depths : List (Option (List Bool) × Nat)) (poly : Nat) : Nat → List (Edge EdgeInfo) → NodeMap → Option (NodeMap × List (Edge EdgeInfo))
  | _, [], m => some (m, [])
  | i, e :: l, m => do
    let r ← acceptEdge depths poly i e m
    let r' ← acceptEdges depths poly (i + 1) l r.1
    return (r'.1, r.2 :: r'.2)

/-- `Accept` (connecting_visitor.h 76-102), `EnterInteriorNode` (104-121) and
`LeaveInteriorNode` (162-220).  In `LeaveInteriorNode` the call of the connector is recorded;
what the connector does and the merging of polygons afterwards are not part of this model
(see Conn/Model and Poly/Merge): they change the polygons, but neither of the maps, and the
deeds follow the edges (C45). -/
def ConnState.step (s : ConnState) : Visit → Option ConnState
  | .enter fromPartitioner r =>
    let depths := if (s.depths.lookup (some r.path)).isSome then s.depths else (some r.path, s.nodes.length + 1) :: s.depths
    if (s.nodes.lookup (some r.path)).isSome then none
    else some { s with depths, nodes := (some r.path, ⟨fromPartitioner, []⟩) :: s.nodes }
  | .leave _ r =>
    match s.nodes.lookup (some r.path) with
    | none => none
    | some n => some { s with calls := s.calls ++ [(r, n.edges)], nodes := s.nodes.filter (fun e => e.1 ≠ some r.path),
                               depths := s.depths.filter (fun e => e.1 ≠ some r.path) }
  | .leaf => some s
  | .accept p => (acceptEdges s.depths s.polygons.length 0 p.poly.edges s.nodes).map fun r =>
      { s with nodes := r.1, polygons := s.polygons ++ [{ p with poly := { p.poly with edges := r.2 } }] }

/-- The calls that a `ConnectingVisitor` receives (connecting_visitor.h 76-214). -/
def connRun : List Visit → ConnState → Option ConnState
  | [], s => some s
  | v :: l, s => (s.step v).bind (connRun l)

/-! ### CollectorVisitor -/

/-- A pointer in a collected polygon: to the plane of a node, or to an element of
`split_planes_` (bsp_visitor.h 271-283). -/
inductive OutPtr where
  | node (r : PlaneRef)
  | copy (index : Nat)

/-- The members of `BSPEdgeInfo` in a collected polygon (bsp_edge_info.h 67-86). -/
structure OutInfo where
  createdBy : Option PlaneRef
  first : Option OutPtr
  vertexLast : Option OutPtr
  edgeLast : Option OutPtr

/-- The members of `CollectorVisitor` (bsp_visitor.h 314-317). -/
structure CollState where
  map : List (Option (List Bool) × Nat) := []
  planes : List HS3 := []
  polygons : List (BPoly × List OutInfo) := []

/-- One of the replacements in `Accept` (bsp_visitor.h 271-284). -/
def CollState.redirect (s : CollState) (p : SplitSide) : Option OutPtr :=
  match s.map.lookup p.ptr with
  | some k => some (.copy k)
  | none => p.split.map .node

/-- `Accept` (bsp_visitor.h 268-287), `EnterInteriorNode` (291-301) and `LeaveInteriorNode`
(303-311).  The polygon is stored as it was, and beside it the pointers that its edges have
afterwards. -/
def CollState.step (s : CollState) : Visit → Option CollState
  | .enter fromPartitioner r =>
    if fromPartitioner then
      if (s.map.lookup (some r.path)).isSome then none
      else some { s with planes := s.planes ++ [r.plane], map := (some r.path, s.planes.length) :: s.map }
    else some s
  | .leave fromPartitioner r =>
    if fromPartitioner then
      if (s.map.lookup (some r.path)).isSome then some { s with map := s.map.filter fun e => e.1 ≠ some r.path } else none
    else some s
  | .leaf => some s
  | .accept p => some { s with polygons := s.polygons ++ [(p, p.poly.edges.map fun e =>
      ⟨e.data.createdBy.split, s.redirect e.data.first, s.redirect e.data.vertexLast, s.redirect e.data.edgeLast⟩)] }

/-- The calls that a `CollectorVisitor` receives (bsp_visitor.h 268-300). -/
def collRun : List Visit → CollState → Option CollState
  | [], s => some s
  | v :: l, s => (s.step v).bind (collRun l)

end Walnut.Bsp
