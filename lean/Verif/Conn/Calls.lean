/-
Model of the part of `ConnectingVisitor` (connecting_visitor.h) that connects the facets: the
accepted polygons as a net of half-edges, and the calls of the connector.  Which edges are in
which call is modelled in Bsp/Visitor.lean.
-/
import Verif.Conn.Plane
import Verif.Bsp.Visitor

namespace Walnut.Conn
open Walnut.Geom Walnut.Poly Walnut.Bsp

/-- The edges of all polygons: the number of the polygon and the index in it.  Names given by the model to the half-edges in
`polygons_`, connecting_visitor.h 242. -/
def edgeIds (l : List (Polygon EdgeInfo)) : List (Nat × Nat) :=
  l.zipIdx.flatMap fun x => (List.range x.1.count).map fun i => (x.2, i)

/-- The number of an edge.  A name given by the model to a half-edge in `polygons_`, connecting_visitor.h 242. -/
def edgeNum (l : List (Polygon EdgeInfo)) (j i : Nat) : Nat := (edgeIds l).idxOf (j, i)

/-- `polygons_` after all polygons were accepted (connecting_visitor.h 76-102), as
`ConnectedPolygon`s (connected_polygon.h 229-330), whose edges have no partners yet
(connected_polygon.h 27-44). -/
def netOf (l : List (Polygon EdgeInfo)) : Net where
  count := (edgeIds l).length
  vertex e := (((edgeIds l)[e]?).bind fun x => (l[x.1]?).map fun P => P.vertexD x.2).getD ⟨⟨0, 0, 0⟩, 0⟩
  line e := (((edgeIds l)[e]?).bind fun x => (l[x.1]?).map fun P => P.lineD x.2).getD ⟨⟨0, 0, 0⟩, ⟨0, 0, 0⟩⟩
  poly e := (((edgeIds l)[e]?).map Prod.fst).getD l.length
  partner _ := none
  cycle j := match l[j]? with
    | some P => (List.range P.count).map (edgeNum l j)
    | none => []
  normal j := match l[j]? with
    | some P => P.plane.n
    | none => ⟨0, 0, 0⟩

/-- `LeaveInteriorNode` up to the end of `ConnectUnsorted` (connecting_visitor.h 162-191).  `num`
gives the half-edges that the deeds in the entries refer to.  A drop dimension of -1 is used only
if there are edges.  Simplification: the merging of facets that follows (194-214) is left out. -/
def connectCall (S : SortFn) (o : HeapFns) (num : Nat → Nat → Nat) (c : PlaneRef × List Entry) (N : Net) : Option (Net × Nat) :=
  match c.1.plane.n.firstNonzeroDimension with
  | none => if c.2 = [] then some (N, 0) else none
  | some drop =>
    match sortEdges S N drop (c.2.map fun z => some (num z.poly z.edge)) with
    | none => none
    | some l => connectUnsorted S o drop N l

/-- The calls of the connector during a traversal, in order, and the number of errors.  The successive calls made at
connecting_visitor.h 162-214. -/
def connectCalls (S : SortFn) (o : HeapFns) (num : Nat → Nat → Nat) : List (PlaneRef × List Entry) → Net → Option (Net × Nat)
  | [], N => some (N, 0)
  | c :: cs, N =>
    match connectCall S o num c N with
    | none => none
    | some (N1, n) => (connectCalls S o num cs N1).map fun r => (r.1, n + r.2)

end Walnut.Conn
