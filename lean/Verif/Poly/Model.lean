/-
Model of `ConvexPolygon` (convex_polygon.h), its edges (convex_polygon_edge.h) and
its split information (convex_polygon_split_info.h).

An edge carries `data`, the members of the edge's parent class (`EdgeParent`).  What
the parent class does when an edge is derived from another one is an argument
(`EdgeOps`).  `none` is a failed assertion, an access outside of `edges_` or another
undefined behaviour.  Indices are natural numbers: overflow of `size_t` needs more
than `2 ^ 63` vertices and is not modelled.  The drop dimension is a `Fin 3`; the
value `-1` of the default constructor occurs only together with an empty list of edges
and is not modelled.
-/
import Verif.Geom.Model
import Verif.Poly.Ranges

namespace Walnut.Poly
open Walnut.Geom

/-- `ConvexPolygonEdge` (convex_polygon_edge.h 22-216): the source vertex, the line
towards the next vertex and the members of the parent class. -/
structure Edge (D : Type) where
  vertex : HP3
  line : PL
  data : D

/-- The constructors of the parent class used to derive an edge: with a new source
vertex, with a new line, with both (edge_info_root.h 27-33 for the default class). -/
structure EdgeOps (D : Type) where
  atVertex : D → HP3 → D
  atLine : D → PL → D
  atBoth : D → HP3 → PL → D

/-- `ConvexPolygon` (convex_polygon.h 827-834). -/
structure Polygon (D : Type) where
  plane : HS3
  drop : Fin 3
  edges : List (Edge D)

variable {D : Type}

namespace Polygon

/-- `vertex_count` (convex_polygon.h 133-135). -/
def count (P : Polygon D) : Nat := P.edges.length

/-- `vertex(i)` (convex_polygon.h 137-139), for an index in range.  The value for
other indices is not used: the searches only pass indices below `vertex_count()`. -/
def vertexD (P : Polygon D) (i : Nat) : HP3 :=
  match P.edges[i]? with
  | some e => e.vertex
  | none => ⟨⟨0, 0, 0⟩, 0⟩

/-- `edge(i).line()`, for an index in range (convex_polygon_edge.h 133-135). -/
def lineD (P : Polygon D) (i : Nat) : PL :=
  match P.edges[i]? with
  | some e => e.line
  | none => ⟨⟨0, 0, 0⟩, ⟨0, 0, 0⟩⟩

/-- `half_space2.Compare(vertex(i).DropDimension(drop_dimension))`. -/
def cmpAt (P : Polygon D) (h : HS2) (i : Nat) : Int := h.compareHomo ((P.vertexD i).dropDimension P.drop)

/-- `edge(i).line().d().DropDimension(drop_dimension).Dot(v)` (convex_polygon.h 962 and 992). -/
def dirAt (P : Polygon D) (v : V2) (i : Nat) : Int := ((P.lineD i).d.dropDimension P.drop).dot v

/-- The comparison of the distances of vertex `i` and vertex 0 along `v_flipped`
(convex_polygon.h 905-934). -/
def farther (P : Polygon D) (v : V2) (flip : Bool) (i : Nat) : Bool :=
  let v := if flip then v.neg else v
  let d0 := ((P.vertexD 0).v.dropDimension P.drop).dot v
  let w0 := (P.vertexD 0).w
  let d := ((P.vertexD i).v.dropDimension P.drop).dot v
  let w := (P.vertexD i).w
  lessThan (hasDifferentSign w0 w) (d0 * w) (d * w0)

/-- `FindSplitRangesLinear` (convex_polygon.h 1285-1450). -/
def findLinear (P : Polygon D) (h : HS2) : Option Ranges := linear P.count (P.cmpAt h)

/-- `FindSplitRangesBisect` (convex_polygon.h 1202-1282).  The assertions on the
normal and on the half-space are `none`. -/
def findBisect (P : Polygon D) (h : HS2) : Option Ranges :=
  if P.plane.n.comp P.drop = 0 then none
  else if h.n.isZero then none
  else if P.count = 0 then none
  else bisect P.count (P.cmpAt h) (P.cmpAt h.neg) (P.dirAt h.n) (P.dirAt h.neg.n) (P.farther h.n)

/-- `GetExtremeIndexBisect(Vector2)` (convex_polygon.h 942-970): `inl ()` is
`static_cast<size_t>(-1)`. -/
def extreme2 (P : Polygon D) (v : V2) : Option (Unit ⊕ Nat) :=
  if v.isZero then some (.inl ())
  else if P.count = 0 then none
  else (extremeIndex P.count (P.dirAt v) (P.farther v)).map .inr

/-- `GetExtremeIndexBisect(Vector3)` (convex_polygon.h 289-301). -/
def extreme (P : Polygon D) (v : V3) : Option (Unit ⊕ Nat) :=
  let nd := P.plane.n.comp P.drop
  let vp := (v.dropDimension P.drop).scale nd
  let np := (P.plane.n.dropDimension P.drop).scale (v.comp P.drop)
  P.extreme2 ((vp.sub np).scale (absMult nd))

end Polygon

/-- `ConvexPolygonSplitInfo` (convex_polygon_split_info.h 72-147).  `shared1` is
`new_shared_point1` when `has_new_shared_point1`. -/
structure SplitInfo where
  ranges : Ranges
  newLine : PL
  shared1 : Option HP3
  shared2 : Option HP3
deriving DecidableEq

namespace SplitInfo

/-- `ConvexPolygonSplitInfo::IsValid` (convex_polygon_split_info.h 73-91). -/
def isValid (s : SplitInfo) (n : Nat) : Bool :=
  s.ranges.isValid n &&
  (if s.ranges.emitNeg && s.ranges.emitPos then
    (decide (s.ranges.neg.2 % n = s.ranges.pos.1 % n) == s.shared2.isSome) &&
    (decide (s.ranges.pos.2 % n = s.ranges.neg.1 % n) == s.shared1.isSome)
   else !s.shared1.isSome && !s.shared2.isSome)

/-- `ShouldEmitOnPlane` (convex_polygon_split_info.h 101-104). -/
def emitOn (s : SplitInfo) : Bool := !s.ranges.emitNeg && !s.ranges.emitPos

end SplitInfo

namespace Polygon

/-- The intersection points of `GetSplitInfo` (convex_polygon.h 1175-1197). -/
def splitPoints (P : Polygon D) (h : HS3) (line : PL) (r : Ranges) : Option SplitInfo :=
  let n := P.count
  let s2 : Option HP3 :=
    if r.neg.2 % n = r.pos.1 % n then some ((P.lineD ((r.neg.2 + n - 1) % n)).intersect h) else none
  let s1 : Option HP3 :=
    if r.pos.2 % n = r.neg.1 % n then some ((P.lineD ((r.pos.2 + n - 1) % n)).intersect h) else none
  let s : SplitInfo := ⟨r, line, s1, s2⟩
  if s.isValid n then some s else none

/-- `GetSplitInfo` (convex_polygon.h 1115-1199). -/
def splitInfo (P : Polygon D) (h : HS3) : Option SplitInfo :=
  let flip := absMult (P.plane.n.comp P.drop)
  let line := PL.ofPlanes P.plane h
  if line.isValid = false then
    let c := Geom.cmp (P.plane.d * h.n.comp P.drop) (h.d * P.plane.n.comp P.drop) * flip
    if c < 0 then some ⟨⟨(0, P.count), (0, 0)⟩, line, none, none⟩
    else if 0 < c then some ⟨⟨(0, 0), (0, P.count)⟩, line, none, none⟩
    else some ⟨⟨(0, 0), (0, 0)⟩, line, none, none⟩
  else
    let l2 := line.project2D P.drop
    let h2 : HS2 := ⟨l2.n.scale (-flip), l2.d * -flip⟩
    match (if P.count < 10 then P.findLinear h2 else P.findBisect h2) with
    | none => none
    | some r =>
      if r.isValid P.count = false then none
      else if !r.emitPos || !r.emitNeg then some ⟨r, line, none, none⟩
      else P.splitPoints h line r

/-- `for (i = range.first; i < range.second; ++i) push_back(edges_[i % n])` (convex_polygon.h 1067, 1078, 1090 and 1101). -/
def copyEdges (P : Polygon D) (first : Nat) : Nat → Option (List (Edge D))
  | 0 => some []
  | k + 1 =>
    match P.edges[first % P.count]?, copyEdges P (first + 1) k with
    | some e, some l => some (e :: l)
    | _, _ => none

/-- The edges starting at the vertex after the negative range, for the negative and
for the positive child (convex_polygon.h 1070-1087). -/
def afterNeg (ops : EdgeOps D) (P : Polygon D) (s : SplitInfo) (neg : List (Edge D)) : Option (Edge D × Edge D) :=
  match s.shared2 with
  | none => (P.edges[s.ranges.neg.2 % P.count]?).map fun e =>
      (⟨e.vertex, s.newLine, ops.atLine e.data s.newLine⟩, e)
  | some p => neg.getLast?.map fun e =>
      (⟨p, s.newLine, ops.atBoth e.data p s.newLine⟩, ⟨p, e.line, ops.atVertex e.data p⟩)

/-- The edges starting at the vertex after the positive range, for the negative and
for the positive child (convex_polygon.h 1092-1110). -/
def afterPos (ops : EdgeOps D) (P : Polygon D) (s : SplitInfo) (pos : List (Edge D)) : Option (Edge D × Edge D) :=
  match s.shared1 with
  | none => (P.edges[s.ranges.pos.2 % P.count]?).map fun e =>
      (e, ⟨e.vertex, s.newLine.neg, ops.atLine e.data s.newLine.neg⟩)
  | some p => pos.getLast?.map fun e =>
      (⟨p, e.line, ops.atVertex e.data p⟩, ⟨p, s.newLine.neg, ops.atBoth e.data p s.newLine.neg⟩)

/-- `FillInSplitChildren` (convex_polygon.h 1045-1112).  The parent is not one of the
children.  Moving the parent's edges instead of copying them does not change the
children: every edge is used after it was moved only in the list it was moved to. -/
def splitChildren (ops : EdgeOps D) (P : Polygon D) (s : SplitInfo) : Option (Polygon D × Polygon D) :=
  let r := s.ranges
  if !r.emitNeg || !r.emitPos then none
  else if P.count < r.neg.2 - r.neg.1 then none
  else
    match P.copyEdges r.neg.1 (r.neg.2 - r.neg.1), P.copyEdges r.pos.1 (r.pos.2 - r.pos.1) with
    | some neg, some pos =>
      match P.afterNeg ops s neg with
      | none => none
      | some (n2, p2) =>
        match P.afterPos ops s (p2 :: pos) with
        | none => none
        | some (n1, p1) =>
          some (⟨P.plane, P.drop, neg ++ [n2] ++ [n1]⟩, ⟨P.plane, P.drop, p2 :: pos ++ [p1]⟩)
    | _, _ => none

end Polygon

end Walnut.Poly
