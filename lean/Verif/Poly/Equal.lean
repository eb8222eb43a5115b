/-
Model of `ConvexPolygon::operator==`, `Invert`, `RotateEdges`, `SortVertices` and
`IsValidState` (convex_polygon.h).
-/
import Verif.Poly.Model

namespace Walnut.Poly
open Walnut.Geom

variable {D : Type}

/-- `vertex(i).DropDimension(d) == other.vertex(j).DropDimension(d)` (convex_polygon.h 847-858). -/
def sameVertex (P Q : Polygon D) (i j : Nat) : Bool :=
  ((P.vertexD i).dropDimension P.drop).eq ((Q.vertexD j).dropDimension P.drop)

/-- The search for `match_offset` (convex_polygon.h 847-857): the first `k` in `[k0, n)`
that matches; `none` when the end is reached. -/
def matchOffset (P Q : Polygon D) (k : Nat) : Nat → Option Nat
  | 0 => none
  | m + 1 => if sameVertex P Q 0 k then some k else matchOffset P Q (k + 1) m

/-- The parent class of edge `i` (convex_polygon.h 860-862). -/
def dataAt (P : Polygon D) (i : Nat) : Option D := (P.edges[i]?).map (·.data)

/-- The second loop of `operator==` (convex_polygon.h 858-868): `deq` is `==` of the
edge parent class. -/
def matchRest (deq : D → D → Bool) (P Q : Polygon D) (i j : Nat) : Nat → Option Bool
  | 0 => some true
  | m + 1 =>
    if !sameVertex P Q i (j % P.count) then some false
    else
      match dataAt P i, dataAt Q (j % P.count) with
      | some a, some b => if deq a b then matchRest deq P Q (i + 1) (j + 1) m else some false
      | _, _ => none

/-- `operator==` (convex_polygon.h 836-868). -/
def Polygon.eq (deq : D → D → Bool) (P Q : Polygon D) : Option Bool :=
  match P.plane.eq Q.plane with
  | none => none
  | some false => some false
  | some true =>
    if P.count ≠ Q.count then some false
    else
      match matchOffset P Q 0 P.count with
      | none => some false
      | some k => matchRest deq P Q 1 (k + 1) (P.count - 1)

/-- `swap(i->vertex_, j->vertex_)`; the indices are in range (convex_polygon.h 802-803). -/
def swapVertex (l : List (Edge D)) (i j : Nat) : List (Edge D) :=
  match l[i]?, l[j]? with
  | some a, some b => (l.set i { a with vertex := b.vertex }).set j { b with vertex := a.vertex }
  | _, _ => l

/-- `swap(i->line_, j->line_)`; the indices are in range (convex_polygon.h 809-810). -/
def swapLine (l : List (Edge D)) (i j : Nat) : List (Edge D) :=
  match l[i]?, l[j]? with
  | some a, some b => (l.set i { a with line := b.line }).set j { b with line := a.line }
  | _, _ => l

/-- `for (; i < j; ++i, --j) swap(...)` (convex_polygon.h 800-812). -/
def swapLoop (swap : List (Edge D) → Nat → Nat → List (Edge D)) (l : List (Edge D)) (i j : Nat) : List (Edge D) :=
  if _h : i < j then swapLoop swap (swap l i j) (i + 1) (j - 1) else l
termination_by j - i

/-- `Invert` (convex_polygon.h 794-819).  The members of the parent class stay where
they are. -/
def Polygon.invert (P : Polygon D) : Polygon D :=
  if P.count = 0 then P
  else
    let l := swapLoop swapVertex P.edges 1 (P.count - 1)
    let l := swapLoop swapLine l 0 (P.count - 1)
    { P with plane := P.plane.neg, edges := l.map fun e => { e with line := e.line.neg } }

/-- `RotateEdges` (convex_polygon.h 764-766). -/
def Polygon.rotateEdges (P : Polygon D) (k : Nat) : Polygon D :=
  { P with edges := P.edges.drop k ++ P.edges.take k }

/-- `GetMinimumIndex` (convex_polygon.h 173-181). -/
def Polygon.minimumIndex (P : Polygon D) : Nat :=
  (List.range' 1 (P.count - 1)).foldl
    (fun min i => if (P.vertexD i).lexicographicallyLt (P.vertexD min) then i else min) 0

/-- `SortVertices` (convex_polygon.h 757-759). -/
def Polygon.sortVertices (P : Polygon D) : Polygon D := P.rotateEdges P.minimumIndex

end Walnut.Poly
