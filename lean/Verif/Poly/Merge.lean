/-
Model of merging two polygons along a common edge (convex_polygon.h 598-731).

What the parent class of the edges does is an argument, as for splitting.
-/
import Verif.Poly.Model

namespace Walnut.Poly
open Walnut.Geom

/-- What merging needs of the members of an edge's parent class: `CanMerge`, `Merge`
and `EdgeMoved` (edge_info_root.h 47-59 for the default class, whose `CanMerge` returns
true).  `merge a b` are the members of the edge that stays.  Effects of `EdgeMoved` and
`Merge` on other objects are not modelled. -/
structure MergeOps (D : Type) where
  canMerge : D → D → Bool
  merge : D → D → D
  moved : D → D

variable {D : Type}

/-- `TryMergeEdge` (convex_polygon.h 721-731) with `ConvexPolygonEdge::CanMerge` and
`Merge` (convex_polygon_edge.h 146-150, 193-196), whose assertions are `none`. -/
def tryMergeEdge (ops : MergeOps D) (P : Polygon D) (i : Nat) : Option (Bool × Polygon D) :=
  match P.edges[i]?, P.edges[(i + 1) % P.count]? with
  | some e, some f =>
    match e.line.d.isSameDir f.line.d with
    | some true =>
      if e.line.isCoincident f.vertex then
        if ops.canMerge e.data f.data then
          some (true, { P with
            edges := (P.edges.set i { e with data := ops.merge e.data f.data }).eraseIdx ((i + 1) % P.count) })
        else some (false, P)
      else none
    | _ => none
  | _, _ => none

/-- The tests of one end of the common edge (convex_polygon.h 648-659, 665-676):
`twist` is the cross product whose sign is taken, `d1` and `d2` are the directions of
the edges that meet there in the merged polygon, `nd` is the component of the normal.
`(a ^ b) < 0` for two sign words is a difference in sign (C04). -/
def mergeBlocked (dim : Fin 3) (nd twist : Int) (d1 d2 : V3) : Bool :=
  if twist = 0 then hasDifferentSign (d1.comp dim) (d2.comp dim)
  else hasDifferentSign twist nd

/-- The edges after those of the other polygon replaced the common edge
(convex_polygon.h 678-708): the first one of them overwrites the edge, the others are
appended and then rotated behind it (`std::rotate`). -/
def spliceEdges (P Q : List (Edge D)) (a b : Nat) : Option (List (Edge D)) :=
  (match Q.drop (b + 1), Q.take b with
   | e :: r1, r2 => some (e, r1 ++ r2)
   | [], e :: r2 => some (e, r2)
   | [], [] => none).map fun (e, rest) =>
    let l := P.set a e ++ rest
    l.take (a + 1) ++ l.drop P.length ++ (l.take P.length).drop (a + 1)

/-- `EdgeMoved` for the edges that came from the other polygon
(convex_polygon.h 709-712). -/
def moveEdges (ops : MergeOps D) (l : List (Edge D)) (lo hi : Nat) : List (Edge D) :=
  l.mapIdx fun i e => if lo ≤ i ∧ i < hi then { e with data := ops.moved e.data } else e

/-- The two `TryMergeEdge` calls at the end (convex_polygon.h 714-720).
`--my_edge_index` may wrap around at 0; the sum in the second call wraps back, so the
index is computed in the integers. -/
def mergeEnds (ops : MergeOps D) (R : Polygon D) (a m : Nat) (t1 t2 : Int) : Option (Polygon D) := do
  let (merged, R) ← if t1 = 0 then tryMergeEdge ops R ((a + R.count - 1) % R.count) else some (false, R)
  let a' : Int := if merged then (a : Int) - 1 else a
  if t2 = 0 then
    if a' + m - 2 < 0 then none
    else (tryMergeEdge ops R (a' + m - 2).toNat).map Prod.snd
  else some R

/-- `TryMergePolygon` (convex_polygon.h 615-720).  The assertions and accesses outside
of `edges_` are `none`.  The result is the returned value, this polygon and the other
one. -/
def tryMergePolygon (ops : MergeOps D) (dim : Fin 3) (P : Polygon D) (a : Nat) (Q : Polygon D) (b : Nat) :
    Option (Bool × Polygon D × Polygon D) := do
  let ea ← P.edges[a]?
  let eb ← Q.edges[b]?
  let na ← P.edges[(a + 1) % P.count]?
  let nb ← Q.edges[(b + 1) % Q.count]?
  let pa ← P.edges[(a + P.count - 1) % P.count]?
  let pb ← Q.edges[(b + Q.count - 1) % Q.count]?
  if ea.line.d.comp dim = 0 ∨ ea.vertex.eq nb.vertex = false ∨ eb.vertex.eq na.vertex = false then none
  else
    let same ← (P.plane.n.dropDimension dim).isSameDir (Q.plane.n.dropDimension dim)
    let nd := P.plane.n.comp P.drop
    let t1 := (pa.line.d.dropDimension P.drop).cross (nb.line.d.dropDimension P.drop)
    let t2 := (pb.line.d.dropDimension P.drop).cross (na.line.d.dropDimension P.drop)
    if same = false ∨ mergeBlocked dim nd t1 pa.line.d nb.line.d ∨ mergeBlocked dim nd t2 pb.line.d na.line.d then
      some (false, P, Q)
    else
      let l ← spliceEdges P.edges Q.edges a b
      let R ← mergeEnds ops { P with edges := moveEdges ops l a (a + Q.count - 1) } a Q.count t1 t2
      some (true, R, { Q with edges := [] })

end Walnut.Poly
