/-
Model of merging polygons whose edges are linked to partner edges in other polygons
(connected_polygon.h 143-216, 427-468 together with convex_polygon.h 615-731, and
connecting_visitor.h 190-212).

Edges are identified by their label `data`, not by their address: what moving an edge
object does to the pointers of its partner is the subject of Conn/Move.lean.
-/
import Verif.Poly.Merge

namespace Walnut.Poly
open Walnut.Geom

variable {D : Type}

/-- `TryMergePolygon` up to the end of `EdgeMoved` (convex_polygon.h 615-712).  `none` is
a failed assertion, `some none` is the return value false.  Otherwise the result is this
polygon with the edges of the other one, and the two twists. -/
def joinPolygons (dim : Fin 3) (P : Polygon D) (a : Nat) (Q : Polygon D) (b : Nat) : Option (Option (Polygon D × Int × Int)) := do
  let ea ← P.edges[a]?
  let eb ← Q.edges[b]?
  let na ← P.edges[(a + 1) % P.count]?
  let nb ← Q.edges[(b + 1) % Q.count]?
  let pa ← P.edges[(a + P.count - 1) % P.count]?
  let pb ← Q.edges[(b + Q.count - 1) % Q.count]?
  if ea.line.d.comp dim = 0 ∨ ea.vertex.eq nb.vertex = false ∨ eb.vertex.eq na.vertex = false then none
  else
    let same ← (P.plane.n.dropDimension dim).isSameDir (Q.plane.n.dropDimension dim)
    let nd := P.plane.n.comp P.drop
    let t1 := (pa.line.d.dropDimension P.drop).cross (nb.line.d.dropDimension P.drop)
    let t2 := (pb.line.d.dropDimension P.drop).cross (na.line.d.dropDimension P.drop)
    if same = false ∨ mergeBlocked dim nd t1 pa.line.d nb.line.d ∨ mergeBlocked dim nd t2 pb.line.d na.line.d then
      some none
    else
      let l ← spliceEdges P.edges Q.edges a b
      some (some ({ P with edges := l }, t1, t2))

/-- The two models of `TryMergePolygon` agree. -/
theorem tryMergePolygon_join (ops : MergeOps D) (dim : Fin 3) (P : Polygon D) (a : Nat) (Q : Polygon D) (b : Nat) :
    tryMergePolygon ops dim P a Q b = (joinPolygons dim P a Q b).bind fun
      | none => some (false, P, Q)
      | some (R, t1, t2) =>
        (mergeEnds ops { R with edges := moveEdges ops R.edges a (a + Q.count - 1) } a Q.count t1 t2).map fun R =>
          (true, R, { Q with edges := [] }) := by
  unfold tryMergePolygon joinPolygons
  simp only [Option.bind_eq_bind, Option.bind_assoc]
  congr 1; funext ea; congr 1; funext eb; congr 1; funext na; congr 1; funext nb; congr 1; funext pa; congr 1; funext pb
  split_ifs with hc
  · rfl
  rw [Option.bind_assoc]
  congr 1; funext same
  split_ifs with hb
  · rfl
  rw [Option.bind_assoc]
  congr 1
  funext l
  rw [Option.bind_some]
  dsimp only
  rw [Option.map_eq_bind]
  rfl

/-- Polygons with numbered edges, the links between edges (`partner_`, `none` is a null
pointer) and the polygon that an edge belongs to (`polygon_`) (connected_polygon.h 236-240). -/
structure World where
  polys : Nat → Polygon Nat
  partner : Nat → Option Nat
  owner : Nat → Nat

/-- A function with a new value at one place.  An assignment through a pointer, as in connected_polygon.h 184-193. -/
def setAt {α : Type} (f : Nat → α) (k : Nat) (v : α) : Nat → α := fun x => if x = k then v else f x

namespace World

/-- `edge_index` (connected_polygon.h 75-78): the place of the edge in its polygon. -/
def index (W : World) (x : Nat) : Option Nat := (W.polys (W.owner x)).edges.findIdx? fun e => e.data == x

/-- The edge object that a pointer refers to (connected_polygon.h 58-64). -/
def edge (W : World) (x : Nat) : Option (Edge Nat) := do (W.polys (W.owner x)).edges[← W.index x]?

/-- `GetNextAroundVertex` (connected_polygon.h 121-127).  `some none` is a null pointer. -/
def nextAround (W : World) (x : Nat) : Option (Option Nat) :=
  match W.partner x with
  | none => some none
  | some y => do
    let j ← W.index y
    let e ← (W.polys (W.owner y)).edges[(j + 1) % (W.polys (W.owner y)).count]?
    some (some e.data)

/-- The assertions of `ConvexPolygonEdge::CanMerge` (convex_polygon_edge.h 145-147). -/
def straight (e f : Edge D) : Bool := e.line.d.isSameDir f.line.d == some true && e.line.isCoincident f.vertex

/-- `CanMerge` (convex_polygon_edge.h 145-149, connected_polygon.h 143-166).  In the
nested call the link of the partner of `e` is null, so that it only checks the assertions
and returns true. -/
def canMerge (W : World) (e f : Edge Nat) : Option Bool :=
  if straight e f then
    match W.partner e.data, W.partner f.data with
    | some x, some y =>
      if W.owner x ≠ W.owner y then some false
      else do
        let ex ← W.edge x
        let ey ← W.edge y
        if W.partner x = some e.data ∧ straight ey ex = true then some true else none
    | _, _ => some true
  else none

/-- `TryMergeEdge` (convex_polygon.h 721-731) with `ConnectedEdge::Merge` and
`MergeConnectedEdge` (connected_polygon.h 197-210, 460-465).  The first argument bounds
the depth of the mutual recursion; exceeding it counts as undefined.  Dereferencing a null
`partner_` is `none`. -/
def tryMergeEdge : Nat → World → Nat → Nat → Option (Bool × World)
  | 0, _, _, _ => none
  | n + 1, W, p, i => do
    let next := (i + 1) % (W.polys p).count
    let e ← (W.polys p).edges[i]?
    let f ← (W.polys p).edges[next]?
    let c ← W.canMerge e f
    if c then
      let W1 ← match W.partner f.data with
        | none => some W
        | some y => do
          let x ← W.partner e.data
          let W1 := { W with partner := setAt (setAt (setAt (setAt W.partner x none) e.data (some y)) y (some e.data)) f.data none }
          let j ← W1.index y
          match tryMergeEdge n W1 (W1.owner y) j with
          | some (true, W2) => some W2
          | _ => none
      some (true, { W1 with polys := setAt W1.polys p { W1.polys p with edges := (W1.polys p).edges.eraseIdx next } })
    else some (false, W)

/-- The state after the edges of polygon `q` were moved to polygon `p`, which becomes `R`
(convex_polygon.h 678-712 with connected_polygon.h 181-195, 212-216).  The two common
edges are destroyed. -/
def moveAll (W : World) (p a q b : Nat) (R : Polygon Nat) : World where
  polys := setAt (setAt W.polys p R) q { W.polys q with edges := [] }
  partner := fun x =>
    if ((W.polys p).edges[a]?.map (·.data)) = some x ∨ ((W.polys q).edges[b]?.map (·.data)) = some x then none else W.partner x
  owner := fun x => if x ∈ ((R.edges.drop a).take ((W.polys q).count - 1)).map (·.data) then p else W.owner x

/-- The two `TryMergeEdge` calls at the end (convex_polygon.h 714-720), for a polygon with
`m` edges that were moved to index `a` of polygon `p`, which has `n` edges. -/
def mergeEnds (W : World) (p a n m : Nat) (t1 t2 : Int) : Option World :=
  (if t1 = 0 then tryMergeEdge 2 W p ((a + n - 1) % n) else some (false, W)).bind fun r =>
    let a' : Int := if r.1 then (a : Int) - 1 else a
    if t2 = 0 then
      if a' + m - 2 < 0 then none
      else (tryMergeEdge 2 r.2 p (a' + m - 2).toNat).map Prod.snd
    else some r.2

/-- `TryMergePolygon` (convex_polygon.h 615-720) for connected polygons.  A polygon cannot
be merged with itself. -/
def tryMergePolygon (dim : Fin 3) (W : World) (p a q b : Nat) : Option (Bool × World) :=
  if p = q then none else
  (joinPolygons dim (W.polys p) a (W.polys q) b).bind fun o =>
    match o with
    | none => some (false, W)
    | some (R, t1, t2) => (mergeEnds (W.moveAll p a q b R) p a R.count (W.polys q).count t1 t2).map fun W' => (true, W')

/-- `nonzero_edge_dimension` (connecting_visitor.h 203-205). -/
def edgeDimension (drop : Fin 3) (d : V3) : Fin 3 := if d.comp (drop + 1) = 0 then drop + 2 else drop + 1

/-- The body of the loop over the edges of a split plane (connecting_visitor.h 199-211).
An edge that does not exist any more is a deed without target. -/
def mergeAt (drop : Fin 3) (W : World) (x : Nat) : Option World :=
  match W.index x, W.edge x, W.partner x with
  | some i, some e, some y => do
    let j ← W.index y
    (tryMergePolygon (edgeDimension drop e.line.d) W (W.owner x) i (W.owner y) j).map Prod.snd
  | _, _, _ => some W

/-- The loop (connecting_visitor.h 197-213). -/
def mergeList (drop : Fin 3) (W : World) (l : List Nat) : Option World := l.foldlM (mergeAt drop) W

end World

end Walnut.Poly
