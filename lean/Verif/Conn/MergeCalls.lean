/-
Model of `ConnectingVisitor::LeaveInteriorNode` (connecting_visitor.h 162-214) as a whole: the
half-edges of a split plane are connected, and then facets that meet at these half-edges are
merged, before the half-edges of the next plane are connected.

Connecting (Conn/Plane.lean) and merging (Poly/MergeLinks.lean) are modelled on different
representations of the facets, `Net` and `World`.  The functions `toNet` and `ofNet` translate
between them; they are not in the code.
-/
import Verif.Conn.Calls
import Verif.Poly.MergeLinks

namespace Walnut.Conn
open Walnut.Geom Walnut.Poly Walnut.Bsp

/-- `polygons_` (connecting_visitor.h 242) as linked polygons.  `size` is the number of polygons,
`count` the number of half-edges that were ever made: those of the accepted polygons, and those
made by splitting. -/
structure Mesh where
  world : World
  size : Nat
  count : Nat

namespace Mesh

/-- The facets as a net.  A half-edge that does not exist any more, because it was merged with
another one, is in a polygon of its own, where nothing refers to it.  Connects two views of `polygons_`, connecting_visitor.h 242. -/
def toNet (M : Mesh) : Net where
  count := M.count
  vertex x := match M.world.edge x with
    | some e => e.vertex
    | none => ⟨⟨0, 0, 0⟩, 1⟩
  line x := match M.world.edge x with
    | some e => e.line
    | none => ⟨⟨0, 0, 0⟩, ⟨0, 0, 0⟩⟩
  poly x := match M.world.edge x with
    | some _ => M.world.owner x
    | none => M.size + x
  partner x := match M.world.edge x with
    | some _ => M.world.partner x
    | none => none
  cycle p :=
    if p < M.size then (M.world.polys p).edges.map (·.data)
    else if p - M.size < M.count ∧ (M.world.edge (p - M.size)).isNone then [p - M.size] else []
  normal p := (M.world.polys p).plane.n

/-- The facets with the half-edges of the net.  Connects two views of `polygons_`, connecting_visitor.h 242. -/
def ofNet (M : Mesh) (N : Net) : Mesh where
  world := {
    polys := fun p => { M.world.polys p with
      edges := if p < M.size then (N.cycle p).map fun x => ⟨N.vertex x, N.line x, x⟩ else [] }
    partner := N.partner
    owner := N.poly }
  size := M.size
  count := N.count

/-- What a deed to the half-edge `x` refers to.  A deed whose target was destroyed is null, deed.h 21-50. -/
def deed (M : Mesh) (x : Nat) : Option Nat := if (M.world.index x).isSome then some x else none

end Mesh

/-- `polygons_` after all polygons were accepted (connecting_visitor.h 76-102).  Simplification:
in the code polygons are also accepted between the calls of `LeaveInteriorNode`. -/
def facets (l : List (Polygon EdgeInfo)) : Mesh :=
  Mesh.ofNet ⟨⟨fun p => match l[p]? with
      | some P => ⟨P.plane, P.drop, []⟩
      | none => ⟨⟨⟨0, 0, 0⟩, 0⟩, 0, []⟩, fun _ => none, fun _ => 0⟩, l.length, 0⟩ (netOf l)

/-- `std::sort` of the entries, a function of a comparison and a list.  The standard library function called at
connecting_visitor.h 182 and 196. -/
structure EntrySort where
  sort : (Entry → Entry → Bool) → List Entry → List Entry

/-- `LeaveInteriorNode` (connecting_visitor.h 162-214): the facets and the number of errors.
`num` gives the half-edges that the deeds in the entries refer to.  A drop dimension of -1 is
used only if there are edges.  Simplification: the entries are sorted by depth (196-201) from the
order in which they were added. -/
def visitCall (S : SortFn) (o : HeapFns) (D : EntrySort) (num : Nat → Nat → Nat) (c : PlaneRef × List Entry) (M : Mesh) : Option (Mesh × Nat) :=
  match c.1.plane.n.firstNonzeroDimension with
  | none => if c.2 = [] then some (M, 0) else none
  | some drop =>
    match sortEdges S M.toNet drop (c.2.map fun z => M.deed (num z.poly z.edge)) with
    | none => none
    | some l =>
      match connectUnsorted S o drop M.toNet l with
      | none => none
      | some (N, n) =>
        (World.mergeList drop (M.ofNet N).world ((D.sort (fun a b => decide (b.depth < a.depth)) c.2).map fun z => num z.poly z.edge)).map
          fun W => (⟨W, M.size, N.count⟩, n)

/-- The calls of `LeaveInteriorNode` during a traversal, in order, and the number of errors.  The successive calls made at
connecting_visitor.h 162-214. -/
def visitCalls (S : SortFn) (o : HeapFns) (D : EntrySort) (num : Nat → Nat → Nat) : List (PlaneRef × List Entry) → Mesh → Option (Mesh × Nat)
  | [], M => some (M, 0)
  | c :: cs, M =>
    match visitCall S o D num c M with
    | none => none
    | some (M1, n) => (visitCalls S o D num cs M1).map fun r => (r.1, n + r.2)

/-- `FilterEmptyPolygons` (connecting_visitor.h 59-65): the numbers of the facets that remain, and
with them what `TakePolygons` (70-73) returns. -/
def Mesh.remaining (M : Mesh) : List (Polygon Nat) := ((List.range M.size).map M.world.polys).filter fun P => P.count ≠ 0

end Walnut.Conn
