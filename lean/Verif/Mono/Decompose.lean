/-
Model of `MonotoneDecomposer` (monotone_decomposer.h), the subclass of the
triangulator that merges triangles into convex polygons.

The chains `convex_top_` and `convex_bottom_` are held with the back first.  The
calls of the virtual function `EmitRange` are collected in a list.  A failed
assertion and the overflow of a product of `int64_t` are `none`.
-/
import Verif.Mono.Triangulate

namespace Walnut.Mono
open Walnut.Geom

/-- The arguments of a call of `EmitRange` (monotone_decomposer.h 104-107):
the orientation, and the two ranges of vertices joined. -/
structure Piece where
  orientation : Int
  verts : List HP3
deriving DecidableEq

/-- `convex_top_`, `convex_bottom_` (monotone_decomposer.h 93-97) and `orientation_`
(161). -/
structure DecState where
  top : List HP3
  bottom : List HP3
  orientation : Int
deriving DecidableEq

/-- `BigIntWord * int` (monotone_decomposer.h 129-132): the product of 64 bit signed
numbers; an overflow is undefined behaviour. -/
def mulSign (w : Word) (o : Int) : Option Int :=
  let r := w.toInt * o
  if -2 ^ 63 ≤ r ∧ r < 2 ^ 63 then some r else none

/-- The two ranges passed to `EmitRange` (monotone_decomposer.h 80-81, 149-150):
`convex_top_` reversed, then `convex_bottom_`. -/
def DecState.verts (s : DecState) : List HP3 := s.top ++ s.bottom.reverse

/-- The start of a new polygon (monotone_decomposer.h 154-162). -/
def startPiece (drop : Fin 3) (t : Tri) : DecState :=
  ⟨if t.isTop then [t.p3, t.p1] else [t.p1], if t.isTop then [t.p2] else [t.p3, t.p2],
    t.p2.get2DTwistDirReduced drop t.p1 t.p3⟩

/-- The condition of monotone_decomposer.h 129-132, evaluated from left to right. -/
def keepsConvex (drop : Fin 3) (o : Int) (prevTop prevBottom : HP3) (t : Tri) : Option Bool := do
  let c1 ← mulSign (t.p1.get2DTwistDir drop prevTop t.p3) o
  if c1 ≤ 0 then
    let c2 ← mulSign (t.p2.get2DTwistDir drop prevBottom t.p3) o
    return decide (0 ≤ c2)
  else return false

/-- The new vertex is added (monotone_decomposer.h 133-142), unless it is equal to the
last one of its chain. -/
def addVertex (t : Tri) (s : DecState) (o : Int) : DecState :=
  if t.isTop then
    if !(t.p1.eq t.p3) then { s with top := t.p3 :: s.top, orientation := o } else { s with orientation := o }
  else
    if !(t.p2.eq t.p3) then { s with bottom := t.p3 :: s.bottom, orientation := o } else { s with orientation := o }

/-- `EmitTriangle` (monotone_decomposer.h 109-163): the polygons emitted and the new
state. -/
def emitTriangle (drop : Fin 3) (t : Tri) (s : DecState) : Option (List Piece × DecState) :=
  match s.top with
  | [] => some ([], { startPiece drop t with bottom := (startPiece drop t).bottom ++ s.bottom })
  | a :: tr =>
    match s.bottom with
    | [] => none
    | b :: br =>
      if a.eq t.p1 && b.eq t.p2 then do
        let o := if s.orientation = 0 then t.p2.get2DTwistDirReduced drop t.p1 t.p3 else s.orientation
        let prevTop := match tr with
          | x :: _ => x
          | [] => (b :: br).getLastD b
        let prevBottom := match br with
          | x :: _ => x
          | [] => (a :: tr).getLastD a
        if ← keepsConvex drop o prevTop prevBottom t then return ([], addVertex t s o)
        else return ([⟨s.orientation, s.verts⟩], startPiece drop t)
      else some ([⟨s.orientation, s.verts⟩], startPiece drop t)

/-- The calls of `EmitTriangle` made by the triangulator (monotone_triangulator.h 176 and 201). -/
def emitTriangles (drop : Fin 3) : List Tri → DecState → Option (List Piece × DecState)
  | [], s => some ([], s)
  | t :: ts, s => do
    let r ← emitTriangle drop t s
    let q ← emitTriangles drop ts r.2
    return (r.1 ++ q.1, q.2)

/-- `Build` (monotone_decomposer.h 70-88) of an object whose `reflex_stack_`,
`convex_top_` and `convex_bottom_` are empty, as they are after construction and
after each `Build`. -/
def decompose (drop mono : Fin 3) (top bottom : List HP3) : Option (List Piece) := do
  let tr ← triangulate drop mono [] top bottom
  let r ← emitTriangles drop tr.1 ⟨[], [], 0⟩
  return r.1 ++ [⟨r.2.orientation, r.2.verts⟩]

end Walnut.Mono
