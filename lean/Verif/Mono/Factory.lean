/-
Model of `ConvexPolygonFactory` (convex_polygon_factory.h) for homogeneous points (`Point3` is the
case of the denominator one).

The loops of the two `Build` functions need not end (see C65), so these functions are
modelled as relations: `FactoryBuild vs out` holds if the call with the vertices `vs` returns after
the calls `Emit(out[0])`, `Emit(out[1])`, ... .  A failed assertion is a call that does not return.
-/
import Verif.Mono.Orient
import Verif.Mono.Planar
import Mathlib.Data.Int.Bitwise

namespace Walnut.Mono
open Walnut.Geom

/-- The constructor arguments of the polygon passed to `Emit` (convex_polygon_factory.h 144-147). -/
structure OutPoly where
  plane : HS3
  drop : Fin 3
  edges : List (HP3 × PL)
deriving DecidableEq

/-- The loops of `EmitOriented` after the first vertex (convex_polygon_factory.h 99-138): the edges
with their lines.  An edge between equal points is skipped.  (The function goes through the two
ranges one after the other; here they are joined.) -/
def emitEdges (first : HP3) : HP3 → List HP3 → List (HP3 × PL)
  | prev, [] =>
    let line := PL.ofHomoPoints prev first
    if line.isValid then [(prev, line)] else []
  | prev, p :: r =>
    let line := PL.ofHomoPoints prev p
    if line.isValid then (prev, line) :: emitEdges first p r else emitEdges first prev r

/-- `EmitOriented` (convex_polygon_factory.h 88-148): `some none` if nothing is emitted. -/
def emitOriented (plane : HS3) (drop : Fin 3) (planeOrientation : Int) (p : Piece) : Option (Option OutPoly) :=
  if p.orientation = 0 then some none
  else match p.verts with
    | [] => none
    | v :: r =>
      let flip := (p.orientation.xor planeOrientation).lor 1
      some (some ⟨⟨plane.n.scale flip, plane.d * flip⟩, drop, emitEdges v v r⟩)

/-- `monotone_dimension` (convex_polygon_factory.h 44): `(~drop_dimension_) & 1`. -/
def monoOf (drop : Fin 3) : Fin 3 := if drop = 1 then 0 else 1

/-- The polygons emitted by the calls of `EmitOriented` (convex_polygon_factory.h 88). -/
def emitAll (plane : HS3) (drop : Fin 3) (planeOrientation : Int) : List Piece → Option (List OutPoly)
  | [] => some []
  | p :: r => do
    let o ← emitOriented plane drop planeOrientation p
    let q ← emitAll plane drop planeOrientation r
    return o.toList ++ q

/-- One round of the inner loop (convex_polygon_factory.h 48-62): the polygons emitted and the new
values of `planar_begin` and `planar_end`. -/
def factoryStep (plane : HS3) (drop : Fin 3) (vs : List HP3) (rb re : Nat) : Option (List OutPoly × Nat × Nat) := do
  -- `GetPlaneOrientationAfterProjection` (convex_polygon_factory.h 77-80)
  let planeOrientation := -absMult (plane.n.comp drop)
  let m ← monotoneRange vs (monoOf drop) rb re
  let pieces ← orientBuild drop (monoOf drop) m.chains.1 m.chains.2
  let out ← emitAll plane drop planeOrientation pieces
  return (out, m.first, m.last)

/-- The inner loop returns (convex_polygon_factory.h 48-62). -/
inductive FactoryLoop (plane : HS3) (drop : Fin 3) (vs : List HP3) : Nat → Nat → List OutPoly → Prop
  | done (i : Nat) : FactoryLoop plane drop vs i i []
  | step {i j i' j' : Nat} {out rest : List OutPoly} (h : i ≠ j)
    (hs : factoryStep plane drop vs i j = some (out, i', j')) (hr : FactoryLoop plane drop vs i' j' rest) :
    FactoryLoop plane drop vs i j (out ++ rest)

/-- `Build` with a plane (convex_polygon_factory.h 34-63) returns. -/
def PlaneBuild (plane : HS3) (vs : List HP3) (out : List OutPoly) : Prop :=
  match plane.n.firstNonzeroDimension with
  | none => out = []
  | some drop => FactoryLoop plane drop vs 0 vs.length out

/-- The outer loop (convex_polygon_factory.h 27-30) returns. -/
inductive OuterLoop (vs : List HP3) : Nat → Nat → List OutPoly → Prop
  | done (i : Nat) : OuterLoop vs i i []
  | step {i j : Nat} {r : PRange} {out rest : List OutPoly} (h : i ≠ j) (hp : planarRange vs i j = some r)
    (hb : PlaneBuild r.plane r.verts out) (hr : OuterLoop vs r.first r.last rest) : OuterLoop vs i j (out ++ rest)

/-- `Build` (convex_polygon_factory.h 22-31) returns after these calls of `Emit`. -/
def FactoryBuild (vs : List HP3) (out : List OutPoly) : Prop := OuterLoop vs 0 vs.length out

end Walnut.Mono
