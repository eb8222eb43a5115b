/-
Model of the polygons made from boxes: `AABB::IntersectPlane` (aabb.h 180-250) and `AABB::GetWalls` (aabb.cpp 5-71).
-/
import Verif.Poly.Model

namespace Walnut.Poly
open Walnut.Geom

variable {D : Type}

/-- `parallelogram_planes` (aabb.h 199-207); `i` is `drop_dimension`. -/
def sidePlane (b : AABB) (i : Fin 3) (j : Fin 4) : HS3 :=
  match j with
  | 0 => ⟨V3.neg (V3.zero.set (i + 1) b.den), -b.lo.comp (i + 1)⟩
  | 1 => ⟨V3.neg (V3.zero.set (i + 2) b.den), -b.lo.comp (i + 2)⟩
  | 2 => ⟨V3.zero.set (i + 1) b.den, b.hi.comp (i + 1)⟩
  | 3 => ⟨V3.zero.set (i + 2) b.den, b.hi.comp (i + 2)⟩

/-- The index `(4 + k*flip) % 4` (aabb.h 211-213), with `flip` 1 if `pos` and -1 otherwise. -/
def sideIndex (pos : Bool) (k : Fin 4) : Fin 4 := if pos then k else -k

/-- The parallelogram in the plane (aabb.h 209-218). -/
def parallelogram (d0 : D) (b : AABB) (pl : HS3) (i : Fin 3) : Polygon D where
  plane := pl
  drop := i
  edges := [(0 : Fin 4), 1, 2, 3].map fun k =>
    let line := PL.ofPlanes pl (sidePlane b i (sideIndex (decide (0 ≤ pl.n.comp i)) k))
    ⟨line.intersect (sidePlane b i (sideIndex (decide (0 ≤ pl.n.comp i)) (k - 1))), line, d0⟩

/-- `GetSplitInfo` and `CreateSplitChildren` as they are used for the top (`keep = false`: the negative child is kept) and for the
bottom (`keep = true`: the positive child is kept) of the box (aabb.h 221-234 and 236-249).  The second result says whether the
function returns after this step; a polygon `none` is empty. -/
def clip (ops : EdgeOps D) (P : Polygon D) (g : HS3) (keep : Bool) : Option (Option (Polygon D) × Bool) :=
  match P.splitInfo g with
  | none => none
  | some s =>
    let emitKept := if keep then s.ranges.emitPos else s.ranges.emitNeg
    let emitOther := if keep then s.ranges.emitNeg else s.ranges.emitPos
    if !emitKept then
      if s.emitOn then some (some P, true) else some (none, true)
    else if emitOther then
      match P.splitChildren ops s with
      | none => none
      | some (N, Q) => some (some (if keep then Q else N), false)
    else some (some P, false)

/-- `AABB::IntersectPlane` (aabb.h 180-250).  The edges' parent class is constructed as `d0`.  The result `some none` is an empty
polygon. -/
def intersectPlane (ops : EdgeOps D) (d0 : D) (b : AABB) (pl : HS3) : Option (Option (Polygon D)) :=
  match pl.n.firstNonzeroDimension with
  | none => some none
  | some i =>
    match clip ops (parallelogram d0 b pl i) ⟨V3.zero.set i b.den, b.hi.comp i⟩ false with
    | none => none
    | some (none, _) => some none
    | some (some P, true) => some (some P)
    | some (some P, false) => (clip ops P ⟨V3.zero.set i b.den, b.lo.comp i⟩ true).map fun r => r.1

/-- The corner of the box that is at the upper end in the dimensions where `m` is true (aabb.cpp 6-23). -/
def boxCorner (b : AABB) (m : Bool × Bool × Bool) : HP3 :=
  ⟨⟨if m.1 then b.hi.x else b.lo.x, if m.2.1 then b.hi.y else b.lo.y, if m.2.2 then b.hi.z else b.lo.z⟩, b.den⟩

/-- The array `p` (aabb.cpp 6-23). -/
def boxCorners : List (Bool × Bool × Bool) := [(false, false, false), (true, false, false), (true, true, false), (false, true, false),
  (false, false, true), (true, false, true), (true, true, true), (false, true, true)]

/-- `facet_infos` (aabb.cpp 25-41): the normal dimension and the vertex indices. -/
def wallInfos : List (Fin 3 × List Nat) :=
  [(2, [0, 3, 2, 1]), (0, [3, 0, 4, 7]), (1, [0, 1, 5, 4]), (0, [1, 2, 6, 5]), (1, [2, 3, 7, 6]), (2, [4, 5, 6, 7])]

/-- `ConvexPolygon(plane, drop_dimension, vertices)` (convex_polygon.h 82-93): the first edge is the one from the last vertex to
the first one. -/
def ofVertices (d0 : D) (pl : HS3) (i : Fin 3) (vs : List HP3) : Polygon D where
  plane := pl
  drop := i
  edges := match vs.getLast? with
    | none => []
    | some l => List.zipWith (fun a c => ⟨a, PL.ofHomoPoints a c, d0⟩) (l :: vs) vs

/-- The wall made in iteration `side` (aabb.cpp 46-68); `none` if it is skipped. -/
def wallAt (d0 : D) (b : AABB) (side : Nat) (info : Fin 3 × List Nat) : Option (Polygon D) :=
  let i := info.1
  if b.lo.comp (i + 1) = b.hi.comp (i + 1) then none
  else if b.lo.comp (i + 2) = b.hi.comp (i + 2) then none
  else
    let vs := info.2.map fun v => boxCorner b (boxCorners.getD v (false, false, false))
    some (ofVertices d0 ⟨V3.zero.set i (if side < 3 then -b.den else b.den), if side < 3 then -b.lo.comp i else b.hi.comp i⟩ i vs)

/-- `AABB::GetWalls` (aabb.cpp 5-71). -/
def walls (d0 : D) (b : AABB) : List (Polygon D) :=
  (wallInfos.zipIdx.map fun p => wallAt d0 b p.2 p.1).filterMap id

end Walnut.Poly
