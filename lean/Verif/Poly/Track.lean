/-
Model of `ConvexVertexAABBTracker` (convex_vertex_aabb_tracker.h) and of the parts of
`AABBConvexPolygon` (aabb_convex_polygon.h) that maintain it.

`none` is a failed assertion or another undefined behaviour (a division of the minimum
integer by -1 inside of the rounding, a division by zero).  The vertex iterators are the
polygon they iterate over.
-/
import Verif.Poly.Equal
import Mathlib.Data.Fin.VecNotation

namespace Walnut.Poly
open Walnut.Geom

variable {D : Type}

/-- The members of `ConvexVertexAABBTracker` (convex_vertex_aabb_tracker.h 178-180). -/
structure Tracker where
  lo : Fin 3 → Nat
  hi : Fin 3 → Nat
  box : AABB

/-- The search for one component's minimum in the constructor
(convex_vertex_aabb_tracker.h 41-53); the six searches do not depend on each other. -/
def minSearch (P : Polygon D) (c : Fin 3) : Nat :=
  (List.range' 1 (P.count - 1)).foldl
    (fun old pos => if (P.vertexD pos).compareComponent c (P.vertexD old) < 0 then pos else old) 0

/-- The search for one component's maximum (convex_vertex_aabb_tracker.h 41-53). -/
def maxSearch (P : Polygon D) (c : Fin 3) : Nat :=
  (List.range' 1 (P.count - 1)).foldl
    (fun old pos => if (P.vertexD pos).compareComponent c (P.vertexD old) > 0 then pos else old) 0

/-- `GetMaxDenominator` (convex_vertex_aabb_tracker.h 288-299). -/
def maxDenominator (P : Polygon D) (lo hi : Fin 3 → Nat) : Int :=
  let d := |(P.vertexD (lo 0)).w|
  let d := max d |(P.vertexD (lo 1)).w|
  let d := max d |(P.vertexD (lo 2)).w|
  let d := max d |(P.vertexD (hi 0)).w|
  let d := max d |(P.vertexD (hi 1)).w|
  max d |(P.vertexD (hi 2)).w|

/-- `RoundDown(component of vertex i, w of vertex i, denom)` (convex_vertex_aabb_tracker.h 303-343). -/
def lowAt (P : Polygon D) (i : Nat) (c : Fin 3) (den : Int) : Option Int :=
  Rational.roundDown ((P.vertexD i).v.comp c) (P.vertexD i).w den

/-- `RoundUp(component of vertex i, w of vertex i, denom)` (convex_vertex_aabb_tracker.h 303-351). -/
def highAt (P : Polygon D) (i : Nat) (c : Fin 3) (den : Int) : Option Int :=
  Rational.roundUp ((P.vertexD i).v.comp c) (P.vertexD i).w den

/-- The call of `AABB`'s constructor with six computed numbers (convex_vertex_aabb_tracker.h 309 and 355-362). -/
def makeBox (a b c d e f : Option Int) (den : Int) : Option AABB :=
  match a, b, c, d, e, f with
  | some a, some b, some c, some d, some e, some f => some (AABB.make ⟨a, b, c⟩ ⟨d, e, f⟩ den)
  | _, _, _, _, _, _ => none

/-- `ApproximateExtremes(denom, begin)` (convex_vertex_aabb_tracker.h 301-319). -/
def approximateExtremes (P : Polygon D) (lo hi : Fin 3 → Nat) (den : Int) : Option AABB :=
  makeBox (lowAt P (lo 0) 0 den) (lowAt P (lo 1) 1 den) (lowAt P (lo 2) 2 den)
    (highAt P (hi 0) 0 den) (highAt P (hi 1) 1 den) (highAt P (hi 2) 2 den) den

/-- The constructor (convex_vertex_aabb_tracker.h 32-58). -/
def Tracker.build (P : Polygon D) : Option Tracker :=
  if P.count = 0 then some ⟨fun _ => 0, fun _ => 0, AABB.empty⟩
  else
    (approximateExtremes P (minSearch P) (maxSearch P) (maxDenominator P (minSearch P) (maxSearch P))).map fun b =>
      ⟨minSearch P, maxSearch P, b⟩

/-- `RotateIndices` (convex_vertex_aabb_tracker.h 85-92).  A modulus of zero is `none`. -/
def Tracker.rotateIndices (T : Tracker) (offset n : Nat) : Option Tracker :=
  if n = 0 then none
  else some ⟨fun c => (T.lo c + n - offset) % n, fun c => (T.hi c + n - offset) % n, T.box⟩

/-- The results of `SplitComponent`: the indices for the two children and whether the
vertex is another one than the parent's (convex_vertex_aabb_tracker.h 185-236). -/
structure SplitIndex where
  neg : Nat
  pos : Nat
  negModified : Bool
  posModified : Bool

/-- `SplitComponent` (convex_vertex_aabb_tracker.h 183-233). -/
def splitComponent (c : Fin 3) (mult : Int) (shared1 shared2 : HP3) (shifted m k ps pe : Nat) : Option SplitIndex :=
  if shifted < m then
    some ⟨shifted, if shared1.compareComponent c shared2 * mult > 0 then k + 1 else 0, false, true⟩
  else if shifted ≥ ps then
    if shifted < pe then
      some ⟨if shared1.compareComponent c shared2 * mult > 0 then m + 1 else m, shifted - ps + 1, true, false⟩
    else if shifted = pe then some ⟨m + 1, k + 1, false, false⟩ else none
  else if shifted = m then some ⟨m, 0, false, false⟩ else none

/-- The bound of one component in `UpdateExtremes`: recomputed if the vertex was
modified, otherwise the parent's (convex_vertex_aabb_tracker.h 334-354). -/
def updateBound (modified : Bool) (new : Option Int) (old : Int) : Option Int := if modified then new else some old

/-- `UpdateExtremes` (convex_vertex_aabb_tracker.h 321-360). -/
def updateExtremes (parent : AABB) (P : Polygon D) (lo hi : Fin 3 → Nat) (loMod hiMod : Fin 3 → Bool) : Option AABB :=
  let den := maxDenominator P lo hi
  if den ≠ parent.den then approximateExtremes P lo hi den
  else
    makeBox (updateBound (loMod 0) (lowAt P (lo 0) 0 den) (parent.lo.comp 0))
      (updateBound (loMod 1) (lowAt P (lo 1) 1 den) (parent.lo.comp 1))
      (updateBound (loMod 2) (lowAt P (lo 2) 2 den) (parent.lo.comp 2))
      (updateBound (hiMod 0) (highAt P (hi 0) 0 den) (parent.hi.comp 0))
      (updateBound (hiMod 1) (highAt P (hi 1) 1 den) (parent.hi.comp 1))
      (updateBound (hiMod 2) (highAt P (hi 2) 2 den) (parent.hi.comp 2)) den

/-- The loop over the components for one of the two extremes
(convex_vertex_aabb_tracker.h 259-283). -/
def splitIndices (idx : Fin 3 → Nat) (mult : Int) (n : Nat) (N Q : Polygon D) (r : Ranges) (c : Fin 3) : Option SplitIndex :=
  let shift := n - r.neg.1
  let m := r.neg.2 - r.neg.1
  let k := r.pos.2 - r.pos.1
  let ps := (r.pos.1 + shift) % n
  splitComponent c mult (N.vertexD (m + 1)) (Q.vertexD 0) ((idx c + shift) % n) m k ps (ps + k)

/-- `f` applied to the three components.  The loops over the components, as in convex_vertex_aabb_tracker.h 345-354. -/
def three {α : Type} (f : Fin 3 → Option α) : Option (Fin 3 → α) :=
  match f 0, f 1, f 2 with
  | some a, some b, some c => some ![a, b, c]
  | _, _, _ => none

/-- `CreateSplitChildren` (convex_vertex_aabb_tracker.h 236-286): `n` is the number of
vertices of the parent, `N` and `Q` are the children.  A negative shift is `none`. -/
def Tracker.split (T : Tracker) (n : Nat) (N Q : Polygon D) (r : Ranges) : Option (Tracker × Tracker) :=
  if !r.emitNeg || !r.emitPos then none
  else if n < r.neg.1 ∨ n = 0 then none
  else
    match three (splitIndices T.lo (-1) n N Q r), three (splitIndices T.hi 1 n N Q r) with
    | some lo, some hi =>
      match updateExtremes T.box N (fun c => (lo c).neg) (fun c => (hi c).neg)
          (fun c => (lo c).negModified) (fun c => (hi c).negModified),
        updateExtremes T.box Q (fun c => (lo c).pos) (fun c => (hi c).pos)
          (fun c => (lo c).posModified) (fun c => (hi c).posModified) with
      | some b1, some b2 =>
        some (⟨fun c => (lo c).neg, fun c => (hi c).neg, b1⟩, ⟨fun c => (lo c).pos, fun c => (hi c).pos, b2⟩)
      | _, _ => none
    | _, _ => none

/-- `AABBConvexPolygon::GetSplitInfo` (aabb_convex_polygon.h 163-186).  The line of a
default constructed split info has zero coordinates and is not used. -/
def splitInfoBox (P : Polygon D) (T : Tracker) (g : HS3) : Option SplitInfo :=
  let s := T.box.getPlaneSide g
  if s = -1 then some ⟨⟨(0, P.count), (0, 0)⟩, ⟨⟨0, 0, 0⟩, ⟨0, 0, 0⟩⟩, none, none⟩
  else if s = 1 then some ⟨⟨(0, 0), (0, P.count)⟩, ⟨⟨0, 0, 0⟩, ⟨0, 0, 0⟩⟩, none, none⟩
  else if s = 0 then P.splitInfo g
  else none

/-- `SplitEdge` (convex_polygon.h 575-600): a copy of the edge with a new start is
inserted after it.  The assertions are the argument `mid` being strictly inside of
the edge. -/
def Polygon.splitEdge (ops : EdgeOps D) (P : Polygon D) (i : Nat) (mid : HP3) : Option (Polygon D) :=
  match P.edges[i]?, P.edges[(i + 1) % P.count]? with
  | some e, some f =>
    if e.line.isCoincident mid
        && lessThan (hasDifferentSign e.vertex.w mid.w) (e.line.d.dot e.vertex.v * mid.w) (e.line.d.dot mid.v * e.vertex.w)
        && lessThan (hasDifferentSign mid.w f.vertex.w) (e.line.d.dot mid.v * f.vertex.w) (e.line.d.dot (f.vertex.v.scale mid.w)) then
      some { P with edges := P.edges.take (i + 1) ++ ⟨mid, e.line, ops.atVertex e.data mid⟩ :: P.edges.drop (i + 1) }
    else none
  | _, _ => none

end Walnut.Poly
