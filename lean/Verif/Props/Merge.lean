/-
Property C57: merging two polygons along a common edge.
-/
import Verif.Poly.MergeRun
import Verif.Poly.Check

namespace Walnut.Props
open Walnut.Geom Walnut.Poly

variable {D : Type}

/-- What is kept of an edge whatever its other members are: the vertex where it starts
and its line. -/
def shapeOf (l : List (Edge D)) : List (HP3 × PL) := l.map fun e => (e.vertex, e.line)

/-- C57: whatever `TryMergePolygon` does with two convex polygons `P` and `Q` which have
an edge in common (edge `a` of `P` and edge `b` of `Q`, in opposite directions).

Walking around `P` from its edge `a` gives the edges `ea, na, Ps`, walking around `Q` from
its edge `b` gives `eb, nb, Qs`; replacing the common edge of `P` by the rest of `Q` gives
`nb, Qs, na, Ps`.

* `true` is returned exactly when the normals have the same direction and those edges are
  a convex polygon.
* When `false` is returned, nothing changed.
* Otherwise `Q` has no edges left and `R`, what `P` became, is a convex polygon in the same
  plane which covers what the two polygons covered.  Its signed area, after dropping any
  coordinate, is the sum of theirs.  Its vertices and lines are, in cyclic order, those of
  `nb, Qs, na, Ps`, where `nb` and `na` are left out only if their vertices are collinear
  with the vertices before and after, and then always if the edges permit merging. -/
theorem C57 {ops : MergeOps D} {dim : Fin 3} {P Q R S : Polygon D} {a b : Nat} {r : Bool} (hP : IsConvexPolygon P)
    (hQ : IsConvexPolygon Q) (h : tryMergePolygon ops dim P a Q b = some (r, R, S)) :
    a < P.count ∧ b < Q.count ∧ P.pt a = Q.pt ((b + 1) % Q.count) ∧ Q.pt b = P.pt ((a + 1) % P.count) ∧
    ∃ ea na eb nb Ps Qs, P.edges.rotate a = ea :: na :: Ps ∧ Q.edges.rotate b = eb :: nb :: Qs ∧
      (r = true ↔ SameDir3 P.plane.n Q.plane.n ∧ IsConvexPolygon { P with edges := nb :: Qs ++ na :: Ps }) ∧
      (r = false → R = P ∧ S = Q) ∧
      (r = true → S.edges = [] ∧ R.plane = P.plane ∧ R.drop = P.drop ∧ IsConvexPolygon R ∧ R.region = P.region ∪ Q.region ∧
        (∀ k, overFan R (triArea k) = overFan P (triArea k) + overFan Q (triArea k)) ∧
        ∃ c1 c2 : Bool,
          (c1 = true → Poly.turn P.plane.n.q (P.pt ((a + P.count - 1) % P.count)) (P.pt a) (Q.pt ((b + 2) % Q.count)) = 0) ∧
          (c2 = true → Poly.turn P.plane.n.q (Q.pt ((b + Q.count - 1) % Q.count)) (Q.pt b) (P.pt ((a + 2) % P.count)) = 0) ∧
          ((∀ x y, ops.canMerge x y = true) →
            (Poly.turn P.plane.n.q (P.pt ((a + P.count - 1) % P.count)) (P.pt a) (Q.pt ((b + 2) % Q.count)) = 0 → c1 = true) ∧
            (Poly.turn P.plane.n.q (Q.pt ((b + Q.count - 1) % Q.count)) (Q.pt b) (P.pt ((a + 2) % P.count)) = 0 → c2 = true)) ∧
          shapeOf R.edges ~r shapeOf ((if c1 then [] else [nb]) ++ Qs ++ (if c2 then [] else [na]) ++ Ps)) := by
  obtain ⟨ea, na, pa, eb, nb, pb, Pm, Qm, o⟩ := merge_core hP hQ h
  have hi : MergeIn P a Q b ea na pa eb nb pb Pm Qm := ⟨hP, hQ, o.la, o.lb, o.ep, o.eq, o.ptA, o.ptB⟩
  have n3 := hP.three
  have m3 := hQ.three
  obtain ⟨p1, p2, p3, p4, p5, p6⟩ := hi.points
  have gq := (hi.getQ (i := 1) (by omega)).symm
  have gp := (hi.getP (i := 1) (by omega)).symm
  refine ⟨o.la, o.lb, ?_, ?_, ea, na, eb, nb, Pm ++ [pa], Qm ++ [pb], o.ep, o.eq, ?_, o.stays, fun hr => ?_⟩
  · rw [p2, Nat.add_comm, (pt_get gq).1]
  · rw [p4, Nat.add_comm, (pt_get gp).1]
  · have := o.merges
    simpa [left] using this
  · obtain ⟨r1, r2, r3, r4, r5, r6, c1, c2, h1, h2, h3⟩ := o.result hr
    refine ⟨by rw [r1], r2, r3, r4, r5, fun k => ?_, c1, c2, fun e => (h1.1 e).1, fun e => (h2.1 e).1,
      fun hc => ⟨fun e => h1.2 ⟨e, hc _ _⟩, fun e => h2.2 ⟨e, hc _ _⟩⟩, ?_⟩
    · rw [overFan_ringArea R k (by have := r4.three; omega), overFan_ringArea P k (by omega), overFan_ringArea Q k (by omega), r6 k]
      ring
    · have := h3.map Edge.geo
      rw [canon_geo] at this
      have e : ∀ l : List (Edge D), l.map Edge.geo = shapeOf l := fun _ => rfl
      rw [e, e] at this
      simpa [left] using this

/-- C57: the other members of the edges.  Those of `P` are kept, those of `Q` are told that
they moved, and where a vertex is left out the edge before it keeps the merged members. -/
theorem C57_edges {ops : MergeOps D} {dim : Fin 3} {P Q R S : Polygon D} {a b : Nat} (hP : IsConvexPolygon P)
    (hQ : IsConvexPolygon Q) (h : tryMergePolygon ops dim P a Q b = some (true, R, S)) :
    ∃ ea na pa eb nb pb Pm Qm, P.edges.rotate a = ea :: na :: (Pm ++ [pa]) ∧ Q.edges.rotate b = eb :: nb :: (Qm ++ [pb]) ∧
      ∃ c1 c2 : Bool,
        (c1 = true ↔ Poly.turn P.plane.n.q (P.pt ((a + P.count - 1) % P.count)) (P.pt a) (Q.pt ((b + 2) % Q.count)) = 0 ∧
          ops.canMerge pa.data (ops.moved nb.data) = true) ∧
        (c2 = true ↔ Poly.turn P.plane.n.q (Q.pt ((b + Q.count - 1) % Q.count)) (Q.pt b) (P.pt ((a + 2) % P.count)) = 0 ∧
          ops.canMerge (ops.moved pb.data) na.data = true) ∧
        R.edges ~r (if c1 then [] else [{ nb with data := ops.moved nb.data }]) ++
          Qm.map (fun e => { e with data := ops.moved e.data }) ++
          (if c2 then [{ pb with data := ops.merge (ops.moved pb.data) na.data }] else [{ pb with data := ops.moved pb.data }, na]) ++
          Pm ++ [if c1 then { pa with data := ops.merge pa.data (ops.moved nb.data) } else pa] := by
  obtain ⟨ea, na, pa, eb, nb, pb, Pm, Qm, o⟩ := merge_core hP hQ h
  obtain ⟨r1, r2, r3, r4, r5, r6, c1, c2, h1, h2, h3⟩ := o.result rfl
  refine ⟨ea, na, pa, eb, nb, pb, Pm, Qm, o.ep, o.eq, c1, c2, h1, h2, ?_⟩
  have e : ∀ l : List (Edge D), l.map (moveEdge ops) = l.map (fun e => { e with data := ops.moved e.data }) := fun _ => rfl
  rw [e] at h3
  unfold canon moveEdge mergeEdge at h3
  cases c1 <;> cases c2 <;> simpa using h3

/-- C57: for a common edge that is not perpendicular to `dim` all assertions hold, unless a
component is the smallest 64 bit word (as for C19). -/
theorem C57_defined (ops : MergeOps D) {dim : Fin 3} {P Q : Polygon D} {a b : Nat} (hP : IsConvexPolygon P) (hQ : IsConvexPolygon Q)
    (ha : a < P.count) (hb : b < Q.count) (hA : P.pt a = Q.pt ((b + 1) % Q.count)) (hB : Q.pt b = P.pt ((a + 1) % P.count))
    (hd : P.pt ((a + 1) % P.count) dim ≠ P.pt a dim) (m1 : NoMin2 (P.plane.n.dropDimension dim)) (m2 : NoMin2 (Q.plane.n.dropDimension dim))
    (m3 : ∀ i, i < P.count → NoMin3 (P.lineD i).d) (m4 : ∀ i, i < Q.count → NoMin3 (Q.lineD i).d) :
    ∃ r, tryMergePolygon ops dim P a Q b = some r :=
  merge_defined ops hP hQ ha hb hA hB hd m1 m2 m3 m4

/-! ### Examples -/

/-- A polygon in the plane z = 0 with the given corners. -/
def flatPolygon (l : List (Int × Int)) : Polygon Nat where
  plane := ⟨⟨0, 0, 1⟩, 0⟩
  drop := 2
  edges := (l.zip (l.rotate 1)).mapIdx fun i (p, q) =>
    ⟨⟨⟨p.1, p.2, 0⟩, 1⟩, ⟨⟨q.1 - p.1, q.2 - p.2, 0⟩, ⟨0, 0, p.1 * q.2 - p.2 * q.1⟩⟩, i⟩

/-- Edges which may always be merged; their numbers are added. -/
def addOps : MergeOps Nat := ⟨fun _ _ => true, fun x y => x + y, fun x => x + 10⟩

/-- The squares [0,1]² and [1,2]×[0,1]. -/
def leftSquare : Polygon Nat := flatPolygon [(0, 0), (1, 0), (1, 1), (0, 1)]
def rightSquare : Polygon Nat := flatPolygon [(1, 0), (2, 0), (2, 1), (1, 1)]
/-- [1,2]×[0,2], with a vertex inside of its left side. -/
def tallRectangle : Polygon Nat := flatPolygon [(1, 0), (2, 0), (2, 2), (1, 2), (1, 1)]
/-- A triangle on the right side of `leftSquare`. -/
def rightTriangle : Polygon Nat := flatPolygon [(1, 0), (2, 0), (1, 1)]

example : IsConvexPolygon leftSquare ∧ IsConvexPolygon rightSquare ∧ IsConvexPolygon tallRectangle ∧ IsConvexPolygon rightTriangle :=
  ⟨convex_of_check (by decide +kernel), convex_of_check (by decide +kernel), convex_of_check (by decide +kernel),
    convex_of_check (by decide +kernel)⟩

/-- Two squares become a rectangle, both ends of the common edge disappear. -/
example : (tryMergePolygon addOps 1 leftSquare 1 rightSquare 3).map (fun r => (r.1, r.2.1.edges.map (fun e => (e.vertex.v, e.data)), r.2.2.edges.length)) =
    some (true, [(⟨0, 0, 0⟩, 10), (⟨2, 0, 0⟩, 11), (⟨2, 1, 0⟩, 14), (⟨0, 1, 0⟩, 3)], 0) := by decide +kernel

/-- The square and the triangle keep one end. -/
example : (tryMergePolygon addOps 1 leftSquare 1 rightTriangle 2).map (fun r => (r.1, r.2.1.edges.map (fun e => (e.vertex.v, e.data)), r.2.2.edges.length)) =
    some (true, [(⟨0, 0, 0⟩, 10), (⟨2, 0, 0⟩, 11), (⟨1, 1, 0⟩, 2), (⟨0, 1, 0⟩, 3)], 0) := by decide +kernel

/-- The square and the rectangle would not be convex. -/
example : (tryMergePolygon addOps 1 leftSquare 1 tallRectangle 4).map (fun r => (r.1, r.2.1.count, r.2.2.count)) =
    some (false, 4, 5) := by decide +kernel

/-- The hypotheses of `C57_defined` hold for the two squares. -/
example : ∃ r, tryMergePolygon addOps 1 leftSquare 1 rightSquare 3 = some r := by
  refine C57_defined addOps (convex_of_check (by decide +kernel)) (convex_of_check (by decide +kernel)) (by decide) (by decide) ?_ ?_ ?_ ?_ ?_ ?_ ?_
  · funext i; revert i; decide +kernel
  · funext i; revert i; decide +kernel
  · decide +kernel
  · unfold NoMin2; decide +kernel
  · unfold NoMin2; decide +kernel
  · unfold NoMin3; decide +kernel
  · unfold NoMin3; decide +kernel

end Walnut.Props
