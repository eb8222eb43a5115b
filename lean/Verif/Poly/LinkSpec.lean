/-
What it means that polygons are linked along their edges.
-/
import Verif.Poly.MergeLinks
import Verif.Poly.Spec
import Verif.Props.Rotation

namespace Walnut.Poly
open Walnut.Geom Walnut.Props

/-- The half-edges of a list of edges: label, start point and end point, which is where the
next edge starts. -/
def halfEdges (l : List (Edge Nat)) : List (Nat × Q3 × Q3) :=
  (l.zip (l.rotate 1)).map fun x => (x.1.data, x.1.vertex.pt, x.2.vertex.pt)

/-- Each polygon is convex or has no edges.  Each edge occurs once and knows its polygon.
The partner of a half-edge is an edge that runs between the same points in the opposite
direction and has the half-edge as its partner. -/
structure Linked (W : World) : Prop where
  convex : ∀ p, (W.polys p).edges = [] ∨ IsConvexPolygon (W.polys p)
  once : ∀ p, ((halfEdges (W.polys p).edges).map Prod.fst).Nodup
  own : ∀ p x A B, (x, A, B) ∈ halfEdges (W.polys p).edges → W.owner x = p
  twin : ∀ p x A B y, (x, A, B) ∈ halfEdges (W.polys p).edges → W.partner x = some y →
    (y, B, A) ∈ halfEdges (W.polys (W.owner y)).edges ∧ W.partner y = some x

/-- No half-edge is without a partner. -/
def NoOpenEdge (W : World) : Prop := ∀ p x A B, (x, A, B) ∈ halfEdges (W.polys p).edges → W.partner x ≠ none

/-- The point `C` is beyond `B`, seen from `A`. -/
def Beyond (A B C : Q3) : Prop := ∃ μ : ℚ, 0 < μ ∧ ∀ i, C i - B i = μ * (B i - A i)

/-- Where a half-edge goes straight on as another one, both of them have partners or
neither of them has. -/
def EvenLines (W : World) : Prop :=
  ∀ p q x y A B C, (x, A, B) ∈ halfEdges (W.polys p).edges → (y, B, C) ∈ halfEdges (W.polys q).edges → Beyond A B C →
    (W.partner x = none ↔ W.partner y = none)

/-- No component of a normal or of the direction of an edge is `-2^63` (see C19). -/
def NoMinWorld (W : World) : Prop :=
  ∀ p, NoMin3 (W.polys p).plane.n ∧ ∀ e ∈ (W.polys p).edges, NoMin3 e.line.d

/-- Each polygon of `W'` covers what the polygons of `W` that `g` sends to it covered, and
faces in the same direction as these. -/
structure Groups (W W' : World) (g : Nat → Nat) : Prop where
  regions : ∀ p, (W'.polys p).region = ⋃ q ∈ {q | g q = p}, (W.polys q).region
  normals : ∀ q, SameDir3 (W'.polys (g q)).plane.n (W.polys q).plane.n

end Walnut.Poly
