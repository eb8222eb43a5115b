/-
What the pieces of polygons in a binary space partition have to satisfy: cells,
coincidence with the split planes of ancestors, and the meaning of the pointers kept in
edges.  Independent of the algorithms.
-/
import Verif.Bsp.Node
import Verif.Poly.TrackProof

namespace Walnut.Bsp
open Walnut.Geom Walnut.Poly

/-- The split planes above a node, the root's first; the flag is true if the node is on
the positive side. -/
abbrev Anc := List (PlaneRef × Bool)

/-- The point is on the closed side of the plane. -/
def onSide (g : HS3) (pos : Bool) (q : Q3) : Prop := if pos then 0 ≤ g.side q else g.side q ≤ 0

/-- The closed cell of a node. -/
def Cell (anc : Anc) : Set Q3 := {q | ∀ a ∈ anc, onSide a.1.plane a.2 q}

/-- The plane `h` contains the plane `p`. -/
def Through (h p : HS3) : Prop := ∀ q, p.side q = 0 → h.side q = 0

/-- `s` denotes the deepest ancestor whose split plane satisfies `C`; null if there is none. -/
def Deepest (anc : Anc) (C : HS3 → Prop) (s : SplitSide) : Prop :=
  (s.split = none ∧ ∀ a ∈ anc, ¬ C a.1.plane) ∨
    ∃ l a r, anc = l ++ a :: r ∧ C a.1.plane ∧ (∀ b ∈ r, ¬ C b.1.plane) ∧ s = ⟨some a.1, a.2⟩

/-- `s` denotes the highest ancestor whose split plane satisfies `C`; null if there is none. -/
def Highest (anc : Anc) (C : HS3 → Prop) (s : SplitSide) : Prop :=
  (s.split = none ∧ ∀ a ∈ anc, ¬ C a.1.plane) ∨
    ∃ l a r, anc = l ++ a :: r ∧ C a.1.plane ∧ (∀ b ∈ l, ¬ C b.1.plane) ∧ s = ⟨some a.1, a.2⟩

/-- `s` is null or denotes some ancestor whose split plane satisfies `C`. -/
def Among (anc : Anc) (C : HS3 → Prop) (s : SplitSide) : Prop :=
  s.split = none ∨ ∃ a ∈ anc, C a.1.plane ∧ s = ⟨some a.1, a.2⟩

/-- The plane goes through vertex `i`. -/
def AtVertex (P : Polygon EdgeInfo) (i : Nat) (h : HS3) : Prop := h.side (P.pt i) = 0

/-- The plane goes through the edge from vertex `i` to the next one. -/
def AtEdge (P : Polygon EdgeInfo) (i : Nat) (h : HS3) : Prop :=
  h.side (P.pt i) = 0 ∧ h.side (P.pt ((i + 1) % P.count)) = 0

/-- The members of the edges are what bsp_edge_info.h 67-86 says. -/
def EdgesOK (anc : Anc) (P : Polygon EdgeInfo) : Prop :=
  ∀ i e, P.edges[i]? = some e →
    Deepest anc (AtVertex P i) e.data.vertexLast ∧ Deepest anc (AtEdge P i) e.data.edgeLast ∧
    Highest anc (AtEdge P i) e.data.first ∧ Among anc (AtEdge P i) e.data.createdBy

/-- A piece of a polygon in the cell below `anc`. -/
structure PieceOK (anc : Anc) (p : BPoly) : Prop where
  convex : IsConvexPolygon p.poly
  tracker : ∀ T, p.tracker = some T → TrackerOK p.poly T
  cell : p.poly.region ⊆ Cell anc
  edges : EdgesOK anc p.poly

/-- A piece inside of the cell: no ancestor's plane contains it. -/
structure ContentOK (anc : Anc) (p : BPoly) : Prop extends PieceOK anc p where
  off : p.onNode.split = none ∧ ∀ a ∈ anc, ¬ Through a.1.plane p.poly.plane

/-- A piece on the border of the cell: exactly one ancestor's plane contains it, the one
that `on_node_plane` denotes, and the piece's normal points out of the cell there. -/
structure BorderOK (anc : Anc) (p : BPoly) : Prop extends PieceOK anc p where
  on : ∃ l a r, anc = l ++ a :: r ∧ Through a.1.plane p.poly.plane ∧
    (∀ b ∈ l ++ r, ¬ Through b.1.plane p.poly.plane) ∧ p.onNode = ⟨some a.1, a.2⟩ ∧
    (if a.2 then dotQ p.poly.plane.n.q a.1.plane.n.q < 0 else 0 < dotQ p.poly.plane.n.q a.1.plane.n.q)

/-! ### What is in a tree -/

/-- The polygons of a node and of its descendants. -/
def Node.polys : Node → List BPoly
  | .leaf d => d.contents ++ d.border
  | .inner d _ n p => d.contents ++ d.border ++ (n.polys ++ p.polys)

/-- The split planes of a node and of its descendants. -/
def Node.planes : Node → List HS3
  | .leaf _ => []
  | .inner _ g n p => g :: (n.planes ++ p.planes)

/-- The polygon belongs to the content `id`, lies in the plane `pl` and contains the point. -/
def Covers (id : Nat) (pl : HS3) (q : Q3) (p : BPoly) : Prop := p.id = id ∧ p.poly.plane = pl ∧ q ∈ p.poly.region

open Classical in
/-- How many of the polygons do. -/
noncomputable def cov (l : List BPoly) (id : Nat) (pl : HS3) (q : Q3) : Nat := l.countP fun p => decide (Covers id pl q p)

/-- The polygons `l'` are the polygons `l`, cut along the planes `G`: the same points are
covered, by polygons of the same content with the same oriented plane, and as often as
before except on the cuts. -/
structure Conserved (G : List HS3) (l l' : List BPoly) : Prop where
  cover : ∀ id pl q, (∃ p ∈ l, Covers id pl q p) ↔ ∃ p ∈ l', Covers id pl q p
  mult : ∀ id pl q, (∀ g ∈ G, g.side q ≠ 0 ∨ Through g pl) → cov l' id pl q = cov l id pl q
  back : ∀ x ∈ l', ∃ p ∈ l, x.id = p.id ∧ (p.tracker = none → x.tracker = none)

/-- The counters of a leaf are the numbers of its polygons. -/
def Counted (d : NodeData) : Prop :=
  ∀ id, (d.infoFor id).interior = d.contents.countP (fun x => x.id == id) ∧
    (d.infoFor id).border = d.border.countP (fun x => x.id == id)

/-- The counters of a node are positive exactly if there are such polygons in its subtree:
interior ones on no plane of an ancestor, border ones on one. -/
def Marked (anc : Anc) (l : List BPoly) (d : NodeData) : Prop :=
  ∀ id, (0 < (d.infoFor id).interior ↔ ∃ x ∈ l, x.id = id ∧ ∀ a ∈ anc, ¬ Through a.1.plane x.poly.plane) ∧
    (0 < (d.infoFor id).border ↔ ∃ x ∈ l, x.id = id ∧ ∃ a ∈ anc, Through a.1.plane x.poly.plane)

/-- The subtree of a node whose ancestors are `anc` is consistent. -/
def TreeOK : Anc → Node → Prop
  | anc, .leaf d => (∀ x ∈ d.contents, ContentOK anc x) ∧ (∀ x ∈ d.border, BorderOK anc x) ∧ Counted d
  | anc, .inner d g n p =>
    (∀ x ∈ d.contents, ContentOK anc x) ∧ (∀ x ∈ d.border, BorderOK anc x) ∧
    Marked anc (Node.inner d g n p).polys d ∧ g.n ≠ ⟨0, 0, 0⟩ ∧
    TreeOK (anc ++ [(⟨anc.map Prod.snd, g⟩, false)]) n ∧ TreeOK (anc ++ [(⟨anc.map Prod.snd, g⟩, true)]) p

end Walnut.Bsp
