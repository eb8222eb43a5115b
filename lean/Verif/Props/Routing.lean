/-
C39 (where polygons are in a binary space partition), C64 (the pointers to split planes
kept in edges), C36 (pruning in reachable trees) and C40 (winding numbers).

The statements use `Reach` and `Api` (histories of a tree with the polygons added to it),
`Node.subs` (the nodes with their ancestors), `Cell` and `Through`.
-/
import Verif.Bsp.SettledProof
import Verif.Poly.Triangle

namespace Walnut.Props
open Walnut.Geom Walnut.Poly Walnut.Bsp

/-! ### C39 -/

/-- C39: in every tree, every polygon held by a node is a proper convex polygon inside of
the node's cell.  Interior polygons lie in no split plane above the node.  Border polygons
lie in exactly one, the one that `on_node_plane` points to, and face away from the cell. -/
theorem C39_cells {aabb : Bool} {t : Node} {S : List Source} (h : Reach aabb t S) {anc : Anc} {s : Node} (hs : (anc, s) ∈ t.subs []) :
    (∀ x ∈ s.data.contents, IsConvexPolygon x.poly ∧ x.poly.region ⊆ Cell anc ∧ ∀ a ∈ anc, ¬ Through a.1.plane x.poly.plane) ∧
    (∀ x ∈ s.data.border, IsConvexPolygon x.poly ∧ x.poly.region ⊆ Cell anc ∧
      ∃ l a r, anc = l ++ a :: r ∧ Through a.1.plane x.poly.plane ∧ (∀ b ∈ l ++ r, ¬ Through b.1.plane x.poly.plane) ∧
        x.onNode = ⟨some a.1, a.2⟩ ∧
        (if a.2 then dotQ x.poly.plane.n.q a.1.plane.n.q < 0 else 0 < dotQ x.poly.plane.n.q a.1.plane.n.q)) := by
  have hok := h.spec.1.sub _ hs
  exact ⟨fun x hx => ⟨(hok.contents x hx).convex, (hok.contents x hx).cell, (hok.contents x hx).off.2⟩,
    fun x hx => ⟨(hok.border x hx).convex, (hok.border x hx).cell, (hok.border x hx).on⟩⟩

/-- C39: nothing is lost and nothing is invented: a point belongs to a polygon of content
`id` with the plane `pl` in the tree if and only if it belongs to such a polygon that was
added. -/
theorem C39_cover {aabb : Bool} {t : Node} {S : List Source} (h : Reach aabb t S) (id : Nat) (pl : HS3) (q : Q3) :
    (∃ x ∈ t.polys, x.id = id ∧ x.poly.plane = pl ∧ q ∈ x.poly.region) ↔
    ∃ s ∈ S, s.id = id ∧ s.poly.plane = pl ∧ q ∈ s.poly.region := by
  obtain ⟨_, l, hl, hc⟩ := h.spec
  refine Iff.trans (hc.cover id pl q).symm ?_
  clear hc h
  induction hl with
  | nil => simp
  | cons hm _ ih =>
    simp only [List.mem_cons, exists_eq_or_imp, ih]
    rw [Covers, hm.1, hm.2.1.plane, hm.2.1.region]

open Classical in
/-- C39: as many polygons of the tree as of the input contain the point, unless a split
plane cuts it. -/
theorem C39_multiplicity {aabb : Bool} {t : Node} {S : List Source} (h : Reach aabb t S) (id : Nat) (pl : HS3) (q : Q3)
    (hq : ∀ g ∈ t.planes, g.side q ≠ 0 ∨ Through g pl) :
    t.polys.countP (fun x => decide (x.id = id ∧ x.poly.plane = pl ∧ q ∈ x.poly.region)) =
    S.countP (fun s => decide (s.id = id ∧ s.poly.plane = pl ∧ q ∈ s.poly.region)) := by
  obtain ⟨_, l, hl, hc⟩ := h.spec
  have e1 : t.polys.countP (fun x => decide (x.id = id ∧ x.poly.plane = pl ∧ q ∈ x.poly.region)) = cov t.polys id pl q :=
    List.countP_congr fun x _ => by simp only [decide_eq_true_eq]; exact Iff.rfl
  rw [e1, hc.mult id pl q hq]
  clear e1 hc h hq
  induction hl with
  | nil => rfl
  | cons hm _ ih =>
    unfold cov at ih ⊢
    rw [List.countP_cons, List.countP_cons, ih]
    simp only [Covers, hm.1, hm.2.1.plane, hm.2.1.region, decide_eq_true_eq]

/-- C39: the counters of a leaf are the numbers of its interior and border polygons. -/
theorem C39_leaf_counters {aabb : Bool} {t : Node} {S : List Source} (h : Reach aabb t S) {anc : Anc} {d : NodeData}
    (hs : (anc, .leaf d) ∈ t.subs []) (id : Nat) :
    (d.infoFor id).interior = d.contents.countP (fun x => x.id == id) ∧
    (d.infoFor id).border = d.border.countP (fun x => x.id == id) := (h.spec.1.sub _ hs).2.2 id

/-- C39: the counters of any node tell whether there are polygons of a content in its
subtree, and whether they are on the border of its cell. -/
theorem C39_counters {aabb : Bool} {t : Node} {S : List Source} (h : Reach aabb t S) {anc : Anc} {s : Node} (hs : (anc, s) ∈ t.subs []) (id : Nat) :
    (0 < (s.data.infoFor id).interior ↔ ∃ x ∈ s.polys, x.id = id ∧ ∀ a ∈ anc, ¬ Through a.1.plane x.poly.plane) ∧
    (0 < (s.data.infoFor id).border ↔ ∃ x ∈ s.polys, x.id = id ∧ ∃ a ∈ anc, Through a.1.plane x.poly.plane) :=
  (h.spec.1.sub _ hs).marked id

/-- C39: in trees built through `BSPTree`, only leaves hold polygons. -/
theorem C39_leaves {aabb : Bool} {t : Node} {S : List Source} (h : Api aabb t S) :
    Reach aabb t S ∧ ∀ anc d g n p, (anc, Node.inner d g n p) ∈ t.subs [] → d.contents = [] ∧ d.border = [] := by
  obtain ⟨h1, h2⟩ := h.spec
  refine ⟨h1, ?_⟩
  have key : ∀ (t : Node) (anc' : Anc), Bsp.Settled t → ∀ anc d g n p, (anc, Node.inner d g n p) ∈ t.subs anc' → d.contents = [] ∧ d.border = [] := by
    intro t
    induction t with
    | leaf d => intro anc' _ anc d g n p hm; simp [Node.subs] at hm
    | inner d g n p ihn ihp =>
      intro anc' hs anc d1 g1 n1 p1 hm
      obtain ⟨s1, s2, s3, s4⟩ := hs
      unfold Node.subs at hm
      rcases List.mem_cons.1 hm with e | hm
      · simp only [Prod.mk.injEq, Node.inner.injEq] at e
        obtain ⟨_, rfl, _⟩ := e
        exact ⟨s1, s2⟩
      · rcases List.mem_append.1 hm with hm | hm
        · exact ihn _ s3 _ _ _ _ _ hm
        · exact ihp _ s4 _ _ _ _ _ hm
  exact key t [] h2

/-- C39: splitting a leaf is defined (no assertion fails, no vector is accessed out of
bounds and no null pointer is followed) if the plane is valid, differs from the planes of
the leaf's ancestors, and every node knows the ids of all contents.  It keeps these
conditions.  For polygons that do not track their bounding boxes. -/
theorem C39_split_defined {t : Node} {S : List Source} (h : Reach false t S) (hs : Spread [] t) {L : Nat} (hf : Fits L t)
    (hS : ∀ s ∈ S, s.id < L) {path : List Bool} {g : HS3} (hg : g.n ≠ ⟨0, 0, 0⟩) (hp : Fresh g t path) :
    ∃ t', t.splitAt [] path g = some t' ∧ Spread [] t' ∧ Fits L t' := by
  obtain ⟨h1, l, hl, hc⟩ := h.spec
  refine splitAt_defined t [] path g L (by simp) (by simp) hg h1 hs hf (Plain.of (made_plain hl hS) hc) hp

/-- C39: so is moving polygons to the leaves. -/
theorem C39_push_defined {t : Node} {S : List Source} (h : Reach false t S) (hs : Spread [] t) {L : Nat} (hf : Fits L t)
    (hS : ∀ s ∈ S, s.id < L) : ∃ t', t.pushToLeaves [] = some t' ∧ Spread [] t' ∧ Fits L t' := by
  obtain ⟨h1, l, hl, hc⟩ := h.spec
  refine pushDown_defined t [] t.data L (by simp) (by rw [setData_self]; exact h1) hs (by rw [setData_self]; exact hf)
    (by rw [setData_self]; exact Plain.of (made_plain hl hS) hc)

/-! ### C64 -/

/-- C64: in every tree, the edges of a node's polygons point to the split planes that
bsp_edge_info.h documents: the highest and deepest ancestors whose planes contain the
edge, the deepest one whose plane contains the edge's first vertex, and null pointers if
there are none.  An edge created by a split points to an ancestor that contains it. -/
theorem C64_edges {aabb : Bool} {t : Node} {S : List Source} (h : Reach aabb t S) {anc : Anc} {s : Node} (hs : (anc, s) ∈ t.subs [])
    {x : BPoly} (hx : x ∈ s.data.contents ∨ x ∈ s.data.border) {i : Nat} {e : Edge EdgeInfo} (he : x.poly.edges[i]? = some e) :
    Deepest anc (fun p => p.side (x.poly.pt i) = 0) e.data.vertexLast ∧
    Deepest anc (fun p => p.side (x.poly.pt i) = 0 ∧ p.side (x.poly.pt ((i + 1) % x.poly.count)) = 0) e.data.edgeLast ∧
    Highest anc (fun p => p.side (x.poly.pt i) = 0 ∧ p.side (x.poly.pt ((i + 1) % x.poly.count)) = 0) e.data.first ∧
    Among anc (fun p => p.side (x.poly.pt i) = 0 ∧ p.side (x.poly.pt ((i + 1) % x.poly.count)) = 0) e.data.createdBy := by
  have hok := h.spec.1.sub _ hs
  rcases hx with hx | hx
  · exact (hok.contents x hx).edges i e he
  · exact (hok.border x hx).edges i e he

/-! ### C36 -/

/-- Splits of a tree that is a leaf at first. -/
inductive Splits (d : NodeData) : Node → Prop
  | leaf : Splits d (.leaf d)
  | split {t t' : Node} {path : List Bool} {g : HS3} : Splits d t → t.splitAt [] path g = some t' → Splits d t'

/-- C36: if all polygons are added before the first split, then where a filter says that
its value cannot change below a node, it has the same value at all nodes below. -/
theorem C36_tree {aabb : Bool} {d : NodeData} {S : List Source} (h : Reach aabb (.leaf d) S) {t : Node} (ht : Splits d t)
    {anc anc' : Anc} {s s' : Node} (hs : (anc, s) ∈ t.subs []) (hs' : (anc', s') ∈ s.subs anc) (f : Filter)
    (hf : (f.eval s.data.info).2 = false) : f.eval s'.data.info = f.eval s.data.info := by
  have key : Reach aabb t S ∧ Nested t := by
    clear hs hs' hf
    induction ht with
    | leaf => exact ⟨h, trivial⟩
    | split _ ht' ih => exact ⟨ih.1.split ht', (splitAt_nested _ [] _ _ _ ih.1.spec.1 ih.2 ht').1⟩
  have hn := (Nested.below key.2 [] _ hs).2
  exact C36_pruning f _ _ (Nested.below hn anc _ hs').1 hf

/-! ### Examples -/

/-- A tetrahedron. -/
def tetra : List (Polygon Unit) :=
  [triangle 2 ⟨0, 0, 0⟩ ⟨0, 4, 0⟩ ⟨4, 0, 0⟩, triangle 1 ⟨0, 0, 0⟩ ⟨4, 0, 0⟩ ⟨0, 0, 4⟩, triangle 0 ⟨0, 0, 0⟩ ⟨0, 0, 4⟩ ⟨0, 4, 0⟩,
    triangle 0 ⟨4, 0, 0⟩ ⟨0, 4, 0⟩ ⟨0, 0, 4⟩]

theorem tetra_convex : ∀ P ∈ tetra, IsConvexPolygon P := by
  simp only [tetra, List.mem_cons, List.not_mem_nil, or_false, forall_eq_or_imp, forall_eq]
  exact ⟨triangle_convex _ _ _ _ (by decide), triangle_convex _ _ _ _ (by decide), triangle_convex _ _ _ _ (by decide),
    triangle_convex _ _ _ _ (by decide)⟩

/-- A triangle elsewhere. -/
def farTriangle : Polygon Unit := triangle 2 ⟨10, 10, 10⟩ ⟨11, 10, 10⟩ ⟨10, 11, 10⟩

theorem far_convex : ∀ P ∈ [farTriangle], IsConvexPolygon P := by
  simp only [List.mem_singleton, forall_eq]
  exact triangle_convex _ _ _ _ (by decide)

/-- Splits a tree several times. -/
def splitAll (t : Node) : List (List Bool × HS3) → Option Node
  | [] => some t
  | s :: l => (t.splitAt [] s.1 s.2).bind fun t => splitAll t l

theorem Api.splitAll {aabb : Bool} {S : List Source} : ∀ (l : List (List Bool × HS3)) {t t' : Node}, Api aabb t S → Props.splitAll t l = some t' →
    Api aabb t' S := by
  intro l
  induction l with
  | nil => intro t t' h ht; rw [← Option.some.inj ht]; exact h
  | cons s l ih =>
    intro t t' h ht
    obtain ⟨t1, h1, h2⟩ := Option.bind_eq_some_iff.1 ht
    exact ih (h.split h1) h2

/-- Four splits towards the corner of the tetrahedron; the last one only cuts off
points beyond x = -5. -/
def cornerSplits : List (List Bool × HS3) :=
  [([], ⟨⟨1, 0, 0⟩, 1⟩), ([false], ⟨⟨0, 1, 0⟩, 1⟩), ([false, false], ⟨⟨0, 0, 1⟩, 1⟩), ([false, false, false], ⟨⟨1, 0, 0⟩, -5⟩)]

/-- The winding numbers of content `id` at the leaves, from left to right. -/
def leafWinding (id : Nat) : Node → List Int
  | .leaf d => [(d.infoFor id).pwn]
  | .inner _ _ n p => leafWinding id n ++ leafWinding id p

/-- The triangle as content 1, the tetrahedron as content 0, then the splits. -/
def meshFirst : Option Node :=
  ((Node.leaf {}).addContents false 1 [farTriangle]).bind fun t => (t.addContents false 0 tetra).bind fun t => splitAll t cornerSplits

/-- The triangle as content 1, then the splits, then the tetrahedron as content 0. -/
def meshLast : Option Node :=
  ((Node.leaf {}).addContents false 1 [farTriangle]).bind fun t => (splitAll t cornerSplits).bind fun t => t.addContents false 0 tetra

def bothSources : List Source := [farTriangle].map (fun P => ⟨1, P⟩) ++ tetra.map (fun P => ⟨0, P⟩)

theorem meshFirst_api {t : Node} (h : meshFirst = some t) : Api false t bothSources := by
  obtain ⟨t1, h1, h2⟩ := Option.bind_eq_some_iff.1 h
  obtain ⟨t2, h3, h4⟩ := Option.bind_eq_some_iff.1 h2
  exact Api.splitAll _ ((Api.empty.add far_convex h1).add tetra_convex h3) h4

theorem meshLast_api {t : Node} (h : meshLast = some t) : Api false t bothSources := by
  obtain ⟨t1, h1, h2⟩ := Option.bind_eq_some_iff.1 h
  obtain ⟨t2, h3, h4⟩ := Option.bind_eq_some_iff.1 h2
  exact (Api.splitAll _ (Api.empty.add far_convex h1) h3).add tetra_convex h4

/-- The hypotheses of C39 and C64 are met by a tree with five leaves and thirteen
polygons made from five. -/
example : ∃ t, Api false t bothSources ∧ t.planes.length = 4 ∧ t.polys.length = 13 ∧ Reach false t bothSources := by
  have h : meshFirst.map (fun t => (t.planes.length, t.polys.length)) = some (4, 13) := by decide +kernel
  obtain ⟨t, ht, e⟩ := Option.map_eq_some_iff.1 h
  simp only [Prod.mk.injEq] at e
  exact ⟨t, meshFirst_api ht, e.1, e.2, (meshFirst_api ht).spec.1⟩

/-! ### C40 -/

/-- C40 (disagreement): the winding numbers at the leaves depend on whether a mesh is
added before or after splitting.  `PushContentPWNToChildren` only changes the direct
children, so nodes below them that exist already keep their old numbers.  Here the
tetrahedron gets winding number -1 in a cell that is completely outside of it (x ≤ -5),
and winding number 0 instead of 1 in a cell at its corner. -/
theorem C40_late_content_false : ∃ tA tB, Api false tA bothSources ∧ Api false tB bothSources ∧ meshFirst = some tA ∧ meshLast = some tB ∧
    leafWinding 0 tA = [0, 1, 0, 0, 0] ∧ leafWinding 0 tB = [-1, 0, 0, 0, 0] := by
  have hA : meshFirst.map (leafWinding 0) = some [0, 1, 0, 0, 0] := by decide +kernel
  have hB : meshLast.map (leafWinding 0) = some [-1, 0, 0, 0, 0] := by decide +kernel
  obtain ⟨tA, a1, a2⟩ := Option.map_eq_some_iff.1 hA
  obtain ⟨tB, b1, b2⟩ := Option.map_eq_some_iff.1 hB
  exact ⟨tA, tB, meshFirst_api a1, meshLast_api b1, a1, b1, a2, b2⟩

/-- C40: splitting a leaf changes only the winding numbers of contents that
have polygons inside of the cell; all others have the same number in both new cells as
before.  What the changed numbers are is in `Props/Winding.lean`. -/
theorem C40_unaffected {aabb : Bool} {d d' n p : NodeData} {g : HS3} {S : List Source} {t : Node} {anc : Anc} {path : List Bool}
    (h : Reach aabb t S) (hd : (anc, .leaf d) ∈ t.subs []) (ht : split path d g = some (.inner d' g (.leaf n) (.leaf p)))
    (id : Nat) (hid : ∀ x ∈ t.polys, x.id = id → Disjoint x.poly.region (Cell anc) ∨ ∃ a ∈ anc, Through a.1.plane x.poly.plane) :
    (n.infoFor id).pwn = (d.infoFor id).pwn ∧ (p.infoFor id).pwn = (d.infoFor id).pwn := by
  unfold split at ht
  split_ifs at ht with hz
  obtain ⟨k, hk, e⟩ := Option.map_eq_some_iff.1 ht
  simp only [Node.inner.injEq, Node.leaf.injEq, true_and] at e
  obtain ⟨_, rfl, rfl⟩ := e
  have hok := h.spec.1.sub _ hd
  have hsub : ∀ (t : Node) (anc0 : Anc), (anc, Node.leaf d) ∈ t.subs anc0 → ∀ x ∈ d.contents, x ∈ t.polys := by
    intro t
    induction t with
    | leaf d' =>
      intro anc0 hm x hx
      have e := List.mem_singleton.1 hm
      simp only [Prod.mk.injEq, Node.leaf.injEq] at e
      unfold Node.polys; rw [← e.2]; exact List.mem_append_left _ hx
    | inner d' g' n' p' ihn ihp =>
      intro anc0 hm x hx
      unfold Node.subs at hm
      unfold Node.polys
      rcases List.mem_cons.1 hm with e | hm
      · simp at e
      · rcases List.mem_append.1 hm with hm | hm
        · exact List.mem_append_right _ (List.mem_append_left _ (ihn _ hm x hx))
        · exact List.mem_append_right _ (List.mem_append_right _ (ihp _ hm x hx))
  have hc : ∀ x ∈ d.contents, ¬ (x.id = id) := by
    intro x hx e
    have hx' := hok.contents x hx
    rcases hid x (hsub t [] hd x hx) e with hh | ⟨a, ha, hh⟩
    · obtain ⟨q, hq⟩ := region_nonempty hx'.toPieceOK
      exact Set.disjoint_left.1 hh hq (hx'.cell hq)
    · exact hx'.off.2 a ha hh
  have hs := pushChildren_same2 (P := fun i => i = id) hc hk
  have e0 : ((setPwn d.info).info.getD id {}).pwn = (d.info.getD id {}).pwn := by
    simp only [setPwn, List.getD_eq_getElem?_getD, List.getElem?_map]
    cases d.info[id]? <;> rfl
  exact ⟨(hs.1.2 id rfl).trans e0, (hs.2.2 id rfl).trans e0⟩

/-- C39 (disagreement): adding a polygon with a new id to a tree that has been split is
undefined: the children's content vectors are too short and are not resized. -/
theorem C39_new_id_undefined : ∃ t S, Api false t S ∧ (∀ P ∈ tetra, IsConvexPolygon P) ∧ t.addContents false 1 tetra = none := by
  have h : (((Node.leaf {}).addContents false 0 [farTriangle]).bind fun t => (splitAll t [([], ⟨⟨1, 0, 0⟩, 1⟩)]).bind fun t =>
      some (t.addContents false 1 tetra).isNone) = some true := by decide +kernel
  obtain ⟨t1, h1, h2⟩ := Option.bind_eq_some_iff.1 h
  obtain ⟨t2, h3, h4⟩ := Option.bind_eq_some_iff.1 h2
  refine ⟨t2, _, Api.splitAll _ (Api.empty.add far_convex h1) h3, tetra_convex, ?_⟩
  simpa using h4

/-- The hypotheses of the definedness theorems are met by that tree and a further split. -/
example : ∃ t S, Reach false t S ∧ Spread [] t ∧ Fits 1 t ∧ (∀ s ∈ S, s.id < 1) ∧ Fresh ⟨⟨0, 1, 0⟩, 1⟩ t [true] ∧
    ∃ t', t.splitAt [] [true] ⟨⟨0, 1, 0⟩, 1⟩ = some t' := by
  obtain ⟨t1, h1⟩ : ∃ t1, (Node.leaf {}).addRoot false 0 farTriangle = some t1 := Option.isSome_iff_exists.1 (by decide +kernel)
  have r1 : Reach false t1 [⟨0, farTriangle⟩] := Reach.empty.add (far_convex _ (by simp)) h1
  have hl : ∃ d, t1 = .leaf d ∧ d.info.length = 1 := by
    unfold Node.addRoot at h1
    obtain ⟨d, hd, rfl⟩ := Option.map_eq_some_iff.1 h1
    refine ⟨d, rfl, ?_⟩
    rw [← Option.some.inj hd]; rfl
  obtain ⟨d, rfl, hlen⟩ := hl
  have f1 : Fits 1 (.leaf d) := hlen.ge
  obtain ⟨t2, h2, s2, f2⟩ := C39_split_defined r1 trivial f1 (by simp) (path := []) (g := ⟨⟨1, 0, 0⟩, 1⟩) (by decide) trivial
  have r2 := r1.split h2
  obtain ⟨d', n, p, rfl⟩ : ∃ d' n p, t2 = .inner d' ⟨⟨1, 0, 0⟩, 1⟩ (.leaf n) (.leaf p) := by
    unfold Node.splitAt split at h2
    split_ifs at h2
    obtain ⟨k, _, rfl⟩ := Option.map_eq_some_iff.1 h2
    exact ⟨_, _, _, rfl⟩
  have fr : Fresh ⟨⟨0, 1, 0⟩, 1⟩ (.inner d' ⟨⟨1, 0, 0⟩, 1⟩ (.leaf n) (.leaf p)) [true] := by
    refine ⟨fun ht => ?_, trivial⟩
    have := ht ![1, 0, 0] (by rw [HS3.side_eq]; simp)
    rw [HS3.side_eq] at this
    simp at this
  obtain ⟨t3, h3, _⟩ := C39_split_defined r2 s2 f2 (by simp) (by decide) fr
  exact ⟨_, _, r2, s2, f2, by simp, fr, t3, h3⟩

end Walnut.Props
