/-
C89: the polygons from which the polyhedron of a node is made.
-/
import Verif.Bsp.CellBorderProof
import Verif.Props.NodeBorder
import Verif.Props.BoxPolygons
import Verif.Props.BoxMesh
import Verif.Props.Winding
import Verif.Props.Filters
import Verif.Poly.BoxCut

namespace Walnut.Props
open Walnut.Geom Walnut.Poly Walnut.Bsp

theorem solid_walls {b : AABB} (hb : SolidBox b) : ∀ P ∈ walls () b, IsConvexPolygon P := fun P hP =>
  ((C70_walls () b hb.1 fun i => (hb.2 i).le).1 P hP).1

theorem wall_mem {b : AABB} (hb : SolidBox b) {P : Polygon Unit} (hP : P ∈ walls () b) {q : Q3} (hq : InBox b q) (h0 : P.plane.side q = 0) :
    q ∈ P.region := by
  obtain ⟨side, info, hs, hinfo, n1, n2, rfl⟩ := mem_walls.1 hP
  rw [wall_region () hb.1 (fun i => (hb.2 i).le) side hs info hinfo (hb.2 _) (hb.2 _)]
  refine ⟨hq, ?_⟩
  have hd : (b.den : ℚ) ≠ 0 := by exact_mod_cast hb.1.ne'
  change (wallPlane b side info.1).side q = 0 at h0
  rw [wallPlane_side] at h0
  split_ifs at h0 ⊢
  · rw [eq_div_iff hd]; linarith
  · rw [eq_div_iff hd]; linarith

/-- C89: each polygon of the mapped node is convex and inside of the box and of the closed
cell of the node.  It is either a piece of a wall of the box, and the box is behind it, or it
lies in a split plane above the node and faces away from the node. -/
theorem C89_sound {aabb : Bool} {t : Node} {path : List Bool} {b : AABB} (hb : SolidBox b) {d : NodeData}
    (h : mappedCell aabb t path b = some d) :
    ∃ l, pathPlanes t path = some l ∧ ∀ x ∈ d.border ++ d.contents, IsConvexPolygon x.poly ∧
      (∀ q ∈ x.poly.region, InBox b q ∧ ∀ a ∈ l, onSide a.1 a.2 q) ∧
      ((x.id = 0 ∧ (∀ q, InBox b q → x.poly.plane.side q ≤ 0) ∧ ∀ q ∈ x.poly.region, ∃ i up, q ∈ Facet b i up) ∨
        (x.id = 1 ∧ ∃ a ∈ l, x.poly.plane = if a.2 then a.1.neg else a.1)) := by
  obtain ⟨l, S, m, h1, hp, c1, r1, r2, r3, h4, -⟩ := mappedCell_inv h (solid_walls hb) fun l _ a _ => solid_cut hb a
  refine ⟨l, h1, fun x hx => ?_⟩
  obtain ⟨d', anc, e1, e2, e3, e4⟩ := r3.leaf []
  rw [hp, h4, Option.some.injEq, Node.leaf.injEq] at e1
  subst e1
  rw [List.nil_append] at e2
  obtain ⟨k1, k2⟩ := C39_cells r1 e2
  have hok : IsConvexPolygon x.poly ∧ x.poly.region ⊆ Cell anc := by
    rcases List.mem_append.1 hx with hx | hx
    · exact ⟨(k2 x hx).1, (k2 x hx).2.1⟩
    · exact ⟨(k1 x hx).1, (k1 x hx).2.1⟩
  have src : ∀ q ∈ x.poly.region, InBox b q ∧
      ((x.id = 0 ∧ (∀ q, InBox b q → x.poly.plane.side q ≤ 0) ∧ ∃ i up, q ∈ Facet b i up) ∨ (x.id = 1 ∧ ∃ a ∈ l, x.poly.plane = outward a)) := by
    intro q hq
    obtain ⟨s, hs, s1, s2, s3⟩ := (C39_cover r1 x.id x.poly.plane q).1 ⟨x, e4.subset hx, rfl, rfl, hq⟩
    rcases List.mem_append.1 hs with hs | hs
    · obtain ⟨P, hP, rfl⟩ := List.mem_map.1 hs
      obtain ⟨-, w2, i, up, w3⟩ := (C70_walls () b hb.1 fun i => (hb.2 i).le).1 P hP
      dsimp only at s1 s2 s3
      rw [w3] at s3
      exact ⟨s3.1, Or.inl ⟨s1.symm, by rw [← s2]; exact w2, i, up, s3⟩⟩
    · obtain ⟨a0, a, ha, a1, a2⟩ := c1.mem.1 s hs
      rw [a2] at s3
      exact ⟨s3.2, Or.inr ⟨by rw [← s1, a0], a, ha, by rw [← s2, a1]⟩⟩
  refine ⟨hok.1, fun q hq => ⟨(src q hq).1, fun a ha => ?_⟩, ?_⟩
  · rw [← e3] at ha
    obtain ⟨c, hc, rfl⟩ := List.mem_map.1 ha
    exact hok.2 hq c hc
  · obtain ⟨-, e | e⟩ := src (x.poly.pt 0) (subset_convexHull _ _ ⟨0, by obtain ⟨i, j, k, h1, h2, h3, -⟩ := hok.1.proper; omega, rfl⟩)
    · refine Or.inl ⟨e.1, e.2.1, fun q hq => ?_⟩
      obtain ⟨-, f | f⟩ := src q hq
      · exact f.2.2
      · rw [e.1] at f
        exact absurd f.1 (by decide)
    · exact Or.inr e

/-- C89: a point of a facet of the box that is strictly on the node's side of all the split
planes above the node is in a polygon of the mapped node, with the id of the box, that has the
whole box behind it and the facet's plane. -/
theorem C89_cover_walls {aabb : Bool} {t : Node} {path : List Bool} {b : AABB} (hb : SolidBox b) {d : NodeData}
    (h : mappedCell aabb t path b = some d) {l : List (HS3 × Bool)} (hl : pathPlanes t path = some l)
    {i : Fin 3} {up : Bool} {q : Q3} (hq : q ∈ Facet b i up) (hs : ∀ c ∈ l, if c.2 then 0 < c.1.side q else c.1.side q < 0) :
    ∃ x ∈ d.border ++ d.contents, x.id = 0 ∧ q ∈ x.poly.region ∧ (∀ z, InBox b z → x.poly.plane.side z ≤ 0) ∧
      ∀ z ∈ Facet b i up, x.poly.plane.side z = 0 := by
  obtain ⟨l', S, m, h1, hp, c1, r1, r2, r3, h4, -⟩ := mappedCell_inv h (solid_walls hb) fun l _ a _ => solid_cut hb a
  rw [hl, Option.some.injEq] at h1
  subst h1
  obtain ⟨w1, w2, -⟩ := C70_walls () b hb.1 fun i => (hb.2 i).le
  obtain ⟨P, hP, eP⟩ := w2 i up fun j _ => hb.2 j
  obtain ⟨p1, p2, -⟩ := w1 P hP
  obtain ⟨x, hx, x0, x1, x2⟩ := (C39_cover r1 0 P.plane q).2 ⟨⟨0, P⟩, List.mem_append_left _ (List.mem_map.2 ⟨P, hP, rfl⟩), rfl, rfl, by
    change q ∈ P.region
    rw [eP]; exact hq⟩
  obtain ⟨d', f1, f2⟩ := r3.findFacing r2 r1.spec.1 hx x2 fun c hc => Or.inl (hs c hc)
  rw [hp, h4, Option.some.injEq, Node.leaf.injEq] at f1
  subst f1
  refine ⟨x, f2, x0, x2, by rw [x1]; exact p2, fun z hz => ?_⟩
  rw [x1]
  rw [← eP] at hz
  exact le_antisymm (region_le (fun i hi => (p1.onPlane i hi).le) hz) (region_ge (fun i hi => (p1.onPlane i hi).ge) hz)

/-- C89: a point of the box that lies in one of the split planes above the node, and strictly
on the node's side of all the others, is in a polygon of the mapped node that lies in that
split plane and faces away from the node. -/
theorem C89_cover_splits {aabb : Bool} {t : Node} {path : List Bool} {b : AABB} (hb : SolidBox b) {d : NodeData}
    (h : mappedCell aabb t path b = some d) {l1 l2 : List (HS3 × Bool)} {a : HS3 × Bool} (hl : pathPlanes t path = some (l1 ++ a :: l2))
    (hn : a.1.n ≠ ⟨0, 0, 0⟩)
    {q : Q3} (hq : InBox b q) (ha : a.1.side q = 0) (hs : ∀ c ∈ l1 ++ l2, if c.2 then 0 < c.1.side q else c.1.side q < 0) :
    ∃ x ∈ d.border ++ d.contents, q ∈ x.poly.region ∧ (∀ z, x.poly.plane.side z = 0 → a.1.side z = 0) ∧
      if a.2 then dotQ x.poly.plane.n.q a.1.n.q < 0 else 0 < dotQ x.poly.plane.n.q a.1.n.q := by
  obtain ⟨l', S, m, h1, hp, c1, r1, r2, r3, h4, -⟩ := mappedCell_inv h (solid_walls hb) fun l _ a _ => solid_cut hb a
  rw [hl, Option.some.injEq] at h1
  subst h1
  have oa : (outward a).side q = 0 := by rw [outward_side, ha]; split_ifs <;> simp
  have on : (outward a).n ≠ ⟨0, 0, 0⟩ := by
    intro e
    apply hn
    unfold outward at e
    split_ifs at e
    · simp only [HS3.neg, V3.neg, V3.mk.injEq, neg_eq_zero] at e
      ext
      · exact e.1
      · exact e.2.1
      · exact e.2.2
    · exact e
  have main : ∃ s ∈ (walls () b).map (fun P => (⟨0, P⟩ : Source)) ++ S, Bsp.Facing s.poly.plane a ∧ q ∈ s.poly.region := by
    rcases c1.mem.2 a (by simp) with e | ⟨s, hsS, -, s1, s2⟩
    · obtain ⟨P, hP, u, v, hu, hv, e1, e2⟩ := isWallPlane_spec hb.1 on e
      refine ⟨⟨0, P⟩, List.mem_append_left _ (List.mem_map.2 ⟨P, hP, rfl⟩), facing_of_multiple hn hu hv e1 e2, ?_⟩
      have := e1 q
      rw [oa, mul_zero] at this
      exact wall_mem hb hP hq ((mul_eq_zero.1 this).resolve_left hu.ne')
    · refine ⟨s, List.mem_append_right _ hsS, ?_, by rw [s2]; exact ⟨oa, hq⟩⟩
      exact facing_of_multiple hn one_pos one_pos (fun q => by rw [s1]) (by rw [s1])
  obtain ⟨s, hsS, s1, s2⟩ := main
  obtain ⟨x, hx, x0, x1, x2⟩ := (C39_cover r1 s.id s.poly.plane q).2 ⟨s, hsS, rfl, rfl, s2⟩
  obtain ⟨d', f1, f2⟩ := r3.findFacing r2 r1.spec.1 hx x2 (by
    intro c hc
    rcases List.mem_append.1 hc with hc | hc
    · exact Or.inl (hs c (List.mem_append_left _ hc))
    · rcases List.mem_cons.1 hc with rfl | hc
      · exact Or.inr (by rw [x1]; exact s1)
      · exact Or.inl (hs c (List.mem_append_right _ hc)))
  rw [hp, h4, Option.some.injEq, Node.leaf.injEq] at f1
  subst f1
  refine ⟨x, f2, x2, ?_⟩
  rw [x1]
  exact s1

theorem splitPath_splits {d0 : NodeData} : ∀ {l : List (HS3 × Bool)} {done : List Bool} {t t' : Node}, Splits d0 t → splitPath l done t = some t' → Splits d0 t' := by
  intro l
  induction l with
  | nil => intro done t t' h e; cases e; exact h
  | cons a l ih =>
    intro done t t' h e
    unfold splitPath at e
    obtain ⟨t1, e1, e2⟩ := Option.bind_eq_some_iff.1 e
    exact ih (h.split e1) e2

/-- What is known about the box at the mapped node if none of its walls has a piece there. -/
theorem cell_winding {aabb : Bool} {t : Node} {path : List Bool} {b : AABB} (hb : SolidBox b) {d : NodeData}
    (h : mappedCell aabb t path b = some d) {l : List (HS3 × Bool)} (hl : pathPlanes t path = some l) :
    ((d.infoFor 0).hasPolygons = true ↔ ∃ x ∈ d.border ++ d.contents, x.id = 0) ∧
    ∀ q, (∀ c ∈ l, if c.2 then 0 < c.1.side q else c.1.side q < 0) → (d.infoFor 0).hasPolygons = false →
      (StrictlyInBox b q → (d.infoFor 0).pwn = 1) ∧ (¬ InBox b q → (d.infoFor 0).pwn = 0) := by
  obtain ⟨l', S, m, h1, hp, c1, r1, r2, r3, h4, d0, k1, k2⟩ := mappedCell_inv h (solid_walls hb) fun l _ a _ => solid_cut hb a
  rw [hl, Option.some.injEq] at h1
  subst h1
  obtain ⟨d', anc, e1, e2, e3, e4⟩ := r3.leaf []
  rw [hp, h4, Option.some.injEq, Node.leaf.injEq] at e1
  subst e1
  rw [List.nil_append] at e2
  obtain ⟨n1, n2⟩ := C39_leaf_counters r1 e2 0
  have has : (d.infoFor 0).hasPolygons = true ↔ ∃ x ∈ d.border ++ d.contents, x.id = 0 := by
    rw [hasPolygons_iff, n1, n2, List.countP_pos_iff, List.countP_pos_iff]
    simp only [beq_iff_eq, List.mem_append]
    constructor
    · rintro (⟨x, hx, e⟩ | ⟨x, hx, e⟩)
      · exact ⟨x, Or.inr hx, e⟩
      · exact ⟨x, Or.inl hx, e⟩
    · rintro ⟨x, hx | hx, e⟩
      · exact Or.inr ⟨x, hx, e⟩
      · exact Or.inl ⟨x, hx, e⟩
  refine ⟨has, fun q hq hn => ?_⟩
  have hid : ∀ x ∈ d.contents, x.id ≠ 0 := by
    intro x hx e
    rw [has.2 ⟨x, List.mem_append_right _ hx, e⟩] at hn
    exact absurd hn (by decide)
  have mesh : meshOf ((walls () b).map (fun P => (⟨0, P⟩ : Source)) ++ S) 0 = walls () b := by
    unfold meshOf
    rw [List.filter_append, List.filter_eq_self.2, List.filter_eq_nil_iff.2, List.append_nil, List.map_map]
    · exact List.map_id _
    · intro s hs
      rw [(c1.mem.1 s hs).1]
      decide
    · intro s hs
      obtain ⟨P, -, rfl⟩ := List.mem_map.1 hs
      rfl
  have inside : InsideOf anc q := by
    intro a ha
    exact hq (a.1.plane, a.2) (by rw [← e3]; exact List.mem_map.2 ⟨a, ha, rfl⟩)
  obtain ⟨v, hv⟩ := exists_transversal (fun P hP => solid_walls hb P hP) q
  have w := C40_winding k1 (splitPath_splits .leaf k2) e2 (id := 0) (by rw [mesh]; exact C70_closed hb) hid inside (by rw [mesh]; exact hv)
  rw [mesh] at w
  rw [w]
  exact C70_winding hb hv

/-- C89: if `GetNodeBorder` returns early, with no polygons, then the box and the cell of the node have no inner point in common. -/
theorem C89_early {aabb : Bool} {t : Node} {path : List Bool} {b : AABB} (hb : SolidBox b) {d : NodeData}
    (h : mappedCell aabb t path b = some d) {l : List (HS3 × Bool)} (hl : pathPlanes t path = some l) (he : returnsEarly d = true)
    {q : Q3} (hq : ∀ i, (b.lo.comp i / b.den : ℚ) < q i ∧ q i < b.hi.comp i / b.den) :
    ¬ ∀ c ∈ l, if c.2 then 0 < c.1.side q else c.1.side q < 0 := by
  intro hs
  unfold returnsEarly at he
  rw [Bool.and_eq_true, decide_eq_true_eq, Bool.not_eq_true'] at he
  have := ((cell_winding hb h hl).2 q hs he.2).1 hq
  omega

/-- C89: if the box and the closed cell of the node have no point in common, and the cell has an
inner point, then `GetNodeBorder` returns early. -/
theorem C89_outside {aabb : Bool} {t : Node} {path : List Bool} {b : AABB} (hb : SolidBox b) {d : NodeData}
    (h : mappedCell aabb t path b = some d) {l : List (HS3 × Bool)} (hl : pathPlanes t path = some l)
    (hd : ∀ q, InBox b q → ¬ ∀ c ∈ l, onSide c.1 c.2 q) {q : Q3} (hq : ∀ c ∈ l, if c.2 then 0 < c.1.side q else c.1.side q < 0) :
    returnsEarly d = true := by
  obtain ⟨w1, w2⟩ := cell_winding hb h hl
  have hn : (d.infoFor 0).hasPolygons = false := by
    rw [Bool.eq_false_iff]
    intro hp
    obtain ⟨x, hx, -⟩ := w1.1 hp
    obtain ⟨l', hl', snd⟩ := C89_sound hb h
    rw [hl, Option.some.injEq] at hl'
    subst hl'
    obtain ⟨s1, s2, -⟩ := snd x hx
    have := s2 (x.poly.pt 0) (subset_convexHull _ _ ⟨0, by obtain ⟨i, j, k, h1, h2, h3, -⟩ := s1.proper; omega, rfl⟩)
    exact hd _ this.1 this.2
  have hout : ¬ InBox b q := by
    intro hb'
    refine hd q hb' fun c hc => ?_
    have := hq c hc
    unfold onSide
    split_ifs at this ⊢
    · exact this.le
    · exact this.le
  unfold returnsEarly
  rw [hn, (w2 q hq hn).2 hout]
  rfl

theorem addRoot_defined (d : NodeData) (id : Nat) (P : Polygon Unit) : ∃ d', (Node.leaf d).addRoot false id P = some (.leaf d') := ⟨_, rfl⟩

theorem addWalls_defined : ∀ (l : List (Polygon Unit)) (d : NodeData), ∃ d', addWalls false l (.leaf d) = some (.leaf d') := by
  intro l
  induction l with
  | nil => intro d; exact ⟨d, rfl⟩
  | cons P l ih =>
    intro d
    obtain ⟨d1, h1⟩ := addRoot_defined d 0 P
    obtain ⟨d2, h2⟩ := ih d1
    exact ⟨d2, by unfold addWalls; rw [h1]; exact h2⟩

theorem setCompare_defined {a g : HS3} (ha : a.n.x + a.n.y + a.n.z ≠ -2 ^ 63) (hg : g.n.x + g.n.y + g.n.z ≠ -2 ^ 63) : ∃ r, a.setCompare g = some r := by
  unfold HS3.setCompare abs?
  rw [if_neg ha, if_neg hg]
  exact ⟨_, rfl⟩

theorem isWallPlane_defined {g : HS3} (hg : g.n.x + g.n.y + g.n.z ≠ -2 ^ 63) : ∀ {l : List (Polygon Unit)},
    (∀ P ∈ l, P.plane.n.x + P.plane.n.y + P.plane.n.z ≠ -2 ^ 63) → ∃ r, isWallPlane g l = some r := by
  intro l
  induction l with
  | nil => intro _; exact ⟨false, rfl⟩
  | cons P l ih =>
    intro h
    obtain ⟨r1, h1⟩ := setCompare_defined (h P (by simp)) hg
    obtain ⟨r2, h2⟩ := setCompare_defined hg (h P (by simp))
    obtain ⟨r3, h3⟩ := ih fun Q hQ => h Q (List.mem_cons_of_mem _ hQ)
    unfold isWallPlane
    rw [h1, h2, h3]
    exact ⟨_, rfl⟩

theorem outward_sum {a : HS3 × Bool} (h1 : a.1.n.x + a.1.n.y + a.1.n.z ≠ -2 ^ 63) (h2 : a.1.n.x + a.1.n.y + a.1.n.z ≠ 2 ^ 63) :
    (outward a).n.x + (outward a).n.y + (outward a).n.z ≠ -2 ^ 63 := by
  unfold outward
  split_ifs
  · simp only [HS3.neg, V3.neg]
    omega
  · exact h1

theorem wall_sum {b : AABB} (hb : SolidBox b) (hd : b.den ≠ 2 ^ 63) {P : Polygon Unit} (hP : P ∈ walls () b) :
    P.plane.n.x + P.plane.n.y + P.plane.n.z ≠ -2 ^ 63 := by
  obtain ⟨side, info, hs, hinfo, n1, n2, rfl⟩ := mem_walls.1 hP
  change (wallPlane b side info.1).n.x + (wallPlane b side info.1).n.y + (wallPlane b side info.1).n.z ≠ -2 ^ 63
  have := hb.1
  unfold wallPlane
  obtain e | e | e := fin3 info.1 <;> rw [e] <;> simp only [V3.set, V3.zero] <;> split_ifs <;> simp <;> omega

theorem addCuts_defined {b : AABB} (hb : SolidBox b) (hden : b.den ≠ 2 ^ 63) : ∀ {l : List (HS3 × Bool)} {d : NodeData}, (∀ a ∈ l, a.1.n ≠ ⟨0, 0, 0⟩) →
    (∀ a ∈ l, a.1.n.x + a.1.n.y + a.1.n.z ≠ -2 ^ 63 ∧ a.1.n.x + a.1.n.y + a.1.n.z ≠ 2 ^ 63) →
    (∀ a ∈ l, ¬ MeetInLine b a.1) → ∃ d', addCuts false b l (.leaf d) = some (.leaf d') := by
  intro l
  induction l with
  | nil => intro d _ _ _; exact ⟨_, rfl⟩
  | cons a l ih =>
    intro d h1 h3 h2
    have ih' := fun d => ih (d := d) (fun a ha => h1 a (List.mem_cons_of_mem _ ha)) (fun a ha => h3 a (List.mem_cons_of_mem _ ha))
      (fun a ha => h2 a (List.mem_cons_of_mem _ ha))
    obtain ⟨w, hw⟩ := isWallPlane_defined (outward_sum (h3 a (by simp)).1 (h3 a (by simp)).2) fun P hP => wall_sum hb hden hP
    unfold addCuts
    rw [hw]
    cases w with
    | true => exact ih' d
    | false =>
      obtain ⟨r, e1, e2, e3⟩ := C69_intersect_plane_partial plainOps () b hb.1 (fun i => (hb.2 i).le) (outward a) (fun _ j _ _ _ => hb.2 j)
      obtain ⟨P, rfl⟩ : ∃ P, r = some P := by
        cases r with
        | some P => exact ⟨P, rfl⟩
        | none =>
          exfalso
          rcases e3.1 rfl with e | e
          · refine h1 a (by simp) ?_
            unfold outward at e
            split_ifs at e
            · simp only [HS3.neg, V3.neg, V3.mk.injEq, neg_eq_zero] at e
              ext
              · exact e.1
              · exact e.2.1
              · exact e.2.2
            · exact e
          · refine h2 a (by simp) ?_
            unfold outward at e
            split_ifs at e
            · exact meetInLine_neg e
            · exact e
      dsimp only
      rw [e1]
      dsimp only
      obtain ⟨d1, k1⟩ := addRoot_defined d 1 P
      rw [k1]
      exact ih' d1

/-- C89: the polygons are found if each split plane above the node has more than a line in
common with the box, no two of them are equal, and no sum of the components of a normal
is -2^63 or 2^63.  For polygons that do not track their bounding boxes. -/
theorem C89_defined_partial {t : Node} {path : List Bool} {b : AABB} (hb : SolidBox b) (hden : b.den ≠ 2 ^ 63) {l : List (HS3 × Bool)}
    (hl : pathPlanes t path = some l) (h0 : ∀ a ∈ l, a.1.n ≠ ⟨0, 0, 0⟩)
    (hs : ∀ a ∈ l, a.1.n.x + a.1.n.y + a.1.n.z ≠ -2 ^ 63 ∧ a.1.n.x + a.1.n.y + a.1.n.z ≠ 2 ^ 63) (hm : ∀ a ∈ l, ¬ MeetInLine b a.1)
    (hd : l.Pairwise fun a c => ¬ Through c.1 a.1) : ∃ d, mappedCell false t path b = some d := by
  unfold mappedCell
  rw [hl, Option.bind_some]
  obtain ⟨d1, h1⟩ := addWalls_defined (walls () b) {}
  obtain ⟨d2, h2⟩ := addCuts_defined hb hden (d := d1) h0 hs hm
  rw [h1, Option.bind_some, h2, Option.bind_some]
  obtain ⟨w1, w2⟩ := addWalls_spec .empty ⟨_, rfl⟩ (solid_walls hb) h1
  obtain ⟨S, -, c2, -⟩ := addCuts_spec w1 w2 (fun a _ => solid_cut hb a) h2
  obtain ⟨m, hm⟩ := splitPath_defined (l := l) (l0 := []) (L := d2.info.length) (leaf_known c2) c2 trivial (show d2.info.length ≤ d2.info.length from le_rfl) trivial h0 (by simpa using hd)
  rw [show splitPath l [] (.leaf d2) = some m from hm, Option.bind_some]
  obtain ⟨-, -, r3⟩ := splitPath_spec (l0 := []) c2 trivial trivial hm
  rw [List.nil_append] at r3
  obtain ⟨d, -, e1, -⟩ := r3.leaf []
  rw [pathPlanes_snd hl] at e1
  exact ⟨_, by rw [e1]; rfl⟩

/-! ### Examples -/

/-- The cell with 1 ≤ x and y ≤ 1 of the box: the ids and planes of its polygons.  The walls x = 0 and y = 2 have no piece in it. -/
example : (mappedCell false crossTree [true, false] boxOfTwo).map (fun d => (d.border ++ d.contents).map fun x => (x.id, x.poly.plane.n)) =
    some [(1, ⟨0, 1, 0⟩), (1, ⟨-1, 0, 0⟩), (0, ⟨0, 0, -1⟩), (0, ⟨0, -1, 0⟩), (0, ⟨1, 0, 0⟩), (0, ⟨0, 0, 1⟩)] := by decide +kernel

/-- The hypotheses of `C89_defined_partial` hold for it. -/
example : ∃ d, mappedCell false crossTree [true, false] boxOfTwo = some d :=
  C89_defined_partial boxOfTwo_solid (by decide) (l := [(⟨⟨1, 0, 0⟩, 1⟩, true), (⟨⟨0, 1, 0⟩, 1⟩, false)]) rfl (by decide) (by decide) crossTree_meet
    crossTree_distinct

theorem crossTree_cell : ∃ d, mappedCell false crossTree [true, false] boxOfTwo = some d := by
  have : (mappedCell false crossTree [true, false] boxOfTwo).isSome = true := by decide +kernel
  exact Option.isSome_iff_exists.1 this

theorem inBoxOfTwo {x y z : ℚ} (h : 0 ≤ x ∧ x ≤ 2 ∧ 0 ≤ y ∧ y ≤ 2 ∧ 0 ≤ z ∧ z ≤ 2) : InBox boxOfTwo ![x, y, z] := by
  obtain ⟨h1, h2, h3, h4, h5, h6⟩ := h
  intro i
  fin_cases i
  · simpa [boxOfTwo, V3.comp] using ⟨h1, h2⟩
  · simpa [boxOfTwo, V3.comp] using ⟨h3, h4⟩
  · simpa [boxOfTwo, V3.comp] using ⟨h5, h6⟩

/-- The hypotheses of `C89_cover_walls` hold for the point (2, 1/2, 1) of the wall x = 2. -/
example : ∃ d, mappedCell false crossTree [true, false] boxOfTwo = some d ∧ ∃ x ∈ d.border ++ d.contents, x.id = 0 ∧ ![2, 1/2, 1] ∈ x.poly.region := by
  obtain ⟨d, hd⟩ := crossTree_cell
  obtain ⟨x, h1, h2, h3, -⟩ := C89_cover_walls (i := 0) (up := true) (q := ![2, 1/2, 1]) boxOfTwo_solid hd
    (l := [(⟨⟨1, 0, 0⟩, 1⟩, true), (⟨⟨0, 1, 0⟩, 1⟩, false)]) rfl ⟨inBoxOfTwo (by norm_num), by norm_num [boxOfTwo, V3.comp]⟩ (by
      intro c hc
      simp only [List.mem_cons, List.not_mem_nil, or_false] at hc
      rcases hc with rfl | rfl <;> norm_num [HS3.side, dotQ, V3.q, V3.comp])
  exact ⟨d, hd, x, h1, h2, h3⟩

/-- The hypotheses of `C89_cover_splits` hold for the point (1, 1/2, 1) of the first split plane. -/
example : ∃ d, mappedCell false crossTree [true, false] boxOfTwo = some d ∧ ∃ x ∈ d.border ++ d.contents, ![1, 1/2, 1] ∈ x.poly.region := by
  obtain ⟨d, hd⟩ := crossTree_cell
  obtain ⟨x, h1, h2, -⟩ := C89_cover_splits (q := ![1, 1/2, 1]) boxOfTwo_solid hd (l1 := []) (a := (⟨⟨1, 0, 0⟩, 1⟩, true))
    (l2 := [(⟨⟨0, 1, 0⟩, 1⟩, false)]) rfl (by decide) (inBoxOfTwo (by norm_num)) (by norm_num [HS3.side, dotQ, V3.q, V3.comp]) (by
      intro c hc
      simp only [List.nil_append, List.mem_cons, List.not_mem_nil, or_false] at hc
      subst hc
      norm_num [HS3.side, dotQ, V3.q, V3.comp])
  exact ⟨d, hd, x, h1, h2⟩

/-- The cell of the example is not outside of the box, and a cell can be: the half-space 2 ≤ x, when x = 2 is a wall. -/
example : (mappedCell false crossTree [true, false] boxOfTwo).map returnsEarly = some false := by decide +kernel
example : (mappedCell false (.inner {} ⟨⟨1, 0, 0⟩, 2⟩ (.leaf {}) (.leaf {})) [false] boxOfTwo).map returnsEarly = some false := by decide +kernel
example : (mappedCell false (.inner {} ⟨⟨1, 0, 0⟩, 2⟩ (.leaf {}) (.leaf {})) [true] boxOfTwo).map returnsEarly = some true := by decide +kernel

/-- A tree with the cell 7 ≤ x + 3y, 1 ≤ x - y.  Both planes meet the box, but the cell does not. -/
def besideTree : Node := .inner {} ⟨⟨1, 3, 0⟩, 7⟩ (.leaf {}) (.inner {} ⟨⟨1, -1, 0⟩, 1⟩ (.leaf {}) (.leaf {}))

/-- The hypotheses of `C89_outside` hold for it. -/
example : ∃ d, mappedCell false besideTree [true, true] boxOfTwo = some d ∧ returnsEarly d = true := by
  have : (mappedCell false besideTree [true, true] boxOfTwo).isSome = true := by decide +kernel
  obtain ⟨d, hd⟩ := Option.isSome_iff_exists.1 this
  refine ⟨d, hd, C89_outside boxOfTwo_solid hd (l := [(⟨⟨1, 3, 0⟩, 7⟩, true), (⟨⟨1, -1, 0⟩, 1⟩, true)]) rfl ?_ (q := ![5, 1, 0]) ?_⟩
  · intro q hq h
    have h1 := h (⟨⟨1, 3, 0⟩, 7⟩, true) (by simp)
    have h2 := h (⟨⟨1, -1, 0⟩, 1⟩, true) (by simp)
    have h3 := (hq 0).2
    norm_num [onSide, HS3.side_eq, boxOfTwo, V3.comp] at h1 h2 h3
    linarith
  · intro c hc
    simp only [List.mem_cons, List.not_mem_nil, or_false] at hc
    rcases hc with rfl | rfl <;> norm_num [HS3.side, dotQ, V3.q, V3.comp]

/-- A split plane that is a wall of the box is not added. -/
example : isWallPlane (outward (⟨⟨3, 0, 0⟩, 6⟩, false)) (walls () boxOfTwo) = some true := by decide +kernel
example : isWallPlane (outward (⟨⟨3, 0, 0⟩, 6⟩, true)) (walls () boxOfTwo) = some false := by decide +kernel

/-- C89 (disagreement): a split plane that misses the box fails an assertion, although the box may be inside of the node. -/
theorem C89_miss_undefined : SolidBox boxOfTwo ∧ ∃ t path, (∃ S, Reach false t S) ∧ mappedCell false t path boxOfTwo = none := by
  refine ⟨boxOfTwo_solid, ?_⟩
  cases h : (Node.leaf {}).splitAt [] [] ⟨⟨1, 0, 0⟩, 5⟩ with
  | none => exact absurd h (by decide +kernel)
  | some t =>
    refine ⟨t, [false], ⟨_, Reach.empty.split h⟩, ?_⟩
    have : ((Node.leaf {}).splitAt [] [] ⟨⟨1, 0, 0⟩, 5⟩).map (fun t => (mappedCell false t [false] boxOfTwo).isNone) = some true := by decide +kernel
    rw [h] at this
    simpa using this

end Walnut.Props
