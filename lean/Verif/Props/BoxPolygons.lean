/-
Properties C69 and C70: the polygons made from a box.
-/
import Verif.Poly.BoxWalls

namespace Walnut.Props
open Walnut.Geom Walnut.Poly

variable {D : Type}

/-- The points of a plane that are on a second plane, not parallel to the first one, are on a line: three of them are collinear. -/
theorem collinear_turn {a g : HS3} (hc : a.n.cross g.n ≠ ⟨0, 0, 0⟩) {p q r : Q3} (ap : a.side p = 0) (aq : a.side q = 0) (ar : a.side r = 0)
    (gp : g.side p = 0) (gq : g.side q = 0) (gr : g.side r = 0) : Poly.turn a.n.q p q r = 0 := by
  have hpos := vec_ne_zero_q hc
  simp only [V3.cross] at hpos
  push_cast at hpos
  rw [HS3.side_eq] at ap aq ar gp gq gr
  have u1 : (a.n.x : ℚ) * (q 0 - p 0) + a.n.y * (q 1 - p 1) + a.n.z * (q 2 - p 2) = 0 := by linarith
  have u2 : (g.n.x : ℚ) * (q 0 - p 0) + g.n.y * (q 1 - p 1) + g.n.z * (q 2 - p 2) = 0 := by linarith
  have v1 : (a.n.x : ℚ) * (r 0 - p 0) + a.n.y * (r 1 - p 1) + a.n.z * (r 2 - p 2) = 0 := by linarith
  have v2 : (g.n.x : ℚ) * (r 0 - p 0) + g.n.y * (r 1 - p 1) + g.n.z * (r 2 - p 2) = 0 := by linarith
  simp only [Poly.turn, dotQ, crossQ_zero, crossQ_one, crossQ_two, V3.q_zero, V3.q_one, V3.q_two]
  generalize (a.n.x : ℚ) = n0 at *
  generalize (a.n.y : ℚ) = n1 at *
  generalize (a.n.z : ℚ) = n2 at *
  generalize (g.n.x : ℚ) = g0 at *
  generalize (g.n.y : ℚ) = g1 at *
  generalize (g.n.z : ℚ) = g2 at *
  generalize q 0 - p 0 = a0 at *
  generalize q 1 - p 1 = a1 at *
  generalize q 2 - p 2 = a2 at *
  generalize r 0 - p 0 = b0 at *
  generalize r 1 - p 1 = b1 at *
  generalize r 2 - p 2 = b2 at *
  clear ap aq ar gp gq gr
  have par : ∀ x0 x1 x2 : ℚ, n0 * x0 + n1 * x1 + n2 * x2 = 0 → g0 * x0 + g1 * x1 + g2 * x2 = 0 →
      x1 * (n0 * g1 - n1 * g0) - x2 * (n2 * g0 - n0 * g2) = 0 ∧ x2 * (n1 * g2 - n2 * g1) - x0 * (n0 * g1 - n1 * g0) = 0 ∧
      x0 * (n2 * g0 - n0 * g2) - x1 * (n1 * g2 - n2 * g1) = 0 := by
    intro x0 x1 x2 h1 h2
    refine ⟨?_, ?_, ?_⟩
    · linear_combination n0 * h2 - g0 * h1
    · linear_combination n1 * h2 - g1 * h1
    · linear_combination n2 * h2 - g2 * h1
  obtain ⟨e1, e2, e3⟩ := par a0 a1 a2 u1 u2
  obtain ⟨f1, f2, f3⟩ := par b0 b1 b2 v1 v2
  generalize n1 * g2 - n2 * g1 = d0 at *
  generalize n2 * g0 - n0 * g2 = d1 at *
  generalize n0 * g1 - n1 * g0 = d2 at *
  have hd : d0 ≠ 0 ∨ d1 ≠ 0 ∨ d2 ≠ 0 := by
    by_contra hn
    push Not at hn
    obtain ⟨rfl, rfl, rfl⟩ := hn
    simp at hpos
  rcases hd with h | h | h
  · have A1 : a1 = a0 * d1 / d0 := by field_simp; linarith
    have A2 : a2 = a0 * d2 / d0 := by field_simp; linarith
    have B1 : b1 = b0 * d1 / d0 := by field_simp; linarith
    have B2 : b2 = b0 * d2 / d0 := by field_simp; linarith
    rw [A1, A2, B1, B2]; field_simp; ring
  · have A1 : a0 = a1 * d0 / d1 := by field_simp; linarith
    have A2 : a2 = a1 * d2 / d1 := by field_simp; linarith
    have B1 : b0 = b1 * d0 / d1 := by field_simp; linarith
    have B2 : b2 = b1 * d2 / d1 := by field_simp; linarith
    rw [A1, A2, B1, B2]; field_simp; ring
  · have A1 : a0 = a2 * d0 / d2 := by field_simp; linarith
    have A2 : a1 = a2 * d1 / d2 := by field_simp; linarith
    have B1 : b0 = b2 * d0 / d2 := by field_simp; linarith
    have B2 : b1 = b2 * d1 / d2 := by field_simp; linarith
    rw [A1, A2, B1, B2]; field_simp; ring

/-- The common points of the box and the plane lie on a line (or there are none). -/
def MeetInLine (b : AABB) (pl : HS3) : Prop :=
  ∃ g : HS3, pl.n.cross g.n ≠ ⟨0, 0, 0⟩ ∧ ∀ q, pl.side q = 0 → InBox b q → g.side q = 0

/-- C69, without flat boxes: the intersection of a plane and a box that is not empty, and not flat in a dimension other than the first
one the plane's normal uses, succeeds.  A polygon it returns is a convex polygon in the plane that covers exactly the common points of
the plane and the box; it returns an empty polygon exactly if the plane's normal is zero or the common points lie on a line. -/
theorem C69_intersect_plane_partial (ops : EdgeOps D) (d0 : D) (b : AABB) (hd : 0 < b.den) (hne : NonemptyBox b) (pl : HS3)
    (hflat : ∀ i j, pl.n.comp i ≠ 0 → (∀ k < i, pl.n.comp k = 0) → j ≠ i → b.lo.comp j < b.hi.comp j) :
    ∃ r, intersectPlane ops d0 b pl = some r ∧
      (∀ C, r = some C → IsConvexPolygon C ∧ C.plane = pl ∧ C.region = {q | pl.side q = 0 ∧ InBox b q}) ∧
      (r = none ↔ pl.n = ⟨0, 0, 0⟩ ∨ MeetInLine b pl) := by
  cases hf : pl.n.firstNonzeroDimension with
  | none =>
    refine ⟨none, by unfold intersectPlane; rw [hf], fun C h => absurd h (by simp), fun _ => Or.inl ?_, fun _ => rfl⟩
    unfold V3.firstNonzeroDimension at hf
    split at hf
    · cases hf
    · split at hf
      · cases hf
      · split at hf
        · cases hf
        · ext <;> simp_all
  | some i =>
    have hi := first_nonzero hf
    have hk : ∀ k < i, pl.n.comp k = 0 := by
      unfold V3.firstNonzeroDimension at hf
      intro k hk
      split at hf
      · cases hf; exact absurd hk (by revert k; decide)
      · split at hf
        · cases hf
          have : k = 0 := by revert k; decide
          subst this; simp_all [V3.comp]
        · split at hf
          · cases hf
            have : k = 0 ∨ k = 1 := by revert k; decide
            rcases this with rfl | rfl <;> simp_all [V3.comp]
          · cases hf
    have z : pl.n ≠ ⟨0, 0, 0⟩ := by
      intro h
      rw [h] at hi
      obtain rfl | rfl | rfl := fin3 i <;> exact hi rfl
    rcases intersectPlane_spec ops d0 hd hf (hne i) (hflat i _ hi hk (dim_ne i).1) (hflat i _ hi hk (dim_ne i).2) with
      ⟨C, e, c1, c2, c3⟩ | ⟨e, hl⟩
    · refine ⟨some C, e, fun C' h => Option.some.inj h ▸ ⟨c1, c2, c3⟩, fun h => absurd h (by simp), ?_⟩
      rintro (h | ⟨g, hg, hg'⟩)
      · exact absurd h z
      · obtain ⟨x, y, w, h1, h2, h3, ht⟩ := c1.proper
        have mem : ∀ k < C.count, pl.side (C.pt k) = 0 ∧ g.side (C.pt k) = 0 := by
          intro k hk
          have : C.pt k ∈ C.region := subset_convexHull _ _ ⟨k, hk, rfl⟩
          rw [c3] at this
          exact ⟨this.1, hg' _ this.1 this.2⟩
        rw [c2, collinear_turn hg (mem x (by omega)).1 (mem y (by omega)).1 (mem w h3).1 (mem x (by omega)).2 (mem y (by omega)).2
          (mem w h3).2] at ht
        exact absurd ht (lt_irrefl _)
    · exact ⟨none, e, fun C h => absurd h (by simp), fun _ => Or.inr hl, fun _ => rfl⟩

/-- The cube from (0,0,0) to (4,4,4) over 2. -/
def cube2 : AABB := ⟨⟨0, 0, 0⟩, ⟨4, 4, 4⟩, 2⟩

/-- The plane x + y + z = 3 meets it in a hexagon. -/
example : (intersectPlane unitOps () cube2 ⟨⟨1, 1, 1⟩, 3⟩).any (fun r => r.any fun C => C.edges.length == 6) = true := by decide +kernel

/-- The plane x + y + z = 0 meets it in a corner, the plane -y + z = 2 in an edge, the plane x = 3 not at all, and the plane -z = -2
in the top, which is returned facing down. -/
example : (intersectPlane unitOps () cube2 ⟨⟨1, 1, 1⟩, 0⟩).any (fun r => r.isNone) = true ∧
    (intersectPlane unitOps () cube2 ⟨⟨0, -1, 1⟩, 2⟩).any (fun r => r.isNone) = true ∧
    (intersectPlane unitOps () cube2 ⟨⟨1, 0, 0⟩, 3⟩).any (fun r => r.isNone) = true ∧
    (intersectPlane unitOps () cube2 ⟨⟨0, 0, -1⟩, -2⟩).any (fun r => r.any fun C => C.edges.length == 4) = true := by decide +kernel

example : ∃ r, intersectPlane unitOps () cube2 ⟨⟨1, 1, 1⟩, 3⟩ = some r ∧ (∀ C, r = some C → IsConvexPolygon C) := by
  obtain ⟨r, h1, h2, _⟩ := C69_intersect_plane_partial unitOps () cube2 (by decide) (fun i => by fin_cases i <;> decide) ⟨⟨1, 1, 1⟩, 3⟩
    (fun i j _ _ _ => by fin_cases j <;> decide)
  exact ⟨r, h1, fun C h => (h2 C h).1⟩

/-- C69 is false for flat boxes: the plane x = 1 and the flat box from (0,0,0) to (2,0,2) have a segment in common, but the result is
a polygon with two equal vertices. -/
theorem C69_flat_false : ∃ C : Polygon Unit, intersectPlane unitOps () ⟨⟨0, 0, 0⟩, ⟨2, 0, 2⟩, 1⟩ ⟨⟨1, 0, 0⟩, 1⟩ = some (some C) ∧
    ¬ IsConvexPolygon C := by
  have h : (intersectPlane unitOps () ⟨⟨0, 0, 0⟩, ⟨2, 0, 2⟩, 1⟩ ⟨⟨1, 0, 0⟩, 1⟩).any
      (fun r => r.any fun C => C.count == 4 && (C.vertexD 1 == C.vertexD 2)) = true := by decide +kernel
  cases hr : intersectPlane unitOps () ⟨⟨0, 0, 0⟩, ⟨2, 0, 2⟩, 1⟩ ⟨⟨1, 0, 0⟩, 1⟩ with
  | none => rw [hr] at h; cases h
  | some r =>
    rw [hr] at h
    cases r with
    | none => cases h
    | some C =>
      simp only [Option.any_some, Bool.and_eq_true, beq_iff_eq] at h
      refine ⟨C, rfl, fun hc => hc.distinct 1 2 (by omega) (by omega) ?_⟩
      unfold Polygon.pt
      rw [h.2]

/-- C69 is false for the empty box: its intersection with the plane x = 0 is returned as a polygon, although no point is in the box. -/
theorem C69_empty_box_false : ∃ C : Polygon Unit, intersectPlane unitOps () AABB.empty ⟨⟨1, 0, 0⟩, 0⟩ = some (some C) ∧
    C.region.Nonempty ∧ ∀ q, ¬ InBox AABB.empty q := by
  have h : (intersectPlane unitOps () AABB.empty ⟨⟨1, 0, 0⟩, 0⟩).any (fun r => r.any fun C => C.count == 4) = true := by decide +kernel
  cases hr : intersectPlane unitOps () AABB.empty ⟨⟨1, 0, 0⟩, 0⟩ with
  | none => rw [hr] at h; cases h
  | some r =>
    rw [hr] at h
    cases r with
    | none => cases h
    | some C =>
      simp only [Option.any_some, beq_iff_eq] at h
      exact ⟨C, rfl, ⟨_, subset_convexHull _ _ ⟨0, by omega, rfl⟩⟩, C27_empty⟩

/-! ### C70 -/

/-- The points of the box at its lower (`up = false`) or upper end in dimension `i`. -/
def Facet (b : AABB) (i : Fin 3) (up : Bool) : Set Q3 :=
  {q | InBox b q ∧ q i = if up then (b.hi.comp i / b.den : ℚ) else b.lo.comp i / b.den}

/-- C70: the walls of a box that is not empty are convex polygons that cover one facet each, and the box is on the negative side of
each of them.  A facet has exactly one wall if it has an area, and none otherwise. -/
theorem C70_walls (d0 : D) (b : AABB) (hd : 0 < b.den) (hne : NonemptyBox b) :
    (∀ P ∈ walls d0 b, IsConvexPolygon P ∧ (∀ q, InBox b q → P.plane.side q ≤ 0) ∧ ∃ i up, P.region = Facet b i up) ∧
    (∀ i up, (∀ j ≠ i, b.lo.comp j < b.hi.comp j) → ∃ P ∈ walls d0 b, P.region = Facet b i up) ∧
    (walls d0 b).length = 2 * ([0, 1, 2].filter fun i : Fin 3 =>
      decide (b.lo.comp (i + 1) < b.hi.comp (i + 1)) && decide (b.lo.comp (i + 2) < b.hi.comp (i + 2))).length := by
  have hq : (0 : ℚ) < b.den := by exact_mod_cast hd
  have lt : ∀ {j}, b.lo.comp j ≠ b.hi.comp j → b.lo.comp j < b.hi.comp j := fun {j} h => lt_of_le_of_ne (hne j) h
  have reg : ∀ side info, side < 6 → wallInfos[side]? = some info → b.lo.comp (info.1 + 1) ≠ b.hi.comp (info.1 + 1) →
      b.lo.comp (info.1 + 2) ≠ b.hi.comp (info.1 + 2) → (wallPoly d0 b side info).region = Facet b info.1 (decide (¬ side < 3)) := by
    intro side info hs hinfo n1 n2
    rw [wall_region d0 hd hne side hs info hinfo (lt n1) (lt n2)]
    unfold Facet
    by_cases c : side < 3 <;> simp [c]
  refine ⟨?_, ?_, ?_⟩
  · intro P hP
    obtain ⟨side, info, hs, hinfo, n1, n2, rfl⟩ := mem_walls.1 hP
    refine ⟨wall_convex d0 hd side hs info hinfo (lt n1) (lt n2), fun q hq' => ?_, info.1, _, reg side info hs hinfo n1 n2⟩
    change (wallPlane b side info.1).side q ≤ 0
    have := hq' info.1
    rw [div_le_iff₀ hq, le_div_iff₀ hq] at this
    rw [wallPlane_side]
    split <;> linarith [this.1, this.2]
  · intro i up h
    have n1 := (h _ (dim_ne i).1).ne
    have n2 := (h _ (dim_ne i).2).ne
    have : ∃ side info, side < 6 ∧ wallInfos[side]? = some info ∧ info.1 = i ∧ decide (¬ side < 3) = up := by
      clear h n1 n2
      obtain rfl | rfl | rfl := fin3 i <;> cases up
      exacts [⟨1, _, by decide, rfl, rfl, rfl⟩, ⟨3, _, by decide, rfl, rfl, rfl⟩, ⟨2, _, by decide, rfl, rfl, rfl⟩,
        ⟨4, _, by decide, rfl, rfl, rfl⟩, ⟨0, _, by decide, rfl, rfl, rfl⟩, ⟨5, _, by decide, rfl, rfl, rfl⟩]
    obtain ⟨side, info, hs, hinfo, rfl, rfl⟩ := this
    exact ⟨_, mem_walls.2 ⟨side, info, hs, hinfo, n1, n2, rfl⟩, reg side info hs hinfo n1 n2⟩
  · have e : ∀ j, b.lo.comp j < b.hi.comp j ↔ ¬ b.lo.comp j = b.hi.comp j := fun j => ⟨fun h => h.ne, lt⟩
    simp only [e]
    simp only [walls, wallInfos, List.zipIdx_cons, List.zipIdx_nil, List.map_cons, List.map_nil, wallAt_eq, fin3_eqs, zero_add]
    by_cases c0 : b.lo.comp 0 = b.hi.comp 0 <;> by_cases c1 : b.lo.comp 1 = b.hi.comp 1 <;> by_cases c2 : b.lo.comp 2 = b.hi.comp 2 <;>
      simp [c0, c1, c2, fin3_eqs]

/-- C70: the walls of a box that is flat in at most one dimension cover exactly its border. -/
theorem C70_border (d0 : D) (b : AABB) (hd : 0 < b.den) (hne : NonemptyBox b)
    (hflat : ∀ i j, i ≠ j → b.lo.comp i < b.hi.comp i ∨ b.lo.comp j < b.hi.comp j) (q : Q3) :
    (∃ P ∈ walls d0 b, q ∈ P.region) ↔ OnBoxBorder b q := by
  obtain ⟨h1, h2, _⟩ := C70_walls d0 b hd hne
  constructor
  · rintro ⟨P, hP, hq⟩
    obtain ⟨_, _, i, up, e⟩ := h1 P hP
    rw [e] at hq
    refine ⟨hq.1, i, ?_⟩
    cases up
    · exact Or.inl hq.2
    · exact Or.inr hq.2
  · rintro ⟨hq, i, hi⟩
    by_cases hf : ∃ j, ¬ b.lo.comp j < b.hi.comp j
    · obtain ⟨j, hj⟩ := hf
      obtain ⟨P, hP, e⟩ := h2 j true fun k hk => (hflat j k hk.symm).resolve_left hj
      refine ⟨P, hP, ?_⟩
      have : b.lo.comp j = b.hi.comp j := le_antisymm (hne j) (not_lt.1 hj)
      rw [e]
      refine ⟨hq, le_antisymm (hq j).2 ?_⟩
      have := (hq j).1
      simpa [‹b.lo.comp j = b.hi.comp j›] using this
    · push Not at hf
      rcases hi with hi | hi
      · obtain ⟨P, hP, e⟩ := h2 i false fun k _ => hf k
        exact ⟨P, hP, by rw [e]; exact ⟨hq, hi⟩⟩
      · obtain ⟨P, hP, e⟩ := h2 i true fun k _ => hf k
        exact ⟨P, hP, by rw [e]; exact ⟨hq, hi⟩⟩

example : (walls () cube2).length = 6 := by decide +kernel

/-- The flat box from (0,0,0) to (2,0,2) has two walls. -/
example : ((walls () ⟨⟨0, 0, 0⟩, ⟨2, 0, 2⟩, 1⟩).map fun P => P.plane) = [⟨⟨0, -1, 0⟩, 0⟩, ⟨⟨0, 1, 0⟩, 0⟩] := by decide +kernel

example : ∃ P ∈ walls () cube2, ![1, 2, 1] ∈ P.region :=
  (C70_border () cube2 (by decide) (fun i => by fin_cases i <;> decide) (fun i j _ => Or.inl (by fin_cases i <;> decide)) _).2
    ⟨fun i => by fin_cases i <;> simp [cube2, V3.comp] <;> norm_num, 1, Or.inr (by simp [cube2, V3.comp]; norm_num)⟩

end Walnut.Props
