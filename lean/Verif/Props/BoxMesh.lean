/-
C70: the walls of a box as a mesh.
-/
import Verif.Props.BoxPolygons
import Verif.Props.NodeBorder
import Verif.Props.AnyRay

namespace Walnut.Props
open Walnut.Geom Walnut.Poly Walnut.Bsp

theorem walls_eq {b : AABB} (hb : SolidBox b) : walls () b = wallInfos.zipIdx.map fun p => wallPoly () b p.2 p.1 := by
  have : ∀ p : (Fin 3 × List Nat) × Nat, wallAt () b p.2 p.1 = some (wallPoly () b p.2 p.1) := by
    intro p
    unfold wallAt
    simp only
    rw [if_neg (hb.2 _).ne, if_neg (hb.2 _).ne]
    rfl
  unfold walls
  simp only [this]
  rw [List.filterMap_map, ← List.filterMap_eq_map]
  rfl

/-- The corner with the given number. -/
def cornerPt (b : AABB) (v : Nat) : Q3 := (boxCorner b (boxCorners.getD v (false, false, false))).pt

/-- The numbers of the ends of the edges of the walls. -/
def wallPairs : List (Nat × Nat) := wallInfos.flatMap fun i => List.zip (i.2.getLast?.toList ++ i.2) i.2

/-- C70: the walls of a box with positive extents are a closed mesh. -/
theorem C70_closed {b : AABB} (hb : SolidBox b) : Closed (walls () b) := by
  have e : meshSides (walls () b) = wallPairs.map fun p => (cornerPt b p.1, cornerPt b p.2) := by
    rw [walls_eq hb]
    have side : ∀ side info, side < 6 → wallInfos[side]? = some info → (List.range (wallPoly () b side info).count).map (fun i =>
        ((wallPoly () b side info).pt i, (wallPoly () b side info).pt ((i + 1) % (wallPoly () b side info).count))) =
        (List.zip (info.2.getLast?.toList ++ info.2) info.2).map fun p => (cornerPt b p.1, cornerPt b p.2) := by
      intro side info hs hinfo
      have six : ∀ s, s < 6 → s = 0 ∨ s = 1 ∨ s = 2 ∨ s = 3 ∨ s = 4 ∨ s = 5 := by omega
      rcases six side hs with rfl | rfl | rfl | rfl | rfl | rfl <;> cases hinfo <;>
        (rw [show (wallPoly () b _ _).count = 4 from rfl, show List.range 4 = [0, 1, 2, 3] by decide]; simp only [List.map]; rfl)
    unfold meshSides wallPairs
    rw [List.flatMap_map, List.map_flatMap]
    conv_rhs => rw [← List.zipIdx_map_fst 0 wallInfos, List.flatMap_map]
    refine List.flatMap_congr fun p hp => ?_
    obtain ⟨info, k⟩ := p
    rw [List.mk_mem_zipIdx_iff_getElem?] at hp
    refine side k info ?_ hp
    obtain ⟨h, -⟩ := List.getElem?_eq_some_iff.1 hp
    exact h
  intro x y
  have hp : (wallPairs.map Prod.swap).Perm wallPairs := by decide
  have : (meshSides (walls () b)).map Prod.swap = (wallPairs.map Prod.swap).map fun p => (cornerPt b p.1, cornerPt b p.2) := by
    rw [e, List.map_map, List.map_map]
    rfl
  have h2 := (hp.map fun p => (cornerPt b p.1, cornerPt b p.2)).count_eq (y, x)
  rw [← this, ← e] at h2
  rw [← h2]
  have := List.count_map_of_injective (meshSides (walls () b)) Prod.swap Prod.swap_injective (x, y)
  exact this.symm

/-- Strictly inside of the box. -/
def StrictlyInBox (b : AABB) (q : Q3) : Prop := ∀ i, (b.lo.comp i / b.den : ℚ) < q i ∧ q i < b.hi.comp i / b.den

theorem up_zero (q : Q3) (t : ℚ) : (q + t • (![0, 0, 1] : Q3)) 0 = q 0 := by
  change q 0 + t * 0 = q 0
  ring

theorem up_one (q : Q3) (t : ℚ) : (q + t • (![0, 0, 1] : Q3)) 1 = q 1 := by
  change q 1 + t * 0 = q 1
  ring

theorem up_two (q : Q3) (t : ℚ) : (q + t • (![0, 0, 1] : Q3)) 2 = q 2 + t := by
  change q 2 + t * 1 = q 2 + t
  ring

theorem wall_hit {b : AABB} (hb : SolidBox b) {q : Q3} (hq : StrictlyInBox b q) (side : Nat) (hs : side < 6) (info : Fin 3 × List Nat)
    (hinfo : wallInfos[side]? = some info) {t : ℚ} (ht : 0 < t) :
    q + t • (![0, 0, 1] : Q3) ∈ (wallPoly () b side info).region ↔ side = 5 ∧ q 2 + t = b.hi.comp 2 / b.den := by
  rw [wall_region () hb.1 (fun i => (hb.2 i).le) side hs info hinfo (hb.2 _) (hb.2 _)]
  have six : ∀ s, s < 6 → s = 0 ∨ s = 1 ∨ s = 2 ∨ s = 3 ∨ s = 4 ∨ s = 5 := by omega
  have h0 := hq 0
  have h1 := hq 1
  have h2 := hq 2
  have e0 := up_zero q t
  have e1 := up_one q t
  have e2 := up_two q t
  generalize q + t • (![0, 0, 1] : Q3) = x at *
  rw [← e0] at h0
  rw [← e1] at h1
  rw [← e2]
  rcases six side hs with rfl | rfl | rfl | rfl | rfl | rfl <;> cases hinfo <;> simp only [Set.mem_setOf_eq] <;> norm_num
  · intro _ h; linarith
  · intro _; exact h0.1.ne'
  · intro _; exact h1.1.ne'
  · intro _; exact h0.2.ne
  · intro _; exact h1.2.ne
  · intro e i
    fin_cases i
    · exact ⟨h0.1.le, h0.2.le⟩
    · exact ⟨h1.1.le, h1.2.le⟩
    · change (b.lo.comp 2 / b.den : ℚ) ≤ x 2 ∧ x 2 ≤ b.hi.comp 2 / b.den
      rw [e]
      exact ⟨(h2.1.trans h2.2).le, le_rfl⟩

theorem top_off_edges {b : AABB} (hb : SolidBox b) {x : Q3} (h0 : (b.lo.comp 0 / b.den : ℚ) < x 0 ∧ x 0 < b.hi.comp 0 / b.den)
    (h1 : (b.lo.comp 1 / b.den : ℚ) < x 1 ∧ x 1 < b.hi.comp 1 / b.den) : OffEdges (wallPoly () b 5 (2, [4, 5, 6, 7])) x := by
  have hd : (0 : ℚ) < b.den := by exact_mod_cast hb.1
  have four : ∀ s, s < 4 → s = 0 ∨ s = 1 ∨ s = 2 ∨ s = 3 := by omega
  have k0 := h0.1.trans h0.2
  have k1 := h1.1.trans h1.2
  have formula : ∀ a c : Q3, Poly.turn (wallPlane b 5 2).n.q a c x = b.den * ((c 0 - a 0) * (x 1 - a 1) - (c 1 - a 1) * (x 0 - a 0)) := by
    intro a c
    simp [Poly.turn, dotQ, crossQ_two, wallPlane, V3.set, V3.zero, V3.q, V3.comp]
  have c4 : cornerPt b 4 0 = b.lo.comp 0 / b.den ∧ cornerPt b 4 1 = b.lo.comp 1 / b.den := ⟨rfl, rfl⟩
  have c5 : cornerPt b 5 0 = b.hi.comp 0 / b.den ∧ cornerPt b 5 1 = b.lo.comp 1 / b.den := ⟨rfl, rfl⟩
  have c6 : cornerPt b 6 0 = b.hi.comp 0 / b.den ∧ cornerPt b 6 1 = b.hi.comp 1 / b.den := ⟨rfl, rfl⟩
  have c7 : cornerPt b 7 0 = b.lo.comp 0 / b.den ∧ cornerPt b 7 1 = b.hi.comp 1 / b.den := ⟨rfl, rfl⟩
  generalize (b.lo.comp 0 / b.den : ℚ) = l0 at *
  generalize (b.hi.comp 0 / b.den : ℚ) = u0 at *
  generalize (b.lo.comp 1 / b.den : ℚ) = l1 at *
  generalize (b.hi.comp 1 / b.den : ℚ) = u1 at *
  intro i hi
  rw [show (wallPoly () b 5 (2, [4, 5, 6, 7])).count = 4 from rfl]
  rcases four i hi with rfl | rfl | rfl | rfl
  · change 0 < Poly.turn (wallPlane b 5 2).n.q (cornerPt b 7) (cornerPt b 4) x
    rw [formula, c4.1, c4.2, c7.1, c7.2]
    refine mul_pos hd ?_
    nlinarith [mul_pos (sub_pos.2 k1) (sub_pos.2 h0.1)]
  · change 0 < Poly.turn (wallPlane b 5 2).n.q (cornerPt b 4) (cornerPt b 5) x
    rw [formula, c4.1, c4.2, c5.1, c5.2]
    refine mul_pos hd ?_
    nlinarith [mul_pos (sub_pos.2 k0) (sub_pos.2 h1.1)]
  · change 0 < Poly.turn (wallPlane b 5 2).n.q (cornerPt b 5) (cornerPt b 6) x
    rw [formula, c5.1, c5.2, c6.1, c6.2]
    refine mul_pos hd ?_
    nlinarith [mul_pos (sub_pos.2 k1) (sub_pos.2 h0.2)]
  · change 0 < Poly.turn (wallPlane b 5 2).n.q (cornerPt b 6) (cornerPt b 7) x
    rw [formula, c6.1, c6.2, c7.1, c7.2]
    refine mul_pos hd ?_
    nlinarith [mul_pos (sub_pos.2 k0) (sub_pos.2 h1.2)]

theorem walls_up {b : AABB} (hb : SolidBox b) {q : Q3} (hq : StrictlyInBox b q) :
    Transversal (walls () b) q ![0, 0, 1] ∧ windingNumber (walls () b) q ![0, 0, 1] = 1 := by
  constructor
  · refine ⟨fun h => by simpa using congrFun h 2, fun P hP t ht hx => ?_⟩
    obtain ⟨side, info, hs, hinfo, n1, n2, rfl⟩ := mem_walls.1 hP
    obtain ⟨rfl, e⟩ := (wall_hit hb hq side hs info hinfo ht).1 hx
    cases hinfo
    exact top_off_edges hb (by rw [up_zero]; exact hq 0) (by rw [up_one]; exact hq 1)
  · have hz : ∀ side info, side < 5 → wallInfos[side]? = some info → hits q ![0, 0, 1] (wallPoly () b side info) = 0 := by
      intro side info hs hinfo
      unfold hits
      rw [if_neg]
      rintro ⟨t, ht, hx⟩
      have := ((wall_hit hb hq side (by omega) info hinfo ht).1 hx).1
      omega
    have h5 : ∀ info, wallInfos[5]? = some info → hits q ![0, 0, 1] (wallPoly () b 5 info) = 1 := by
      intro info hinfo
      unfold hits
      rw [if_pos, if_pos]
      · cases hinfo
        change 0 < dotQ (wallPlane b 5 2).n.q ![0, 0, 1]
        simp [dotQ, wallPlane, V3.set, V3.zero, V3.q, V3.comp, hb.1]
      · refine ⟨b.hi.comp 2 / b.den - q 2, sub_pos.2 (hq 2).2, ?_⟩
        exact (wall_hit hb hq 5 (by omega) info hinfo (sub_pos.2 (hq 2).2)).2 ⟨rfl, by ring⟩
    unfold windingNumber
    rw [walls_eq hb]
    change (([hits q _ (wallPoly () b 0 _), hits q _ (wallPoly () b 1 _), hits q _ (wallPoly () b 2 _), hits q _ (wallPoly () b 3 _),
      hits q _ (wallPoly () b 4 _), hits q _ (wallPoly () b 5 _)] : List ℤ)).sum = 1
    rw [hz 0 _ (by decide) rfl, hz 1 _ (by decide) rfl, hz 2 _ (by decide) rfl, hz 3 _ (by decide) rfl, hz 4 _ (by decide) rfl, h5 _ rfl]
    rfl

/-- C70: the walls go once around each point that is strictly inside of the box, and not around
points outside of the box. -/
theorem C70_winding {b : AABB} (hb : SolidBox b) {q v : Q3} (hv : Transversal (walls () b) q v) :
    (StrictlyInBox b q → windingNumber (walls () b) q v = 1) ∧ (¬ InBox b q → windingNumber (walls () b) q v = 0) := by
  obtain ⟨w1, -, -⟩ := C70_walls () b hb.1 fun i => (hb.2 i).le
  constructor
  · intro hq
    obtain ⟨h1, h2⟩ := walls_up hb hq
    rw [← h2]
    refine C40_ray (fun P hP => (w1 P hP).1) (C70_closed hb) (fun P hP hx => ?_) hv h1
    obtain ⟨-, -, i, up, e⟩ := w1 P hP
    rw [e] at hx
    have := hx.2
    split_ifs at this
    · exact (hq i).2.ne this
    · exact (hq i).1.ne' this
  · intro hq
    unfold InBox at hq
    push Not at hq
    obtain ⟨i, hi⟩ := hq
    -- a ray that leads away from the box
    have : ∃ u : Q3, u ≠ 0 ∧ ∀ t : ℚ, 0 < t → ¬ InBox b (q + t • u) := by
      by_cases c : (b.lo.comp i / b.den : ℚ) ≤ q i
      · refine ⟨Pi.single i 1, fun h => by simpa using congrFun h i, fun t ht hx => ?_⟩
        have := (hx i).2
        simp at this
        linarith [hi c]
      · refine ⟨Pi.single i (-1), fun h => by simpa using congrFun h i, fun t ht hx => ?_⟩
        have := (hx i).1
        simp at this
        linarith
    obtain ⟨u, u0, hu⟩ := this
    have miss : ∀ P ∈ walls () b, ∀ t : ℚ, 0 < t → q + t • u ∉ P.region := by
      intro P hP t ht hx
      obtain ⟨-, -, j, up, e⟩ := w1 P hP
      rw [e] at hx
      exact hu t ht hx.1
    rw [C40_ray (fun P hP => (w1 P hP).1) (C70_closed hb) (fun P hP hx => ?_) hv ⟨u0, fun P hP t ht hx => absurd hx (miss P hP t ht)⟩]
    · unfold windingNumber
      apply List.sum_eq_zero
      intro y hy
      obtain ⟨P, hP, rfl⟩ := List.mem_map.1 hy
      unfold hits
      rw [if_neg]
      rintro ⟨t, ht, hx⟩
      exact miss P hP t ht hx
    · obtain ⟨-, -, j, up, e⟩ := w1 P hP
      rw [e] at hx
      have := hx.1 i
      exact absurd this.2 (not_le.2 (hi this.1))

/-- The hypotheses hold for the center of a box. -/
example : windingNumber (walls () boxOfTwo) ![1, 1, 1] ![0, 0, 1] = 1 :=
  (walls_up boxOfTwo_solid (by intro i; fin_cases i <;> norm_num [boxOfTwo, V3.comp])).2

end Walnut.Props
