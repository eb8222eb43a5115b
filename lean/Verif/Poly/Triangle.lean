/-
Triangles with integer corners are convex polygons.  Used in examples.
-/
import Verif.Poly.Plane2

namespace Walnut.Poly
open Walnut.Geom

/-- The triangle, as `ConvexPolygon(plane, drop_dimension, points)` builds it. -/
def triangle (drop : Fin 3) (a b c : V3) : Polygon Unit where
  plane := HS3.ofPoints a b c
  drop := drop
  edges := [⟨⟨a, 1⟩, PL.ofPoints a b, ()⟩, ⟨⟨b, 1⟩, PL.ofPoints b c, ()⟩, ⟨⟨c, 1⟩, PL.ofPoints c a, ()⟩]

theorem triangle_pt (drop : Fin 3) (a b c : V3) :
    (triangle drop a b c).pt 0 = a.q ∧ (triangle drop a b c).pt 1 = b.q ∧ (triangle drop a b c).pt 2 = c.q := by
  refine ⟨?_, ?_, ?_⟩ <;> funext i <;> obtain rfl | rfl | rfl := fin3 i <;>
    simp [Polygon.pt, triangle, Polygon.vertexD, HP3.pt, V3.comp]

theorem edgeLine_ofPoints (a b : V3) : EdgeLine (PL.ofPoints a b) a.q b.q := by
  refine ⟨?_, 1, one_pos, fun i => ?_⟩
  · funext i
    obtain rfl | rfl | rfl := fin3 i <;> simp [PL.ofPoints, crossQ, V3.cross, V3.sub] <;> ring
  · obtain rfl | rfl | rfl := fin3 i <;> simp [PL.ofPoints, V3.sub]

theorem triangle_convex (drop : Fin 3) (a b c : V3) (h : (HS3.ofPoints a b c).n.comp drop ≠ 0) : IsConvexPolygon (triangle drop a b c) := by
  obtain ⟨p0, p1, p2⟩ := triangle_pt drop a b c
  have hc : (triangle drop a b c).count = 3 := rfl
  have hpl : (triangle drop a b c).plane = HS3.ofPoints a b c := rfl
  have three : ∀ i, i < 3 → i = 0 ∨ i = 1 ∨ i = 2 := by omega
  have ht : turn (HS3.ofPoints a b c).n.q a.q b.q c.q = (HS3.ofPoints a b c).n.x * (HS3.ofPoints a b c).n.x +
      (HS3.ofPoints a b c).n.y * (HS3.ofPoints a b c).n.y + (HS3.ofPoints a b c).n.z * (HS3.ofPoints a b c).n.z := by
    simp only [turn, dotQ, crossQ, HS3.ofPoints, V3.cross, V3.sub, V3.q_zero, V3.q_one, V3.q_two]
    simp
    ring
  have hp : 0 < turn (HS3.ofPoints a b c).n.q a.q b.q c.q := by
    rw [ht]; exact comp_sq_pos _ h
  have ne : ∀ {x y : V3}, x.q = y.q → x = y := by
    intro x y e
    have e0 := congrFun e 0
    have e1 := congrFun e 1
    have e2 := congrFun e 2
    simp only [V3.q_zero, V3.q_one, V3.q_two] at e0 e1 e2
    cases x; cases y
    simp only [Int.cast_inj] at e0 e1 e2
    rw [e0, e1, e2]
  refine ⟨h, ?_, ?_, ?_, ?_, ?_, 0, 1, 2, by decide, by decide, by rw [hc]; decide, ?_⟩
  · intro i hi
    rw [hc] at hi
    rcases three i hi with rfl | rfl | rfl <;> exact one_ne_zero
  · intro i hi
    rw [hc] at hi
    rcases three i hi with rfl | rfl | rfl
    · rw [p0, hpl, HS3.side_eq]; simp [HS3.ofPoints, V3.cross, V3.sub, V3.dot]; ring
    · rw [p1, hpl, HS3.side_eq]; simp [HS3.ofPoints, V3.cross, V3.sub, V3.dot]
    · rw [p2, hpl, HS3.side_eq]; simp [HS3.ofPoints, V3.cross, V3.sub, V3.dot]; ring
  · intro i hi
    rw [hc] at hi ⊢
    rcases three i hi with rfl | rfl | rfl
    · rw [p0, p1]; exact edgeLine_ofPoints a b
    · rw [p1, p2]; exact edgeLine_ofPoints b c
    · show EdgeLine _ ((triangle drop a b c).pt 2) ((triangle drop a b c).pt 0)
      rw [p2, p0]; exact edgeLine_ofPoints c a
  · intro i j k h1 h2 h3
    rw [hc] at h3
    obtain rfl : i = 0 := by omega
    obtain rfl : j = 1 := by omega
    obtain rfl : k = 2 := by omega
    rw [p0, p1, p2]; exact hp.le
  · intro i j h1 h2 e
    rw [hc] at h2
    rcases three i (by omega) with rfl | rfl | rfl <;> rcases three j (by omega) with rfl | rfl | rfl <;> try omega
    · rw [p0, p1] at e; rw [ne e] at hp; simp [turn, dotQ, crossQ] at hp
    · rw [p0, p2] at e; rw [ne e] at hp; simp [turn, dotQ, crossQ] at hp
    · rw [p1, p2] at e; rw [ne e] at hp; simp [turn, dotQ, crossQ] at hp; ring_nf at hp; simp at hp
  · rw [p0, p1, p2]; exact hp

end Walnut.Poly
