/-
Rays in general position on both sides of a point, and the edges of the emitted polygons
through it.
-/
import Verif.Bsp.Jump
import Verif.Bsp.Placed
import Verif.Bsp.BoolMain

namespace Walnut.Bsp
open Walnut.Geom Walnut.Poly Walnut.Props

theorem triple (w v y : Q3) : dotQ (crossQ w v) y = -dotQ w (crossQ y v) := by
  unfold dotQ; simp only [crossQ_zero, crossQ_one, crossQ_two]; ring

theorem ev_triple {v y : Q3} (h : crossQ y v ≠ 0) : Ev fun η => dotQ (crossQ (dirZ η) v) y ≠ 0 :=
  (ev_dot h).mono fun η h1 h2 => h1 (by rw [triple] at h2; linarith)

theorem ev_line {x y : ℚ} (h : x ≠ 0 ∨ y ≠ 0) : Ev fun δ => x + δ * y ≠ 0 := by
  filter_upwards [ev_poly2 0 y x (by tauto)] with δ h1 h2
  exact h1 (by linarith)

/-- On an edge's line. -/
theorem turn_zero {N a b x : Q3} (nn : dotQ N N ≠ 0) (ha : dotQ N b = dotQ N a) (hx : dotQ N x = dotQ N a) (e : Poly.turn N a b x = 0) : crossQ (b - a) (x - a) = 0 := by
  unfold Poly.turn at e
  have na : dotQ N (fun j => b j - a j) = 0 := by unfold dotQ at *; linarith
  have nx : dotQ N (fun j => x j - a j) = 0 := by unfold dotQ at *; linarith
  funext j
  refine (mul_eq_zero.1 (?_ : dotQ N N * _ = 0)).resolve_left nn
  unfold dotQ at *
  simp only [crossQ_zero, crossQ_one, crossQ_two] at e ⊢
  fin_cases j <;> simp only [Fin.zero_eta, Fin.mk_one, Fin.reduceFinMk, crossQ_zero, crossQ_one, crossQ_two, Pi.sub_apply]
  · linear_combination N 0 * e - (N 2 * (x 1 - a 1) - N 1 * (x 2 - a 2)) * na - (N 1 * (b 2 - a 2) - N 2 * (b 1 - a 1)) * nx
  · linear_combination N 1 * e - (N 0 * (x 2 - a 2) - N 2 * (x 0 - a 0)) * na - (N 2 * (b 0 - a 0) - N 0 * (b 2 - a 2)) * nx
  · linear_combination N 2 * e - (N 1 * (x 0 - a 0) - N 0 * (x 1 - a 1)) * na - (N 0 * (b 1 - a 1) - N 1 * (b 0 - a 0)) * nx

theorem parallel_apart {g h : HS3} {q v : Q3} (hc : crossQ g.n.q h.n.q = 0) (hv : dotQ h.n.q v ≠ 0) (hA : g.side q * dotQ h.n.q v = h.side q * dotQ g.n.q v) : Through g h := by
  intro z hz
  have c0 := congrFun hc 0
  have c1 := congrFun hc 1
  have c2 := congrFun hc 2
  simp only [crossQ_zero, crossQ_one, crossQ_two, Pi.zero_apply] at c0 c1 c2
  refine (mul_eq_zero.1 (?_ : dotQ h.n.q v * g.side z = 0)).resolve_left hv
  have key : dotQ h.n.q v * g.side z = dotQ g.n.q v * h.side z := by
    unfold HS3.side at *
    unfold dotQ at *
    linear_combination hA + ((z 2 - q 2) * v 1 - (z 1 - q 1) * v 2) * (-c0) + ((z 0 - q 0) * v 2 - (z 2 - q 2) * v 0) * (-c1) + ((z 1 - q 1) * v 0 - (z 0 - q 0) * v 1) * (-c2)
  rw [key, hz, mul_zero]

/-- A ray moved a little. -/
theorem ev_moved {t : Node} {tr : List Visit} {S : List Source} (hS : ∀ s ∈ S, IsConvexPolygon s.poly) {q v w : Q3} (hv : v ≠ 0) (hoff : ∀ g ∈ t.planes, g.side q ≠ 0)
    (hcross : ∀ g ∈ t.planes, dotQ g.n.q v ≠ 0) (hfacet : ∀ s ∈ S, dotQ s.poly.plane.n.q v ≠ 0)
    (happ : ∀ g ∈ t.planes ++ cuts tr, ∀ s ∈ S, crossQ g.n.q s.poly.plane.n.q ≠ 0 → dotQ (crossQ w v) (crossQ g.n.q s.poly.plane.n.q) ≠ 0)
    (hedge : ∀ s ∈ S, ∀ i < s.poly.count, dotQ (crossQ w v) (s.poly.pt ((i + 1) % s.poly.count) - s.poly.pt i) ≠ 0) :
    Ev fun δ => GenericRay t tr S (q + δ • w) v := by
  have e1 : Ev fun δ => ∀ g ∈ t.planes, g.side (q + δ • w) ≠ 0 := ev_list _ fun g hg => by
    refine (ev_line (Or.inl (hoff g hg)) (y := dotQ g.n.q w)).mono fun δ h1 => ?_
    rw [side_ray]; exact h1
  have e2 : Ev fun δ => ∀ g ∈ t.planes ++ cuts tr, ∀ s ∈ S, ∀ r : ℚ, 0 < r → g.side (q + δ • w + r • v) = 0 → s.poly.plane.side (q + δ • w + r • v) = 0 →
      Through g s.poly.plane := by
    refine ev_list _ fun g hg => ev_list _ fun s hs => ?_
    set h := s.poly.plane
    by_cases hc : crossQ g.n.q h.n.q = 0
    · by_cases hA : g.side q * dotQ h.n.q v = h.side q * dotQ g.n.q v
      · exact Filter.Eventually.of_forall fun δ r _ _ _ => parallel_apart hc (hfacet s hs) hA
      · refine Filter.Eventually.of_forall fun δ r _ h1 h2 => absurd ?_ hA
        rw [side_ray, side_ray] at h1 h2
        have c0 := congrFun hc 0
        have c1 := congrFun hc 1
        have c2 := congrFun hc 2
        simp only [crossQ_zero, crossQ_one, crossQ_two, Pi.zero_apply] at c0 c1 c2
        have hw : dotQ g.n.q w * dotQ h.n.q v = dotQ h.n.q w * dotQ g.n.q v := by
          unfold dotQ
          linear_combination (w 1 * v 2 - w 2 * v 1) * c0 + (w 2 * v 0 - w 0 * v 2) * c1 + (w 0 * v 1 - w 1 * v 0) * c2
        linear_combination dotQ h.n.q v * h1 - dotQ g.n.q v * h2 - δ * hw
    · refine (ev_line (Or.inr (happ g hg s hs hc)) (x := g.side q * dotQ h.n.q v - h.side q * dotQ g.n.q v)).mono fun δ hne r _ h1 h2 => absurd ?_ hne
      rw [side_ray, side_ray] at h1 h2
      have hw : dotQ (crossQ w v) (crossQ g.n.q h.n.q) = dotQ g.n.q w * dotQ h.n.q v - dotQ h.n.q w * dotQ g.n.q v := by
        unfold dotQ; simp only [crossQ_zero, crossQ_one, crossQ_two]; ring
      rw [hw]
      linear_combination dotQ h.n.q v * h1 - dotQ g.n.q v * h2
  have e3 : Ev fun δ => ∀ s ∈ S, ∀ i ∈ Finset.range s.poly.count,
      dotQ (crossQ (s.poly.pt ((i + 1) % s.poly.count) - s.poly.pt i) v) (s.poly.pt i - q - δ • w) ≠ 0 := by
    refine ev_list _ fun s hs => ev_fin _ fun i hi => ?_
    set d := s.poly.pt ((i + 1) % s.poly.count) - s.poly.pt i
    refine (ev_line (Or.inr (hedge s hs i (Finset.mem_range.1 hi))) (x := dotQ (crossQ d v) (s.poly.pt i - q))).mono fun δ h1 h2 => h1 ?_
    rw [dotQ_sub, dotQ_smul] at h2
    have : dotQ (crossQ d v) w = -dotQ (crossQ w v) d := by unfold dotQ; simp only [crossQ_zero, crossQ_one, crossQ_two]; ring
    rw [this] at h2
    linarith
  filter_upwards [e1, e2, e3] with δ a1 a2 a3
  refine ⟨a1, hcross, hfacet, a2, fun id => ⟨hv, fun P hP r hr hreg i hi => ?_⟩⟩
  obtain ⟨s, hs, rfl⟩ := List.mem_map.1 hP
  have hs := List.mem_of_mem_filter hs
  have hconv := hS s hs
  have hi' : (i + 1) % s.poly.count < s.poly.count := Nat.mod_lt _ (by omega)
  refine lt_of_le_of_ne (turn_region hconv hi hreg) fun e => a3 s hs i (Finset.mem_range.2 hi) ?_
  have z := turn_zero (normal_pos hconv).ne' (by rw [region_onPlane hconv (pt_mem hi), region_onPlane hconv (pt_mem hi')])
    (by rw [region_onPlane hconv (pt_mem hi), region_onPlane hconv hreg]) e.symm
  have z0 := congrFun z 0
  have z1 := congrFun z 1
  have z2 := congrFun z 2
  simp only [crossQ_zero, crossQ_one, crossQ_two, Pi.zero_apply, Pi.sub_apply, Pi.add_apply, Pi.smul_apply, smul_eq_mul] at z0 z1 z2
  unfold dotQ
  simp only [crossQ_zero, crossQ_one, crossQ_two, Pi.sub_apply, Pi.smul_apply, smul_eq_mul]
  linear_combination v 0 * z0 + v 1 * z1 + v 2 * z2

/-- The line of the ray meets the edge's line only at `x`. -/
theorem edge_apart {a b x v : Q3} (h1 : crossQ (b - a) v ≠ 0) (h2 : crossQ (a - x) (b - x) ≠ 0 → dotQ v (crossQ (a - x) (b - x)) ≠ 0) (s k : ℚ)
    (e : a + s • (b - a) = x + k • v) : k = 0 := by
  by_contra hk
  have E : ∀ j, a j + s * (b j - a j) = x j + k * v j := fun j => by have := congrFun e j; simpa using this
  have E0 := E 0
  have E1 := E 1
  have E2 := E 2
  by_cases hw : crossQ (a - x) (b - x) = 0
  · apply h1
    have w0 := congrFun hw 0
    have w1 := congrFun hw 1
    have w2 := congrFun hw 2
    simp only [crossQ_zero, crossQ_one, crossQ_two, Pi.zero_apply, Pi.sub_apply] at w0 w1 w2
    funext j
    refine (mul_eq_zero.1 (?_ : k * _ = 0)).resolve_left hk
    fin_cases j <;> simp only [Fin.zero_eta, Fin.mk_one, Fin.reduceFinMk, crossQ_zero, crossQ_one, crossQ_two, Pi.sub_apply]
    · linear_combination (b 2 - a 2) * E1 - (b 1 - a 1) * E2 - w0
    · linear_combination (b 0 - a 0) * E2 - (b 2 - a 2) * E0 - w1
    · linear_combination (b 1 - a 1) * E0 - (b 0 - a 0) * E1 - w2
  · apply h2 hw
    refine (mul_eq_zero.1 (?_ : k * _ = 0)).resolve_left hk
    unfold dotQ
    simp only [crossQ_zero, crossQ_one, crossQ_two, Pi.sub_apply]
    linear_combination (-((a 1 - x 1) * (b 2 - x 2) - (a 2 - x 2) * (b 1 - x 1))) * E0 - ((a 2 - x 2) * (b 0 - x 0) - (a 0 - x 0) * (b 2 - x 2)) * E1 -
      ((a 0 - x 0) * (b 1 - x 1) - (a 1 - x 1) * (b 0 - x 0)) * E2

end Walnut.Bsp
