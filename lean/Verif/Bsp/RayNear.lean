/-
Rays in general position close to a given segment.
-/
import Verif.Bsp.FullFacet
import Verif.Props.SolidBoundary

namespace Walnut.Bsp
open Walnut.Geom Walnut.Poly Walnut.Props

theorem dotQ_move (n x w : Q3) (η : ℚ) : dotQ n (x + η • w) = dotQ n x + η * dotQ n w := by
  unfold dotQ; simp only [Pi.add_apply, Pi.smul_apply, smul_eq_mul]; ring

theorem ev_cross_line {y x w : Q3} (h : crossQ y w ≠ 0) : Ev fun η => crossQ y (x + η • w) ≠ 0 := by
  obtain ⟨j, hj⟩ : ∃ j, crossQ y w j ≠ 0 := by
    by_contra hc
    push Not at hc
    exact h (funext hc)
  refine (ev_line (x := crossQ y x j) (Or.inr hj)).mono fun η h1 h2 => h1 ?_
  have := congrFun h2 j
  rw [Pi.zero_apply] at this
  rw [← this]
  fin_cases j <;> simp only [Fin.zero_eta, Fin.mk_one, Fin.reduceFinMk, crossQ_zero, crossQ_one, crossQ_two, Pi.add_apply, Pi.smul_apply, smul_eq_mul] <;> ring

/-- If the functions `L` are positive for the segment from `ya` to `yb`, seen from `P` at a
small scale, then they are so for a ray in general position. -/
theorem ray_near {t : Node} {tr : List Visit} {S : List Source} (hS : ∀ s ∈ S, IsConvexPolygon s.poly) (hn : ∀ g ∈ t.planes, g.n.q ≠ 0) (P ya yb : Q3)
    (L : List (ℚ → Q3 → Q3 → ℚ)) (hL : ∀ F ∈ L, Continuous fun x : ℚ × Q3 × Q3 => F x.1 x.2.1 x.2.2) (h0 : ∀ F ∈ L, 0 < F 0 ya yb) :
    ∃ ε, 0 < ε ∧ ∃ a b, (∀ F ∈ L, 0 < F ε a b) ∧ GenericRay t tr S (P + ε • a) (b - a) := by
  have hnz : ∀ s ∈ S, s.poly.plane.n.q ≠ 0 := by
    intro s hs e
    have := normal_pos (hS s hs)
    rw [e] at this
    simp [dotQ] at this
  have hedge : ∀ s ∈ S, ∀ i < s.poly.count, s.poly.pt ((i + 1) % s.poly.count) - s.poly.pt i ≠ 0 := fun s hs i hi e =>
    next_ne (hS s hs) hi (sub_eq_zero.1 e)
  obtain ⟨η1, _, v1, v2, v3, v4⟩ := ev_exists ((ev_list t.planes fun g hg => ev_side (hn g hg)).and ((ev_list S fun s hs => ev_side (hnz s hs)).and
    ((ev_list (t.planes ++ cuts tr) (p := fun g η => ∀ s ∈ S, crossQ g.n.q s.poly.plane.n.q ≠ 0 → crossQ (crossQ g.n.q s.poly.plane.n.q) (dirZ η) ≠ 0) fun g _ =>
      ev_list S fun s _ => ev_imp fun h => ev_cross h).and
    (ev_list S (p := fun s η => ∀ i ∈ Finset.range s.poly.count, crossQ (s.poly.pt ((i + 1) % s.poly.count) - s.poly.pt i) (dirZ η) ≠ 0) fun s hs =>
      ev_fin _ fun i hi => ev_cross (hedge s hs i (Finset.mem_range.1 hi))))))
  have hw2 : dirZ η1 2 = 1 := rfl
  set w := dirZ η1
  -- the direction
  obtain ⟨η, _, u0, u1, u2, u3, u4, u5, u6⟩ := ev_exists ((ev_line (x := (yb - ya) 2) (y := w 2) (Or.inr (by rw [hw2]; exact one_ne_zero))).and
    ((ev_list t.planes (p := fun g η => dotQ g.n.q (yb - ya + η • w) ≠ 0) fun g hg =>
      (ev_line (x := dotQ g.n.q (yb - ya)) (Or.inr (v1 g hg))).mono fun η h => by rw [dotQ_move]; exact h).and
    ((ev_list t.planes (p := fun g η => dotQ g.n.q (ya + η • w) ≠ 0) fun g hg =>
      (ev_line (x := dotQ g.n.q ya) (Or.inr (v1 g hg))).mono fun η h => by rw [dotQ_move]; exact h).and
    ((ev_list S (p := fun s η => dotQ s.poly.plane.n.q (yb - ya + η • w) ≠ 0) fun s hs =>
      (ev_line (x := dotQ s.poly.plane.n.q (yb - ya)) (Or.inr (v2 s hs))).mono fun η h => by rw [dotQ_move]; exact h).and
    ((ev_list (t.planes ++ cuts tr) (p := fun g η => ∀ s ∈ S, crossQ g.n.q s.poly.plane.n.q ≠ 0 → crossQ (crossQ g.n.q s.poly.plane.n.q) (yb - ya + η • w) ≠ 0) fun g hg =>
      ev_list S fun s hs => ev_imp fun h => ev_cross_line (v3 g hg s hs h)).and
    ((ev_list S (p := fun s η => ∀ i ∈ Finset.range s.poly.count, crossQ (s.poly.pt ((i + 1) % s.poly.count) - s.poly.pt i) (yb - ya + η • w) ≠ 0) fun s hs =>
      ev_fin _ fun i hi => ev_cross_line (v4 s hs i hi)).and
    (ev_list L (p := fun F η => 0 < F 0 (ya + η • w) (yb + (2 * η) • w)) fun F hF => by
      refine ev_cont (f := fun η => F 0 (ya + η • w) (yb + (2 * η) • w)) ((hL F hF).comp (f := fun η : ℚ => ((0 : ℚ), ya + η • w, yb + (2 * η) • w)) (by fun_prop)) ?_
      simpa using h0 F hF)))))))
  set a1 := ya + η • w with ha1
  set b1 := yb + (2 * η) • w with hb1
  have hv : b1 - a1 = yb - ya + η • w := by
    rw [ha1, hb1, two_mul, add_smul]; abel
  rw [← hv] at u1 u3 u4 u5
  have hv0 : b1 - a1 ≠ 0 := fun e => u0 (by
    have := congrFun e 2
    rw [hv] at this
    simpa using this)
  -- the scale
  obtain ⟨ε, ε0, e1, e2⟩ := ev_exists ((ev_list t.planes (p := fun g ε => g.side (P + ε • a1) ≠ 0) fun g hg =>
      (ev_line (x := g.side P) (Or.inr (u2 g hg))).mono fun ε h => by rw [side_ray]; exact h).and
    (ev_list L (p := fun F ε => 0 < F ε a1 b1) fun F hF =>
      ev_cont (f := fun ε => F ε a1 b1) ((hL F hF).comp (f := fun ε : ℚ => (ε, a1, b1)) (by fun_prop)) (u6 F hF)))
  -- the start
  obtain ⟨η3, _, w1, w2⟩ := ev_exists ((ev_list (t.planes ++ cuts tr) (p := fun g η' => ∀ s ∈ S, crossQ g.n.q s.poly.plane.n.q ≠ 0 →
      dotQ (crossQ (dirZ η') (b1 - a1)) (crossQ g.n.q s.poly.plane.n.q) ≠ 0) fun g hg => ev_list S fun s hs => ev_imp fun h => ev_triple (u4 g hg s hs h)).and
    (ev_list S (p := fun s η' => ∀ i ∈ Finset.range s.poly.count, dotQ (crossQ (dirZ η') (b1 - a1)) (s.poly.pt ((i + 1) % s.poly.count) - s.poly.pt i) ≠ 0) fun s hs =>
      ev_fin _ fun i hi => ev_triple (u5 s hs i hi)))
  set w3 := dirZ η3
  obtain ⟨δ, _, d1, d2⟩ := ev_exists ((ev_moved (tr := tr) hS hv0 e1 u1 u3 w1 fun s hs i hi => w2 s hs i (Finset.mem_range.2 hi)).and
    (ev_list L (p := fun F δ => 0 < F ε (a1 + (δ / ε) • w3) (b1 + (δ / ε) • w3)) fun F hF => by
      refine ev_cont (f := fun δ => F ε (a1 + (δ / ε) • w3) (b1 + (δ / ε) • w3))
        ((hL F hF).comp (f := fun δ : ℚ => (ε, a1 + (δ / ε) • w3, b1 + (δ / ε) • w3)) (by fun_prop)) ?_
      simpa using e2 F hF))
  refine ⟨ε, ε0, a1 + (δ / ε) • w3, b1 + (δ / ε) • w3, d2, ?_⟩
  have k1 : P + ε • (a1 + (δ / ε) • w3) = P + ε • a1 + δ • w3 := by
    rw [smul_add, smul_smul, mul_div_cancel₀ _ ε0.ne', add_assoc]
  rw [k1, add_sub_add_right_eq_sub]
  exact d1

end Walnut.Bsp
