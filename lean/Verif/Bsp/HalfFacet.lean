/-
Emitted polygons around a point of an edge: near the point a polygon is a whole plane or half
of one.
-/
import Verif.Bsp.RayStep

namespace Walnut.Bsp
open Walnut.Geom Walnut.Poly Walnut.Props

/-- 1 or -1. -/
def sig (b : Bool) : ℚ := if b then 1 else -1

theorem sig_sq (b : Bool) : sig b * sig b = 1 := by cases b <;> norm_num [sig]
theorem sig_ne (b : Bool) : sig b ≠ 0 := by cases b <;> norm_num [sig]

theorem cross_zero_of {n e y : Q3} (hn : dotQ n n ≠ 0) (he : dotQ n e = 0) (hy : dotQ n y = 0) (hw : dotQ (crossQ n e) y = 0) : crossQ y e = 0 := by
  have key : ∀ i, dotQ n n * crossQ y e i = 0 := by
    unfold dotQ at *
    simp only [crossQ_zero, crossQ_one, crossQ_two] at *
    intro i
    fin_cases i <;> simp only [Fin.zero_eta, Fin.mk_one, Fin.reduceFinMk, crossQ_zero, crossQ_one, crossQ_two]
    · linear_combination (-n 0) * hw - (n 1 * y 2 - n 2 * y 1) * he + (n 1 * e 2 - n 2 * e 1) * hy
    · linear_combination (-n 1) * hw - (n 2 * y 0 - n 0 * y 2) * he + (n 2 * e 0 - n 0 * e 2) * hy
    · linear_combination (-n 2) * hw - (n 0 * y 1 - n 1 * y 0) * he + (n 0 * e 1 - n 1 * e 0) * hy
  funext i
  exact (mul_eq_zero.1 (key i)).resolve_left hn

theorem cross_mul {e y z n : Q3} (h1 : crossQ y e = 0) (h2 : crossQ z e = 0) : dotQ e e * dotQ n (crossQ y z) = 0 := by
  have a := fun i => congrFun h1 i
  have b := fun i => congrFun h2 i
  have a0 := a 0; have a1 := a 1; have a2 := a 2
  have b0 := b 0; have b1 := b 1; have b2 := b 2
  simp only [crossQ_zero, crossQ_one, crossQ_two, Pi.zero_apply] at a0 a1 a2 b0 b1 b2
  unfold dotQ
  simp only [crossQ_zero, crossQ_one, crossQ_two]
  -- `e × (y × z) = y (e · z) - z (e · y)`; both are multiples of `e`
  have k : ∀ (x : Q3), (x 1 * e 2 - x 2 * e 1 = 0) → (x 2 * e 0 - x 0 * e 2 = 0) → (x 0 * e 1 - x 1 * e 0 = 0) →
      ∀ i, (e 0 * e 0 + e 1 * e 1 + e 2 * e 2) * x i = (x 0 * e 0 + x 1 * e 1 + x 2 * e 2) * e i := by
    intro x x0 x1 x2 i
    fin_cases i <;> simp only [Fin.zero_eta, Fin.mk_one, Fin.reduceFinMk]
    · linear_combination (e 1) * x2 - (e 2) * x1
    · linear_combination (e 2) * x0 - (e 0) * x2
    · linear_combination (e 0) * x1 - (e 1) * x0
  have ky := k y a0 a1 a2
  have y0 := ky 0; have y1 := ky 1; have y2 := ky 2
  linear_combination n 0 * (z 2 * y1 - z 1 * y2) + n 1 * (z 0 * y2 - z 2 * y0) + n 2 * (z 1 * y0 - z 0 * y1) +
    (-(y 0 * e 0 + y 1 * e 1 + y 2 * e 2)) * (n 0 * b0 + n 1 * b1 + n 2 * b2)

/-- A facet has points beside each of its edges. -/
theorem exists_beside {D : Type} {P : Polygon D} (h : IsConvexPolygon P) {i : Nat} (hi : i < P.count) :
    ∃ z ∈ P.region, 0 < Poly.turn P.plane.n.q (P.pt i) (P.pt ((i + 1) % P.count)) z := by
  by_contra hc
  push Not at hc
  have h3 := h.three
  have hnn := normal_pos h
  have hi' : (i + 1) % P.count < P.count := Nat.mod_lt _ (by omega)
  set e := P.pt ((i + 1) % P.count) - P.pt i with he
  have on : ∀ z ∈ P.region, dotQ P.plane.n.q z = P.plane.d := fun z hz => region_onPlane h hz
  have hne : dotQ P.plane.n.q e = 0 := by rw [he, dotQ_sub, on _ (pt_mem hi), on _ (pt_mem hi'), sub_self]
  have key : ∀ z ∈ P.region, crossQ (z - P.pt i) e = 0 := by
    intro z hz
    refine cross_zero_of hnn.ne' hne (by rw [dotQ_sub, on _ (pt_mem hi), on z hz, sub_self]) ?_
    have h0 : Poly.turn P.plane.n.q (P.pt i) (P.pt ((i + 1) % P.count)) z = 0 := le_antisymm (hc z hz) (turn_region h hi hz)
    have := turn_add P.plane.n.q (P.pt i) (P.pt ((i + 1) % P.count)) (P.pt i) (z - P.pt i) 1
    rw [one_smul, add_sub_cancel, h0, one_mul, turnBy_cross] at this
    have t0 : Poly.turn P.plane.n.q (P.pt i) (P.pt ((i + 1) % P.count)) (P.pt i) = 0 := by
      unfold Poly.turn dotQ
      simp only [crossQ_zero, crossQ_one, crossQ_two, Pi.sub_apply]
      ring
    rw [t0] at this
    linarith
  obtain ⟨a, b, c, hab, hbc, hcn, hpos⟩ := h.proper
  have ka := key _ (pt_mem (show a < P.count by omega))
  have kb := key _ (pt_mem (show b < P.count by omega))
  have kc := key _ (pt_mem hcn)
  have sub : ∀ x y : Q3, crossQ (x - P.pt i) e = 0 → crossQ (y - P.pt i) e = 0 → crossQ (x - y) e = 0 := by
    intro x y hx hy
    have : crossQ (x - y) e = crossQ (x - P.pt i) e - crossQ (y - P.pt i) e := by
      funext j
      fin_cases j <;> simp only [Fin.zero_eta, Fin.mk_one, Fin.reduceFinMk, crossQ_zero, crossQ_one, crossQ_two, Pi.sub_apply] <;> ring
    rw [this, hx, hy, sub_zero]
  have := cross_mul (n := P.plane.n.q) (sub _ _ kb ka) (sub _ _ kc ka)
  have ee : 0 < dotQ e e := by
    have hne : e ≠ 0 := fun h0 => next_ne h hi (sub_eq_zero.1 h0)
    by_contra hn
    apply hne
    unfold dotQ at hn
    push Not at hn
    funext j
    have := mul_self_nonneg (e 0); have := mul_self_nonneg (e 1); have := mul_self_nonneg (e 2)
    fin_cases j <;> simp only [Fin.zero_eta, Fin.mk_one, Fin.reduceFinMk, Pi.zero_apply] <;> exact mul_self_eq_zero.1 (by linarith)
  have : Poly.turn P.plane.n.q (P.pt a) (P.pt b) (P.pt c) = dotQ P.plane.n.q (crossQ (P.pt b - P.pt a) (P.pt c - P.pt a)) := by
    unfold Poly.turn dotQ
    simp only [crossQ_zero, crossQ_one, crossQ_two, Pi.sub_apply] <;> ring
  rw [this] at hpos
  nlinarith

/-- An edge of the polygon runs through the point, in direction `D` or (`b = false`) against
it. -/
def Half {E : Type} (Q : Polygon E) (P D : Q3) (b : Bool) : Prop :=
  ∃ i < Q.count, RunsThrough P (sig b • D) (Q.pt i, Q.pt ((i + 1) % Q.count))

/-- The normal, turned around for the edges against `D`. -/
def mOf {E : Type} (Q : Polygon E) (b : Bool) : Q3 := sig b • Q.plane.n.q

/-- The direction from the edge into the polygon. -/
def uOf {E : Type} (Q : Polygon E) (b : Bool) (D : Q3) : Q3 := crossQ (mOf Q b) D

section
variable {E : Type} {Q : Polygon E} {P D : Q3} {b : Bool}

theorem Between.mem {E : Type} {Q : Polygon E} {i : Nat} (hi : i < Q.count) {x : Q3} (h : Between (Q.pt i) (Q.pt ((i + 1) % Q.count)) x) : x ∈ Q.region := by
  obtain ⟨s, s0, s1, rfl⟩ := h
  have hi' : (i + 1) % Q.count < Q.count := Nat.mod_lt _ (by omega)
  have : Q.pt i + s • (Q.pt ((i + 1) % Q.count) - Q.pt i) = (1 - s) • Q.pt i + s • Q.pt ((i + 1) % Q.count) := by
    rw [sub_smul, one_smul, smul_sub]; abel
  rw [this]
  exact region_convex Q (pt_mem hi) (pt_mem hi') (by linarith) s0.le (by ring)

theorem Half.mem (h : Half Q P D b) : P ∈ Q.region := by
  obtain ⟨i, hi, h1, _⟩ := h
  exact Between.mem hi h1

theorem Half.flat (hc : IsConvexPolygon Q) (h : Half Q P D b) : dotQ Q.plane.n.q D = 0 := by
  obtain ⟨i, hi, _, k, k0, e⟩ := h
  have hi' : (i + 1) % Q.count < Q.count := Nat.mod_lt _ (by omega)
  have : dotQ Q.plane.n.q (Q.pt ((i + 1) % Q.count) - Q.pt i) = 0 := by
    rw [dotQ_sub, region_onPlane hc (pt_mem hi), region_onPlane hc (pt_mem hi'), sub_self]
  rw [show Q.pt ((i + 1) % Q.count) - Q.pt i = k • sig b • D from e, dotQ_smul, dotQ_smul] at this
  have := (mul_eq_zero.1 this).resolve_left k0.ne'
  exact (mul_eq_zero.1 this).resolve_left (sig_ne b)

theorem dot_mOf (y : Q3) : dotQ (mOf Q b) y = sig b * dotQ Q.plane.n.q y := by
  unfold mOf dotQ; simp only [Pi.smul_apply, smul_eq_mul]; ring

theorem dot_uOf (y : Q3) : dotQ (uOf Q b D) y = sig b * dotQ (crossQ Q.plane.n.q D) y := by
  unfold uOf mOf dotQ; simp only [crossQ_zero, crossQ_one, crossQ_two, Pi.smul_apply, smul_eq_mul]; ring

/-- Beside an edge through `P`, the edges whose lines contain `P` bound the same half plane. -/
theorem Half.turns (hc : IsConvexPolygon Q) (hD : D ≠ 0) (h : Half Q P D b) {j : Nat} (hj : j < Q.count)
    (h0 : Poly.turn Q.plane.n.q (Q.pt j) (Q.pt ((j + 1) % Q.count)) P = 0) :
    ∃ k : ℚ, 0 ≤ k ∧ ∀ y, dotQ Q.plane.n.q y = 0 → turnBy Q.plane.n.q (Q.pt j) (Q.pt ((j + 1) % Q.count)) y = k * dotQ (uOf Q b D) y := by
  have hflat := h.flat hc
  have hmem := h.mem
  obtain ⟨i, hi, ⟨s, s0, s1, es⟩, k, k0, e⟩ := h
  simp only at es e
  have hi' : (i + 1) % Q.count < Q.count := Nat.mod_lt _ (by omega)
  have hj' : (j + 1) % Q.count < Q.count := Nat.mod_lt _ (by omega)
  have hnn := normal_pos hc
  set n := Q.plane.n.q with hn
  have on : ∀ z ∈ Q.region, dotQ n z = Q.plane.d := fun z hz => region_onPlane hc hz
  -- the edge `j` is parallel to `D`
  have t1 := turn_vertex hc hj hi
  have t2 := turn_vertex hc hj hi'
  have a1 := turn_add n (Q.pt j) (Q.pt ((j + 1) % Q.count)) (Q.pt i) (Q.pt ((i + 1) % Q.count) - Q.pt i) 1
  rw [one_smul, add_sub_cancel, one_mul] at a1
  have a2 := turn_add n (Q.pt j) (Q.pt ((j + 1) % Q.count)) (Q.pt i) (Q.pt ((i + 1) % Q.count) - Q.pt i) s
  rw [← es, h0] at a2
  have z0 : turnBy n (Q.pt j) (Q.pt ((j + 1) % Q.count)) (Q.pt ((i + 1) % Q.count) - Q.pt i) = 0 := by
    rcases lt_trichotomy (turnBy n (Q.pt j) (Q.pt ((j + 1) % Q.count)) (Q.pt ((i + 1) % Q.count) - Q.pt i)) 0 with c | c | c
    · exfalso; nlinarith
    · exact c
    · exfalso; nlinarith
  have hcD : dotQ (crossQ n (Q.pt ((j + 1) % Q.count) - Q.pt j)) D = 0 := by
    rw [turnBy_cross, e, dotQ_smul, dotQ_smul] at z0
    exact (mul_eq_zero.1 ((mul_eq_zero.1 z0).resolve_left k0.ne')).resolve_left (sig_ne b)
  set c := crossQ n (Q.pt ((j + 1) % Q.count) - Q.pt j) with hcdef
  have hcn : dotQ c n = 0 := by
    rw [hcdef]; unfold dotQ; simp only [crossQ_zero, crossQ_one, crossQ_two]; ring
  set w := crossQ n D with hw
  have hDD : 0 < dotQ D D := by
    by_contra hneg
    apply hD
    unfold dotQ at hneg
    push Not at hneg
    funext j
    have := mul_self_nonneg (D 0); have := mul_self_nonneg (D 1); have := mul_self_nonneg (D 2)
    fin_cases j <;> simp only [Fin.zero_eta, Fin.mk_one, Fin.reduceFinMk, Pi.zero_apply] <;> exact mul_self_eq_zero.1 (by linarith)
  have hww : dotQ w w = dotQ n n * dotQ D D := by
    have : dotQ w w = dotQ n n * dotQ D D - dotQ n D * dotQ n D := by
      rw [hw]; unfold dotQ; simp only [crossQ_zero, crossQ_one, crossQ_two]; ring
    rw [this, hflat]; ring
  have hw0 : 0 < dotQ w w := by rw [hww]; exact mul_pos hnn hDD
  have hcw : ∀ y, dotQ w w * dotQ c y = dotQ c w * dotQ w y := by
    intro y
    have hh : dotQ w w * dotQ c y = dotQ c w * dotQ w y + (dotQ c n * dotQ D D - dotQ c D * dotQ n D) * dotQ n y +
        (dotQ c D * dotQ n n - dotQ c n * dotQ n D) * dotQ D y := by
      rw [hw]; unfold dotQ; simp only [crossQ_zero, crossQ_one, crossQ_two]; ring
    rw [hh, hcn, hcD]; ring
  -- orientation
  obtain ⟨z, hz, hzt⟩ := exists_beside hc hi
  have tz : Poly.turn n (Q.pt i) (Q.pt ((i + 1) % Q.count)) z = k * dotQ (uOf Q b D) (z - P) := by
    have b1 := turn_add n (Q.pt i) (Q.pt ((i + 1) % Q.count)) P (z - P) 1
    rw [one_smul, add_sub_cancel, one_mul, turnBy_cross, e] at b1
    have b2 : Poly.turn n (Q.pt i) (Q.pt ((i + 1) % Q.count)) P = 0 := by
      rw [es]; unfold Poly.turn dotQ
      simp only [crossQ_zero, crossQ_one, crossQ_two, Pi.sub_apply, Pi.add_apply, Pi.smul_apply, smul_eq_mul]
      ring
    rw [b1, b2, dot_uOf]
    unfold dotQ; simp only [crossQ_zero, crossQ_one, crossQ_two, Pi.smul_apply, smul_eq_mul]; ring
  have hz1 : 0 < dotQ (uOf Q b D) (z - P) := by rw [tz] at hzt; exact pos_of_mul_pos_right hzt k0.le
  have tj : 0 ≤ dotQ c (z - P) := by
    have b1 := turn_add n (Q.pt j) (Q.pt ((j + 1) % Q.count)) P (z - P) 1
    rw [one_smul, add_sub_cancel, one_mul, turnBy_cross, h0, zero_add] at b1
    rw [← b1]
    exact turn_region hc hj hz
  refine ⟨sig b * dotQ c w / dotQ w w, ?_, fun y hy => ?_⟩
  · refine div_nonneg ?_ hw0.le
    have h1 := hcw (z - P)
    rw [dot_uOf, ← hw] at hz1
    have h2 : 0 ≤ (sig b * dotQ c w) * (sig b * dotQ w (z - P)) := by
      rw [show (sig b * dotQ c w) * (sig b * dotQ w (z - P)) = (sig b * sig b) * (dotQ c w * dotQ w (z - P)) by ring, sig_sq, one_mul, ← h1]
      exact mul_nonneg hw0.le tj
    exact nonneg_of_mul_nonneg_left h2 hz1
  · rw [turnBy_cross, dot_uOf, ← hw]
    rw [show sig b * dotQ c w / dotQ w w * (sig b * dotQ w y) = (sig b * sig b) * (dotQ c w * dotQ w y) / dotQ w w by ring, sig_sq, one_mul, ← hcw y]
    exact (mul_div_cancel_left₀ _ hw0.ne').symm

theorem Half.edge (h : Half Q P D b) : ∃ i < Q.count, ∃ k : ℚ, 0 < k ∧ Poly.turn Q.plane.n.q (Q.pt i) (Q.pt ((i + 1) % Q.count)) P = 0 ∧
    ∀ y, turnBy Q.plane.n.q (Q.pt i) (Q.pt ((i + 1) % Q.count)) y = k * dotQ (uOf Q b D) y := by
  obtain ⟨i, hi, ⟨s, s0, s1, es⟩, k, k0, e⟩ := h
  simp only at es e
  refine ⟨i, hi, k, k0, ?_, fun y => ?_⟩
  · rw [es]; unfold Poly.turn dotQ
    simp only [crossQ_zero, crossQ_one, crossQ_two, Pi.sub_apply, Pi.add_apply, Pi.smul_apply, smul_eq_mul]
    ring
  · rw [turnBy_cross, e, dot_uOf]
    unfold dotQ; simp only [crossQ_zero, crossQ_one, crossQ_two, Pi.smul_apply, smul_eq_mul]; ring

/-- Points of the half plane that are close enough are in the polygon. -/
theorem Half.point (hc : IsConvexPolygon Q) (hD : D ≠ 0) (h : Half Q P D b) {y : Q3} {ε : ℚ} (h0 : 0 ≤ ε) (hy : dotQ Q.plane.n.q y = 0) (hu : 0 ≤ dotQ (uOf Q b D) y)
    (ht : ∀ j < Q.count, 0 < Poly.turn Q.plane.n.q (Q.pt j) (Q.pt ((j + 1) % Q.count)) P →
      0 ≤ Poly.turn Q.plane.n.q (Q.pt j) (Q.pt ((j + 1) % Q.count)) P + ε * turnBy Q.plane.n.q (Q.pt j) (Q.pt ((j + 1) % Q.count)) y) : P + ε • y ∈ Q.region := by
  refine mem_of_turns hc ?_ fun j hj => ?_
  · rw [side_ray, side_region hc h.mem, hy]; ring
  · rw [turn_add]
    rcases (turn_region hc hj h.mem).eq_or_lt with e | e
    · obtain ⟨k, k0, hk⟩ := h.turns hc hD hj e.symm
      rw [← e, hk y hy, zero_add]
      exact mul_nonneg h0 (mul_nonneg k0 hu)
    · exact ht j hj e

/-- Points of the polygon are in the half plane. -/
theorem Half.only (hc : IsConvexPolygon Q) (h : Half Q P D b) {y : Q3} {ε : ℚ} (h0 : 0 < ε) (hy : P + ε • y ∈ Q.region) :
    dotQ Q.plane.n.q y = 0 ∧ 0 ≤ dotQ (uOf Q b D) y := by
  constructor
  · have := side_region hc hy
    rw [side_ray, side_region hc h.mem, zero_add] at this
    exact (mul_eq_zero.1 this).resolve_left h0.ne'
  · obtain ⟨i, hi, k, k0, e1, e2⟩ := h.edge
    have := turn_region hc hi hy
    rw [turn_add, e1, e2, zero_add] at this
    exact nonneg_of_mul_nonneg_right (nonneg_of_mul_nonneg_right this h0) k0

theorem Half.move (hc : IsConvexPolygon Q) (hD : D ≠ 0) (h : Half Q P D b) {y : Q3} (hy : dotQ Q.plane.n.q y = 0) (hu : 0 ≤ dotQ (uOf Q b D) y) : Ev fun ε => P + ε • y ∈ Q.region := by
  have : Ev fun ε => ∀ j ∈ Finset.range Q.count, 0 < Poly.turn Q.plane.n.q (Q.pt j) (Q.pt ((j + 1) % Q.count)) P →
      0 < Poly.turn Q.plane.n.q (Q.pt j) (Q.pt ((j + 1) % Q.count)) P + ε * turnBy Q.plane.n.q (Q.pt j) (Q.pt ((j + 1) % Q.count)) y := by
    refine ev_fin _ fun j _ => ev_imp fun hpos => ?_
    exact ev_cont (f := fun ε => Poly.turn Q.plane.n.q (Q.pt j) (Q.pt ((j + 1) % Q.count)) P + ε * turnBy Q.plane.n.q (Q.pt j) (Q.pt ((j + 1) % Q.count)) y) (by fun_prop) (by simpa using hpos)
  filter_upwards [this, ev_pos] with ε h1 h2
  exact h.point hc hD h2.le hy hu fun j hj hpos => (h1 j (Finset.mem_range.2 hj) hpos).le

end

/-- A point of a polygon in the plane through no vertex is inside or on an edge. -/
theorem half_cases {E : Type} {Q : Polygon E} {P D : Q3} (hc : IsConvexPolygon Q) (g0 : ∀ i < Q.count, dotQ D (Q.pt i) ≠ dotQ D P)
    (g2 : ∀ i < Q.count, Between (Q.pt i) (Q.pt ((i + 1) % Q.count)) P → ∃ k : ℚ, k ≠ 0 ∧ Q.pt ((i + 1) % Q.count) - Q.pt i = k • D) (hP : P ∈ Q.region) :
    FullAt Q P ∨ ∃ b, Half Q P D b := by
  have h3 := hc.three
  have hmod : ∀ i, (i + 1) % Q.count < Q.count := fun i => Nat.mod_lt _ (by omega)
  have val : ∀ z, Pl.val ⟨D, dotQ D P⟩ z = dotQ D z - dotQ D P := fun z => rfl
  have edge : ∀ i < Q.count, Between (Q.pt i) (Q.pt ((i + 1) % Q.count)) P → ∃ b, Half Q P D b := by
    intro i hi hb
    obtain ⟨k, k0, e⟩ := g2 i hi hb
    rcases lt_or_gt_of_ne k0 with c | c
    · exact ⟨false, i, hi, hb, -k, by linarith, by rw [show sig false = -1 from rfl, smul_smul, e]; simp⟩
    · exact ⟨true, i, hi, hb, k, c, by rw [show sig true = 1 from rfl, smul_smul, e]; simp⟩
  rcases chord hc ⟨D, dotQ D P⟩ (fun i hi => by rw [val]; exact sub_ne_zero.2 (g0 i hi)) with ⟨h1, _⟩ | ⟨i, hi, j, hj, hij, i1, i2, j1, j2, _, hne, κ, κ0, e, hline, hmem⟩
  · exact absurd (by rw [val, sub_self]) (h1 P hP)
  · set p := cr ⟨D, dotQ D P⟩ (Q.pt i) (Q.pt ((i + 1) % Q.count)) with hp
    have bi := between_cr (mul_neg_of_neg_of_pos i1 i2)
    have bj := between_cr (mul_neg_of_pos_of_neg j1 j2)
    obtain ⟨τ, hτ⟩ := hline P (region_onPlane hc hP) (by rw [val, sub_self])
    obtain ⟨τ0, τ1⟩ := (hmem τ).1 (by rw [← hτ]; exact hP)
    rcases τ0.eq_or_lt with c | c
    · right
      refine edge i hi ?_
      rw [← c, zero_smul, add_zero] at hτ
      rw [hτ]; exact bi
    rcases τ1.eq_or_lt with c' | c'
    · right
      refine edge j hj ?_
      rw [c', ← e] at hτ
      rw [hτ]; exact bj
    left
    refine ⟨side_region hc hP, fun k hk => ?_⟩
    refine (turn_region hc hk hP).lt_of_ne fun h0 => ?_
    -- the chord is on the line of the edge
    set w := crossQ Q.plane.n.q D with hw
    have tb : turnBy Q.plane.n.q (Q.pt k) (Q.pt ((k + 1) % Q.count)) w = 0 := by
      have m0 := turn_region hc hk ((hmem 0).2 ⟨le_rfl, κ0⟩)
      have m1 := turn_region hc hk ((hmem κ).2 ⟨κ0, le_rfl⟩)
      rw [hτ] at h0
      rw [turn_add] at h0 m0 m1
      rcases lt_trichotomy (turnBy Q.plane.n.q (Q.pt k) (Q.pt ((k + 1) % Q.count)) w) 0 with c | c | c
      · exfalso; nlinarith
      · exact c
      · exfalso; nlinarith
    have on : ∀ z ∈ Q.region, dotQ Q.plane.n.q z = Q.plane.d := fun z hz => region_onPlane hc hz
    have ne : dotQ Q.plane.n.q (Q.pt ((k + 1) % Q.count) - Q.pt k) = 0 := by rw [dotQ_sub, on _ (pt_mem hk), on _ (pt_mem (hmod k)), sub_self]
    have hnn := normal_pos hc
    -- so the edge does not go in direction `D`
    have eD : dotQ D (Q.pt ((k + 1) % Q.count) - Q.pt k) = 0 := by
      rw [turnBy_cross] at tb
      have : dotQ (crossQ Q.plane.n.q (Q.pt ((k + 1) % Q.count) - Q.pt k)) w =
          dotQ Q.plane.n.q Q.plane.n.q * dotQ D (Q.pt ((k + 1) % Q.count) - Q.pt k) - dotQ Q.plane.n.q D * dotQ Q.plane.n.q (Q.pt ((k + 1) % Q.count) - Q.pt k) := by
        rw [hw]; unfold dotQ; simp only [crossQ_zero, crossQ_one, crossQ_two]; ring
      rw [this, ne, mul_zero, sub_zero] at tb
      exact (mul_eq_zero.1 tb).resolve_left hnn.ne'
    -- and `P` is on its line
    have nP : dotQ Q.plane.n.q (P - Q.pt k) = 0 := by rw [dotQ_sub, on _ (pt_mem hk), on _ hP, sub_self]
    have cz : crossQ (P - Q.pt k) (Q.pt ((k + 1) % Q.count) - Q.pt k) = 0 := by
      refine cross_zero_of hnn.ne' ne nP ?_
      have := turn_add Q.plane.n.q (Q.pt k) (Q.pt ((k + 1) % Q.count)) (Q.pt k) (P - Q.pt k) 1
      rw [one_smul, add_sub_cancel, ← h0, one_mul, turnBy_cross] at this
      have t0 : Poly.turn Q.plane.n.q (Q.pt k) (Q.pt ((k + 1) % Q.count)) (Q.pt k) = 0 := by
        unfold Poly.turn dotQ
        simp only [crossQ_zero, crossQ_one, crossQ_two, Pi.sub_apply]
        ring
      rw [t0] at this
      linarith
    set v := Q.pt ((k + 1) % Q.count) - Q.pt k with hv
    have vv : dotQ v v ≠ 0 := by
      intro hn
      have hne : v ≠ 0 := fun h0 => next_ne hc hk (sub_eq_zero.1 h0)
      apply hne
      unfold dotQ at hn
      funext j
      have := mul_self_nonneg (v 0); have := mul_self_nonneg (v 1); have := mul_self_nonneg (v 2)
      fin_cases j <;> simp only [Fin.zero_eta, Fin.mk_one, Fin.reduceFinMk, Pi.zero_apply] <;> exact mul_self_eq_zero.1 (by linarith)
    apply g0 k hk
    have : dotQ v v * dotQ D (P - Q.pt k) = 0 := by
      have c0 := congrFun cz 0; have c1 := congrFun cz 1; have c2 := congrFun cz 2
      simp only [crossQ_zero, crossQ_one, crossQ_two, Pi.zero_apply] at c0 c1 c2
      generalize P - Q.pt k = y at *
      unfold dotQ at eD ⊢
      linear_combination (y 0 * v 0 + y 1 * v 1 + y 2 * v 2) * eD + (D 2 * v 1 - D 1 * v 2) * c0 * (-1) + (D 0 * v 2 - D 2 * v 0) * c1 * (-1) + (D 1 * v 0 - D 0 * v 1) * c2 * (-1)
    have := (mul_eq_zero.1 this).resolve_left vv
    rw [dotQ_sub] at this
    linarith

end Walnut.Bsp
