/-
The emitted polygons around an edge point.
-/
import Verif.Bsp.HalfFacet
import Verif.Props.AnyRay

namespace Walnut.Bsp
open Walnut.Geom Walnut.Poly Walnut.Props

/-! ### Conditions that hold for all rays close to a given one -/

/-- The condition on the ray from `a` to `b`, seen from a point at scale `ε`, follows from
strict inequalities that hold for the ray from `ya` to `yb`. -/
def Robust (ya yb : ℚ → Q3) (B : ℚ → Q3 → Q3 → Prop) : Prop :=
  ∃ L : List (ℚ → Q3 → Q3 → ℚ), (∀ F ∈ L, Continuous (fun x : ℚ × Q3 × Q3 => F x.1 x.2.1 x.2.2) ∧ Ev fun σ => 0 < F 0 (ya σ) (yb σ)) ∧
    ∀ ε a b, 0 < ε → (∀ F ∈ L, 0 < F ε a b) → B ε a b

section
variable {ya yb : ℚ → Q3}

theorem robust_fun {F : ℚ → Q3 → Q3 → ℚ} (hF : Continuous fun x : ℚ × Q3 × Q3 => F x.1 x.2.1 x.2.2) (h : Ev fun σ => 0 < F 0 (ya σ) (yb σ)) :
    Robust ya yb fun ε a b => 0 < F ε a b :=
  ⟨[F], by simpa using ⟨hF, h⟩, fun ε a b _ h => h F (by simp)⟩

theorem Robust.mono {B B' : ℚ → Q3 → Q3 → Prop} (h : Robust ya yb B) (hB : ∀ ε a b, 0 < ε → B ε a b → B' ε a b) : Robust ya yb B' := by
  obtain ⟨L, h1, h2⟩ := h
  exact ⟨L, h1, fun ε a b h0 h => hB ε a b h0 (h2 ε a b h0 h)⟩

theorem Robust.and {B B' : ℚ → Q3 → Q3 → Prop} (h : Robust ya yb B) (h' : Robust ya yb B') : Robust ya yb fun ε a b => B ε a b ∧ B' ε a b := by
  obtain ⟨L, h1, h2⟩ := h
  obtain ⟨L', h1', h2'⟩ := h'
  refine ⟨L ++ L', fun F hF => (List.mem_append.1 hF).elim (h1 F) (h1' F), fun ε a b h0 h => ⟨h2 ε a b h0 fun F hF => h F (List.mem_append_left _ hF), ?_⟩⟩
  exact h2' ε a b h0 fun F hF => h F (List.mem_append_right _ hF)

theorem robust_all {α : Type} (l : List α) {B : α → ℚ → Q3 → Q3 → Prop} (h : ∀ x ∈ l, Robust ya yb (B x)) : Robust ya yb fun ε a b => ∀ x ∈ l, B x ε a b := by
  induction l with
  | nil => exact ⟨[], by simp, by simp⟩
  | cons x l ih =>
    refine ((h x (by simp)).and (ih fun y hy => h y (by simp [hy]))).mono fun ε a b _ h => ?_
    intro y hy
    rcases List.mem_cons.1 hy with rfl | hy
    · exact h.1
    · exact h.2 y hy

theorem robust_of {B : ℚ → Q3 → Q3 → Prop} (h : ∀ ε a b, 0 < ε → B ε a b) : Robust ya yb B := ⟨[], by simp, fun ε a b h0 _ => h ε a b h0⟩

theorem robust_imp {p : Prop} {B : ℚ → Q3 → Q3 → Prop} (h : p → Robust ya yb B) : Robust ya yb fun ε a b => p → B ε a b := by
  by_cases hp : p
  · exact (h hp).mono fun _ _ _ _ h _ => h
  · exact robust_of fun _ _ _ _ h => absurd h hp

theorem Robust.ray {B : ℚ → Q3 → Q3 → Prop} (h : Robust ya yb B) {t : Node} {tr : List Visit} {S : List Source} (hS : ∀ s ∈ S, IsConvexPolygon s.poly) (hn : ∀ g ∈ t.planes, g.n.q ≠ 0) (P : Q3) :
    ∃ ε, 0 < ε ∧ ∃ a b, B ε a b ∧ GenericRay t tr S (P + ε • a) (b - a) := by
  obtain ⟨L, h1, h2⟩ := h
  obtain ⟨σ, _, hσ⟩ := ev_exists (ev_list L (p := fun F σ => 0 < F 0 (ya σ) (yb σ)) fun F hF => (h1 F hF).2)
  obtain ⟨ε, ε0, a, b, hL, hG⟩ := ray_near (tr := tr) hS hn P (ya σ) (yb σ) L (fun F hF => (h1 F hF).1) hσ
  exact ⟨ε, ε0, a, b, h2 ε a b ε0 hL, hG⟩

end

theorem cont_dot (m : Q3) : Continuous fun y : Q3 => dotQ m y := by unfold dotQ; fun_prop

/-- Where the ray from `a` to `b` crosses the plane with normal `m`. -/
def crossAt (m a b : Q3) : ℚ := -dotQ m a / (dotQ m b - dotQ m a)

theorem dot_between (w a b : Q3) (s : ℚ) : dotQ w (a + s • (b - a)) = (1 - s) * dotQ w a + s * dotQ w b := by
  rw [dotQ_add, dotQ_smul, dotQ_sub]; ring

theorem crossAt_spec {m a b : Q3} (h : dotQ m a < 0) (h' : 0 < dotQ m b) (w : Q3) :
    0 < crossAt m a b ∧ crossAt m a b < 1 ∧ (dotQ m b - dotQ m a) * dotQ w (a + crossAt m a b • (b - a)) = dotQ w a * dotQ m b - dotQ w b * dotQ m a ∧
      (∀ s, dotQ m (a + s • (b - a)) = (dotQ m b - dotQ m a) * (s - crossAt m a b)) := by
  have hN : 0 < dotQ m b - dotQ m a := by linarith
  unfold crossAt
  refine ⟨div_pos (by linarith) hN, by rw [div_lt_one hN]; linarith, ?_, fun s => ?_⟩
  · rw [dot_between]; field_simp; ring
  · rw [dot_between]; field_simp; ring

section
variable {E : Type} {Q : Polygon E} {P D : Q3} {b : Bool} {ya yb : ℚ → Q3}

/-- A ray across the half plane hits the polygon close to the edge point. -/
theorem Half.hit (hc : IsConvexPolygon Q) (hD : D ≠ 0) (h : Half Q P D b) (h1 : Ev fun σ => dotQ (mOf Q b) (ya σ) < 0) (h2 : Ev fun σ => 0 < dotQ (mOf Q b) (yb σ))
    (h3 : Ev fun σ => 0 < dotQ (uOf Q b D) (ya σ) * dotQ (mOf Q b) (yb σ) - dotQ (uOf Q b D) (yb σ) * dotQ (mOf Q b) (ya σ)) :
    Robust ya yb fun ε x y => dotQ (mOf Q b) x < 0 ∧ 0 < dotQ (mOf Q b) y ∧
      P + ε • (x + crossAt (mOf Q b) x y • (y - x)) ∈ Q.region ∧ 0 < dotQ (uOf Q b D) (x + crossAt (mOf Q b) x y • (y - x)) := by
  set m := mOf Q b with hm
  set u := uOf Q b D with hu
  have cm := cont_dot m
  have cu := cont_dot u
  have r1 : Robust ya yb fun ε x y => 0 < -dotQ m x := robust_fun (F := fun ε x y => -dotQ m x) (by fun_prop) (h1.mono fun σ h => by linarith)
  have r2 : Robust ya yb fun ε x y => 0 < dotQ m y := robust_fun (F := fun ε x y => dotQ m y) (by fun_prop) h2
  have r3 : Robust ya yb fun ε x y => 0 < dotQ u x * dotQ m y - dotQ u y * dotQ m x :=
    robust_fun (F := fun ε x y => dotQ u x * dotQ m y - dotQ u y * dotQ m x) (by fun_prop) h3
  have r4 : Robust ya yb fun ε x y => ∀ j ∈ List.range Q.count, 0 < Poly.turn Q.plane.n.q (Q.pt j) (Q.pt ((j + 1) % Q.count)) P →
      0 < Poly.turn Q.plane.n.q (Q.pt j) (Q.pt ((j + 1) % Q.count)) P * (dotQ m y - dotQ m x) +
        ε * (dotQ (crossQ Q.plane.n.q (Q.pt ((j + 1) % Q.count) - Q.pt j)) x * dotQ m y - dotQ (crossQ Q.plane.n.q (Q.pt ((j + 1) % Q.count) - Q.pt j)) y * dotQ m x) := by
    refine robust_all _ fun j _ => robust_imp fun hpos => ?_
    have cj := cont_dot (crossQ Q.plane.n.q (Q.pt ((j + 1) % Q.count) - Q.pt j))
    refine robust_fun (F := fun ε x y => Poly.turn Q.plane.n.q (Q.pt j) (Q.pt ((j + 1) % Q.count)) P * (dotQ m y - dotQ m x) +
        ε * (dotQ (crossQ Q.plane.n.q (Q.pt ((j + 1) % Q.count) - Q.pt j)) x * dotQ m y - dotQ (crossQ Q.plane.n.q (Q.pt ((j + 1) % Q.count) - Q.pt j)) y * dotQ m x))
      (by fun_prop) ?_
    filter_upwards [h1, h2] with σ l1 l2
    rw [zero_mul, add_zero]
    exact mul_pos hpos (by linarith)
  refine (r1.and (r2.and (r3.and r4))).mono fun ε x y ε0 ⟨k1, k2, k3, k4⟩ => ?_
  have k1 : dotQ m x < 0 := by linarith
  have hN : 0 < dotQ m y - dotQ m x := by linarith
  have k3 : 0 < dotQ u (x + crossAt m x y • (y - x)) := by
    have := (crossAt_spec k1 k2 u).2.2.1
    rw [← this] at k3
    exact pos_of_mul_pos_right k3 hN.le
  refine ⟨k1, k2, ?_, k3⟩
  refine h.point hc hD ε0.le ?_ ?_ fun j hj hpos => ?_
  · have := (crossAt_spec k1 k2 m).2.2.2 (crossAt m x y)
    rw [sub_self, mul_zero, hm, dot_mOf] at this
    exact (mul_eq_zero.1 this).resolve_left (sig_ne b)
  · exact k3.le
  · have := k4 j (List.mem_range.2 hj) hpos
    rw [← (crossAt_spec k1 k2 _).2.2.1] at this
    rw [turnBy_cross]
    have : 0 < (dotQ m y - dotQ m x) * (Poly.turn Q.plane.n.q (Q.pt j) (Q.pt ((j + 1) % Q.count)) P +
        ε * dotQ (crossQ Q.plane.n.q (Q.pt ((j + 1) % Q.count) - Q.pt j)) (x + crossAt m x y • (y - x))) := by
      rw [mul_add]; linarith
    exact (pos_of_mul_pos_right this hN.le).le

end

theorem mix_neg {x y s : ℚ} (hx : x < 0) (hy : y < 0) (s0 : 0 ≤ s) (s1 : s ≤ 1) : (1 - s) * x + s * y < 0 := by
  rcases s0.eq_or_lt with rfl | s0
  · linarith
  · have := mul_neg_of_pos_of_neg s0 hy
    have := mul_nonpos_of_nonneg_of_nonpos (show 0 ≤ 1 - s by linarith) hx.le
    linarith

/-- A ray on the other side of a plane misses the polygon. -/
theorem robust_miss {E : Type} {Q : Polygon E} {P p : Q3} {ya yb : ℚ → Q3} (h1 : Ev fun σ => dotQ p (ya σ) < 0) (h2 : Ev fun σ => dotQ p (yb σ) < 0)
    (hp : ∀ (ε : ℚ) y, 0 < ε → P + ε • y ∈ Q.region → 0 ≤ dotQ p y) : Robust ya yb fun ε a b => ∀ s : ℚ, 0 ≤ s → s ≤ 1 → P + ε • (a + s • (b - a)) ∉ Q.region := by
  have cm := cont_dot p
  have r1 : Robust ya yb fun ε x y => 0 < -dotQ p x := robust_fun (F := fun ε x y => -dotQ p x) (by fun_prop) (h1.mono fun σ h => by linarith)
  have r2 : Robust ya yb fun ε x y => 0 < -dotQ p y := robust_fun (F := fun ε x y => -dotQ p y) (by fun_prop) (h2.mono fun σ h => by linarith)
  refine (r1.and r2).mono fun ε x y ε0 ⟨k1, k2⟩ s s0 s1 hm => ?_
  have := hp ε _ ε0 hm
  rw [dot_between] at this
  have := mix_neg (neg_pos.1 k1) (neg_pos.1 k2) s0 s1
  linarith

/-- A polygon away from the point is missed. -/
theorem robust_far {E : Type} {Q : Polygon E} (hc : IsConvexPolygon Q) {P : Q3} (hP : P ∉ Q.region) {ya yb : ℚ → Q3} :
    Robust ya yb fun ε a b => ∀ s : ℚ, 0 ≤ s → s ≤ 1 → P + ε • (a + s • (b - a)) ∉ Q.region := by
  obtain ⟨p, _, p1, p2⟩ := facet_apart hc hP
  have cm := cont_dot p.n
  have e : ∀ ε y, p.val (P + ε • y) = p.val P + ε * dotQ p.n y := by
    intro ε y; unfold Pl.val; rw [dotQ_add, dotQ_smul]; ring
  have r1 : Robust ya yb fun ε x y => 0 < -(p.val P + ε * dotQ p.n x) := robust_fun (F := fun ε x y => -(p.val P + ε * dotQ p.n x)) (by fun_prop)
    (Filter.Eventually.of_forall fun σ => by rw [zero_mul, add_zero]; linarith)
  have r2 : Robust ya yb fun ε x y => 0 < -(p.val P + ε * dotQ p.n y) := robust_fun (F := fun ε x y => -(p.val P + ε * dotQ p.n y)) (by fun_prop)
    (Filter.Eventually.of_forall fun σ => by rw [zero_mul, add_zero]; linarith)
  refine (r1.and r2).mono fun ε x y ε0 ⟨k1, k2⟩ s s0 s1 hm => ?_
  have := p2 _ hm
  rw [e, dot_between] at this
  have := mix_neg (neg_pos.1 k1) (neg_pos.1 k2) s0 s1
  linarith

/-- The point is in general position among the points of the line in direction `D`: an edge
through it is on the line, and so is no vertex in the plane across the line. -/
structure GenericPoint (M : List (Polygon EdgeInfo)) (P D : Q3) : Prop where
  vertex : ∀ Q ∈ M, ∀ i < Q.count, dotQ D (Q.pt i) ≠ dotQ D P
  plane : ∀ Q ∈ M, Q.plane.side P = 0 → dotQ Q.plane.n.q D = 0
  edge : ∀ Q ∈ M, ∀ i < Q.count, Between (Q.pt i) (Q.pt ((i + 1) % Q.count)) P → ∃ k : ℚ, k ≠ 0 ∧ Q.pt ((i + 1) % Q.count) - Q.pt i = k • D

/-- Positive if `m'` is less than half a turn counter-clockwise from `m` around `D`. -/
def tw (D m m' : Q3) : ℚ := dotQ m (crossQ m' D)

theorem tw_neg (D m m' : Q3) : tw D m m' = -tw D m' m := by
  unfold tw dotQ; simp only [crossQ_zero, crossQ_one, crossQ_two]; ring

theorem tw_self (D m : Q3) : tw D m m = 0 := by
  unfold tw dotQ; simp only [crossQ_zero, crossQ_one, crossQ_two]; ring

theorem dot_cross_cross {D m m' : Q3} (h : dotQ m D = 0) : dotQ (crossQ m D) (crossQ m' D) = dotQ m m' * dotQ D D := by
  have : dotQ (crossQ m D) (crossQ m' D) = dotQ m m' * dotQ D D - dotQ m D * dotQ m' D := by
    unfold dotQ; simp only [crossQ_zero, crossQ_one, crossQ_two]; ring
  rw [this, h]; ring

theorem tw_identity {D m e f : Q3} (hm : dotQ m D = 0) :
    tw D m e * dotQ m f - dotQ m e * tw D m f = -(dotQ m m * tw D e f) := by
  unfold tw dotQ at *
  simp only [crossQ_zero, crossQ_one, crossQ_two]
  linear_combination ((m 2 * f 1 - m 1 * f 2) * e 0 + (m 0 * f 2 - m 2 * f 0) * e 1 + (m 1 * f 0 - m 0 * f 1) * e 2) * hm

theorem self_pos {D : Q3} (hD : D ≠ 0) : 0 < dotQ D D := by
  by_contra hneg
  apply hD
  unfold dotQ at hneg
  push Not at hneg
  funext j
  have := mul_self_nonneg (D 0); have := mul_self_nonneg (D 1); have := mul_self_nonneg (D 2)
  fin_cases j <;> simp only [Fin.zero_eta, Fin.mk_one, Fin.reduceFinMk, Pi.zero_apply] <;> exact mul_self_eq_zero.1 (by linarith)

/-- Two vectors across `D` that are not turned against each other are parallel. -/
theorem tw_parallel {D m e : Q3} (hD : D ≠ 0) (hm : dotQ m D = 0) (he : dotQ e D = 0) (h0 : tw D m e = 0) (y : Q3) : dotQ m m * dotQ e y = dotQ m e * dotQ m y := by
  have hDD := self_pos hD
  have : dotQ D D * (dotQ m m * dotQ e y - dotQ m e * dotQ m y) = 0 := by
    unfold tw dotQ at *
    simp only [crossQ_zero, crossQ_one, crossQ_two] at *
    linear_combination (D 0 * (m 1 * y 2 - m 2 * y 1) + D 1 * (m 2 * y 0 - m 0 * y 2) + D 2 * (m 0 * y 1 - m 1 * y 0)) * h0 +
      ((m 0 * m 0 + m 1 * m 1 + m 2 * m 2) * (D 0 * y 0 + D 1 * y 1 + D 2 * y 2) - (m 0 * y 0 + m 1 * y 1 + m 2 * y 2) * (m 0 * D 0 + m 1 * D 1 + m 2 * D 2)) * he -
      ((m 0 * e 0 + m 1 * e 1 + m 2 * e 2) * (D 0 * y 0 + D 1 * y 1 + D 2 * y 2) - (e 0 * y 0 + e 1 * y 1 + e 2 * y 2) * (m 0 * D 0 + m 1 * D 1 + m 2 * D 2)) * hm
  have := (mul_eq_zero.1 this).resolve_left hDD.ne'
  linarith

end Walnut.Bsp
