/-
Around an edge point, emitted polygons that have the solid on opposite sides alternate.
-/
import Verif.Bsp.AroundEdge

namespace Walnut.Bsp
open Walnut.Geom Walnut.Poly Walnut.Props

theorem output_front {tr : List Visit} (hp : Placed [] tr) {Q Q' : Polygon EdgeInfo} (hQ : Q ∈ output tr) (hQ' : Q' ∈ output tr) {x : Q3} (hf : FullAt Q x) (hx : x ∈ Q'.region) :
    ∀ y ∈ Q'.region, 0 ≤ Q.plane.side y := by
  obtain ⟨p, hp1, rfl⟩ := List.mem_map.1 hQ
  obtain ⟨p', hp2, rfl⟩ := List.mem_map.1 hQ'
  exact (hp.apart p hp1 p' hp2).front hf hx

/-- Two half planes and what may be between them. -/
structure Wedge (M : List (Polygon EdgeInfo)) (P D : Q3) (Q1 Q2 : Polygon EdgeInfo) (b : Bool) : Prop where
  mem1 : Q1 ∈ M
  mem2 : Q2 ∈ M
  half1 : Half Q1 P D b
  half2 : Half Q2 P D b
  turned : 0 < tw D (mOf Q1 b) (mOf Q2 b)
  gap : ∀ Q ∈ M, ∀ c, Half Q P D c → 0 < tw D (mOf Q1 b) (mOf Q c) → 0 < tw D (mOf Q c) (mOf Q2 b) → False

section
variable {tr : List Visit} (hp : Placed [] tr) (hcv : ∀ Q ∈ output tr, IsConvexPolygon Q) {P D : Q3} (hD : D ≠ 0) (hgen : GenericPoint (output tr) P D)
  {Q1 Q2 : Polygon EdgeInfo} {b : Bool} (W : Wedge (output tr) P D Q1 Q2 b)

include hcv in
theorem GenericPoint.cases (hgen : GenericPoint (output tr) P D) {Q : Polygon EdgeInfo} (hQ : Q ∈ output tr) (hP : P ∈ Q.region) : FullAt Q P ∨ ∃ b, Half Q P D b :=
  half_cases (hcv Q hQ) (hgen.vertex Q hQ) (hgen.edge Q hQ) hP

theorem half_flat {Q : Polygon EdgeInfo} {b : Bool} (hc : IsConvexPolygon Q) (h : Half Q P D b) : dotQ (mOf Q b) D = 0 := by
  rw [dot_mOf, h.flat hc, mul_zero]

include hcv hD hp in
/-- The full plane of a polygon has the half planes at the point in front. -/
theorem full_front {Q Q' : Polygon EdgeInfo} (hQ : Q ∈ output tr) (hQ' : Q' ∈ output tr) {b : Bool} (hf : FullAt Q P) (h' : Half Q' P D b) : 0 ≤ dotQ Q.plane.n.q (uOf Q' b D) := by
  have hc' := hcv Q' hQ'
  have y0 : dotQ Q'.plane.n.q (uOf Q' b D) = 0 := by
    unfold uOf mOf dotQ; simp only [crossQ_zero, crossQ_one, crossQ_two, Pi.smul_apply, smul_eq_mul]; ring
  have y1 : 0 ≤ dotQ (uOf Q' b D) (uOf Q' b D) := by
    unfold dotQ
    have := mul_self_nonneg (uOf Q' b D 0); have := mul_self_nonneg (uOf Q' b D 1); have := mul_self_nonneg (uOf Q' b D 2)
    linarith
  obtain ⟨ε, ε0, hε⟩ := ev_exists (h'.move hc' hD y0 y1)
  have := output_front hp hQ hQ' hf h'.mem _ hε
  rw [side_ray, hf.1, zero_add] at this
  exact nonneg_of_mul_nonneg_right this ε0

theorem ev_start {p u1 u2 : Q3} (h : dotQ p u1 < 0) : Ev fun σ => dotQ p (u1 - σ • (u2 - u1)) < 0 := by
  refine (ev_cont (f := fun σ => -(dotQ p u1 - σ * dotQ p (u2 - u1))) (by fun_prop) (by simpa using h)).mono fun σ h => ?_
  rw [dotQ_sub, dotQ_smul]; linarith

theorem ev_end {p u1 u2 : Q3} (h : dotQ p u2 < 0) : Ev fun σ => dotQ p (u2 + σ • (u2 - u1)) < 0 := by
  refine (ev_cont (f := fun σ => -(dotQ p u2 + σ * dotQ p (u2 - u1))) (by fun_prop) (by simpa using h)).mono fun σ h => ?_
  rw [dotQ_add, dotQ_smul]; linarith

include hp hcv hD hgen W in
/-- The ray from one half plane to the other meets only polygons in the two planes. -/
theorem Wedge.avoid {Q : Polygon EdgeInfo} (hQ : Q ∈ output tr) :
    Robust (fun σ => uOf Q1 b D - σ • (uOf Q2 b D - uOf Q1 b D)) (fun σ => uOf Q2 b D + σ • (uOf Q2 b D - uOf Q1 b D))
      fun ε x y => ∀ s : ℚ, 0 ≤ s → s ≤ 1 → P + ε • (x + s • (y - x)) ∈ Q.region → P ∈ Q.region ∧ (tw D Q.plane.n.q (mOf Q1 b) = 0 ∨ tw D Q.plane.n.q (mOf Q2 b) = 0) := by
  by_cases hP : P ∈ Q.region
  swap
  · exact (robust_far (hcv Q hQ) hP).mono fun ε x y _ h s s0 s1 hm => absurd hm (h s s0 s1)
  by_cases h1 : tw D Q.plane.n.q (mOf Q1 b) = 0
  · exact robust_of fun _ _ _ _ _ _ _ _ => ⟨hP, Or.inl h1⟩
  by_cases h2 : tw D Q.plane.n.q (mOf Q2 b) = 0
  · exact robust_of fun _ _ _ _ _ _ _ _ => ⟨hP, Or.inr h2⟩
  have hc := hcv Q hQ
  have f1 := half_flat (hcv Q1 W.mem1) W.half1
  have f2 := half_flat (hcv Q2 W.mem2) W.half2
  have hDD := self_pos hD
  have fin : ∀ p : Q3, dotQ p (uOf Q1 b D) < 0 → dotQ p (uOf Q2 b D) < 0 → (∀ (ε : ℚ) y, 0 < ε → P + ε • y ∈ Q.region → 0 ≤ dotQ p y) → _ := fun p p1 p2 p3 =>
    (robust_miss (ya := fun σ => uOf Q1 b D - σ • (uOf Q2 b D - uOf Q1 b D)) (yb := fun σ => uOf Q2 b D + σ • (uOf Q2 b D - uOf Q1 b D)) (ev_start p1) (ev_end p2) p3).mono
      (B' := fun ε x y => ∀ s : ℚ, 0 ≤ s → s ≤ 1 → P + ε • (x + s • (y - x)) ∈ Q.region → P ∈ Q.region ∧ (tw D Q.plane.n.q (mOf Q1 b) = 0 ∨ tw D Q.plane.n.q (mOf Q2 b) = 0))
      fun ε x y _ h s s0 s1 hm => absurd hm (h s s0 s1)
  have neg : ∀ x y : Q3, dotQ (-x) y = -dotQ x y := fun x y => by unfold dotQ; simp only [Pi.neg_apply]; ring
  rcases hgen.cases hcv hQ hP with hf | ⟨c, hh⟩
  · have k1 : 0 < tw D Q.plane.n.q (mOf Q1 b) := lt_of_le_of_ne (full_front hp hcv hD hQ W.mem1 hf W.half1) (Ne.symm h1)
    have k2 : 0 < tw D Q.plane.n.q (mOf Q2 b) := lt_of_le_of_ne (full_front hp hcv hD hQ W.mem2 hf W.half2) (Ne.symm h2)
    refine fin (-Q.plane.n.q) (by rw [neg]; exact neg_lt_zero.2 k1) (by rw [neg]; exact neg_lt_zero.2 k2) fun ε y ε0 hm => ?_
    have := side_region hc hm
    rw [side_ray, hf.1, zero_add] at this
    rw [neg, (mul_eq_zero.1 this).resolve_left ε0.ne', neg_zero]
  · set m := mOf Q c with hm
    set u := uOf Q c D with hu
    have fm : dotQ m D = 0 := half_flat hc hh
    have tm : ∀ m', tw D m m' = sig c * tw D Q.plane.n.q m' := fun m' => by unfold tw; rw [hm, dot_mOf]
    have only : ∀ (ε : ℚ) y, 0 < ε → P + ε • y ∈ Q.region → dotQ m y = 0 ∧ 0 ≤ dotQ u y := fun ε y ε0 hmem => by
      obtain ⟨o1, o2⟩ := hh.only hc ε0 hmem
      exact ⟨by rw [hm, dot_mOf, o1, mul_zero], o2⟩
    have A0 : dotQ m (uOf Q1 b D) ≠ 0 := by
      have : dotQ m (uOf Q1 b D) = tw D m (mOf Q1 b) := rfl
      rw [this, tm]; exact mul_ne_zero (sig_ne c) h1
    have B0 : dotQ m (uOf Q2 b D) ≠ 0 := by
      have : dotQ m (uOf Q2 b D) = tw D m (mOf Q2 b) := rfl
      rw [this, tm]; exact mul_ne_zero (sig_ne c) h2
    rcases lt_or_gt_of_ne A0 with cA | cA <;> rcases lt_or_gt_of_ne B0 with cB | cB
    · exact fin m cA cB fun ε y ε0 h => (only ε y ε0 h).1.ge
    · refine (W.gap Q hQ c hh ?_ cB).elim
      rw [tw_neg]; exact neg_pos.2 cA
    · -- the half plane is on the other side
      have hid := tw_identity (e := mOf Q1 b) (f := mOf Q2 b) fm
      have e1 : dotQ u (uOf Q1 b D) = dotQ m (mOf Q1 b) * dotQ D D := dot_cross_cross fm
      have e2 : dotQ u (uOf Q2 b D) = dotQ m (mOf Q2 b) * dotQ D D := dot_cross_cross fm
      have mm : 0 < dotQ m m := by
        refine self_pos fun e => ?_
        rw [e] at cA
        simp [dotQ] at cA
      change 0 < dotQ m (uOf Q1 b D) at cA
      set A := dotQ m (uOf Q1 b D) with hA
      set B := dotQ m (uOf Q2 b D) with hB
      change A * dotQ m (mOf Q2 b) - dotQ m (mOf Q1 b) * B = _ at hid
      have hlt : A * dotQ u (uOf Q2 b D) - dotQ u (uOf Q1 b D) * B < 0 := by
        rw [e1, e2]
        have : A * (dotQ m (mOf Q2 b) * dotQ D D) - dotQ m (mOf Q1 b) * dotQ D D * B = dotQ D D * (A * dotQ m (mOf Q2 b) - dotQ m (mOf Q1 b) * B) := by ring
        rw [this, hid]
        have := mul_pos hDD (mul_pos mm W.turned)
        linarith
      set C := dotQ u (uOf Q1 b D) with hC
      set F := dotQ u (uOf Q2 b D) with hF
      obtain ⟨α, a1, a2⟩ : ∃ α : ℚ, α * A + C < 0 ∧ α * B + F < 0 := by
        refine ⟨(-C / A + -F / B) / 2, ?_, ?_⟩
        · have : ((-C / A + -F / B) / 2 * A + C) * B = -(A * F - C * B) / 2 := by field_simp; ring
          have h' : 0 < ((-C / A + -F / B) / 2 * A + C) * B := by rw [this]; linarith
          by_contra hn
          push Not at hn
          linarith [mul_nonpos_of_nonneg_of_nonpos hn cB.le]
        · have : ((-C / A + -F / B) / 2 * B + F) * A = (A * F - C * B) / 2 := by field_simp; ring
          have h' : ((-C / A + -F / B) / 2 * B + F) * A < 0 := by rw [this]; linarith
          by_contra hn
          push Not at hn
          linarith [mul_nonneg hn cA.le]
      have lin : ∀ y, dotQ (α • m + u) y = α * dotQ m y + dotQ u y := fun y => by unfold dotQ; simp only [Pi.add_apply, Pi.smul_apply, smul_eq_mul]; ring
      refine fin (α • m + u) (by rw [lin]; exact a1) (by rw [lin]; exact a2) fun ε y ε0 h => ?_
      obtain ⟨o1, o2⟩ := only ε y ε0 h
      rw [lin, o1, mul_zero, zero_add]; exact o2
    · refine fin (-m) (by rw [neg]; exact neg_lt_zero.2 cA) (by rw [neg]; exact neg_lt_zero.2 cB) fun ε y ε0 h => ?_
      rw [neg, (only ε y ε0 h).1, neg_zero]

include hp hcv hD hgen in
/-- A polygon in the plane of a half plane, with the opposite orientation, at a point of it. -/
theorem no_opposite {m v y yo : Q3} {ε : ℚ} (ε0 : 0 < ε) (fm : dotQ m D = 0) (hv : 0 < dotQ m v) (hy : 0 < dotQ (crossQ m D) y) {Q Qo : Polygon EdgeInfo} (hQ : Q ∈ output tr)
    (hP : P ∈ Q.region) (hx : P + ε • y ∈ Q.region) (par : tw D Q.plane.n.q m = 0) (hQo : Qo ∈ output tr) (hPo : P ∈ Qo.region) (hxo : P + ε • yo ∈ Qo.region)
    (ho : 0 < sig b * dotQ m yo) (hsame : Half Q P D (!b) → tw D (mOf Q (!b)) m = 0 → 0 < dotQ (mOf Q (!b)) m → False) : ¬ sig b * dotQ Q.plane.n.q v < 0 := by
  intro hs
  have hc := hcv Q hQ
  have fn := hgen.plane Q hQ (side_region hc hP)
  have mm : 0 < dotQ m m := self_pos fun e => by rw [e] at hv; simp [dotQ] at hv
  have hpar := tw_parallel hD fm fn (by rw [tw_neg, par, neg_zero])
  -- the sign of the normal
  have k1 : sig b * dotQ m Q.plane.n.q < 0 := by
    have e : (sig b * dotQ m Q.plane.n.q) * dotQ m v = dotQ m m * (sig b * dotQ Q.plane.n.q v) := by
      have := hpar v
      linear_combination (-sig b) * this
    by_contra hn
    push Not at hn
    have h1 := mul_nonneg hn hv.le
    rw [e] at h1
    linarith [mul_neg_of_pos_of_neg mm hs]
  rcases hgen.cases hcv hQ hP with hf | ⟨c, hh⟩
  · have := output_front hp hQ hQo hf hPo _ hxo
    rw [side_ray, hf.1, zero_add] at this
    have h1 := nonneg_of_mul_nonneg_right this ε0
    have h2 := hpar yo
    have h3 := mul_nonneg mm.le h1
    have e : (sig b * dotQ m Q.plane.n.q) * (sig b * dotQ m yo) = dotQ m m * dotQ Q.plane.n.q yo := by
      linear_combination (dotQ m Q.plane.n.q * dotQ m yo) * (sig_sq b) - h2
    have := mul_neg_of_neg_of_pos k1 ho
    linarith
  · obtain ⟨_, o2⟩ := hh.only hc ε0 hx
    have tr : ∀ a c' : Q3, dotQ (crossQ a D) c' = dotQ a (crossQ D c') := fun a c' => by unfold dotQ; simp only [crossQ_zero, crossQ_one, crossQ_two]; ring
    have h2 := hpar (crossQ D y)
    rw [← tr, ← tr] at h2
    rw [dot_uOf] at o2
    have e : (sig c * dotQ m Q.plane.n.q) * dotQ (crossQ m D) y = dotQ m m * (sig c * dotQ (crossQ Q.plane.n.q D) y) := by
      linear_combination (-sig c) * h2
    have h3 : 0 ≤ sig c * dotQ m Q.plane.n.q := by
      have := mul_nonneg mm.le o2
      rw [← e] at this
      exact nonneg_of_mul_nonneg_left this hy
    have hcb : c = !b := by
      cases c <;> cases b <;> simp only [sig, if_true, if_false, Bool.false_eq_true, Bool.not_true, Bool.not_false] at * <;> linarith
    subst hcb
    refine hsame hh ?_ ?_
    · unfold tw at par ⊢; rw [dot_mOf, par, mul_zero]
    · rw [dot_mOf, show dotQ Q.plane.n.q m = dotQ m Q.plane.n.q by unfold dotQ; ring]
      refine h3.lt_of_ne fun h0 => ?_
      have := (mul_eq_zero.1 h0.symm).resolve_left (sig_ne _)
      rw [this, mul_zero] at k1
      exact lt_irrefl _ k1

end

theorem two_le_countP {α : Type} {l : List α} {p : α → Bool} {i j : Nat} {x y : α} (hij : i ≠ j) (hi : l[i]? = some x) (hj : l[j]? = some y) (hx : p x = true) (hy : p y = true) :
    2 ≤ l.countP p := by
  induction l generalizing i j with
  | nil => simp at hi
  | cons z l ih =>
    rw [List.countP_cons]
    cases i with
    | zero =>
      cases j with
      | zero => exact absurd rfl hij
      | succ j =>
        rw [List.getElem?_cons_zero, Option.some_inj] at hi
        rw [List.getElem?_cons_succ] at hj
        have := List.countP_pos_iff.2 ⟨y, List.mem_of_getElem? hj, hy⟩
        rw [hi, hx]; simp only [if_true]; omega
    | succ i =>
      rw [List.getElem?_cons_succ] at hi
      cases j with
      | zero =>
        rw [List.getElem?_cons_zero, Option.some_inj] at hj
        have := List.countP_pos_iff.2 ⟨x, List.mem_of_getElem? hi, hx⟩
        rw [hj, hy]; simp only [if_true]; omega
      | succ j =>
        rw [List.getElem?_cons_succ] at hj
        have := ih (fun e => hij (by rw [e])) hi hj
        omega

theorem mem_filter_ne {α : Type} {l : List α} {p : α → Bool} {x : α} (h : x ∈ l) (hp : p x = true) : l.filter p ≠ [] := List.ne_nil_of_mem (List.mem_filter.2 ⟨h, hp⟩)

section
variable {aabb : Bool} {d : NodeData} {S : List Source} (h : Reach aabb (.leaf d) S) {t : Node} (ht : Splits d t) {f : Filter} (hf : NoParity f)
  (hk : ∀ id ∈ invertedIds f, id < d.info.length) {choose : Choose} {group : Group} (hg : Grouping group) {pfuel fuel : Nat} {t' : Node} {tr : List Visit}
  (hr : traverse f.eval choose group pfuel fuel t = some (t', tr)) (hc : ∀ id, Closed (meshOf S id)) {P D : Q3} (hD : D ≠ 0) (hgen : GenericPoint (output tr) P D)
include h ht hf hk hg hr hc hD hgen

/-- Around an edge point, between two neighbouring polygons that have the solid on the same
side there is a polygon with the solid on the other side. -/
theorem alternate {Q1 Q2 : Polygon EdgeInfo} {b : Bool} (W : Wedge (output tr) P D Q1 Q2 b)
    (hs : ∀ Q ∈ output tr, Half Q P D (!b) → tw D (mOf Q (!b)) (mOf (if b then Q1 else Q2) b) = 0 → 0 < dotQ (mOf Q (!b)) (mOf (if b then Q1 else Q2) b) → False) : False := by
  classical
  obtain ⟨a1, a2, a3, a4⟩ := splits_spec h ht
  have hcv := output_convex h ht hg hr
  have hp : Placed [] tr := run_placed hg t AncOK.nil a1.spec.1 a3 hr
  obtain ⟨c1, c2, c3⟩ := traverse_context h ht (filter_lawful f) hg hr
  have b1 := (splits_spec h c1).1
  set m1 := mOf Q1 b with hm1
  set m2 := mOf Q2 b with hm2
  set u1 := uOf Q1 b D with hu1
  set u2 := uOf Q2 b D with hu2
  have f1 : dotQ m1 D = 0 := half_flat (hcv Q1 W.mem1) W.half1
  have f2 : dotQ m2 D = 0 := half_flat (hcv Q2 W.mem2) W.half2
  set ω := tw D m1 m2 with hω
  have ω0 : 0 < ω := W.turned
  have e11 : dotQ m1 u1 = 0 := tw_self D m1
  have e12 : dotQ m1 u2 = ω := rfl
  have e21 : dotQ m2 u1 = -ω := tw_neg D m2 m1
  have e22 : dotQ m2 u2 = 0 := tw_self D m2
  have uu1 : 0 < dotQ u1 u1 := self_pos fun e => by rw [e] at e21; simp [dotQ] at e21; linarith
  have uu2 : 0 < dotQ u2 u2 := self_pos fun e => by rw [e] at e12; simp [dotQ] at e12; linarith
  set ya : ℚ → Q3 := fun σ => u1 - σ • (u2 - u1) with hya
  set yb : ℚ → Q3 := fun σ => u2 + σ • (u2 - u1) with hyb
  have da : ∀ (m : Q3) σ, dotQ m (ya σ) = dotQ m u1 - σ * (dotQ m u2 - dotQ m u1) := fun m σ => by rw [hya]; simp only [dotQ_sub, dotQ_smul]
  have db : ∀ (m : Q3) σ, dotQ m (yb σ) = dotQ m u2 + σ * (dotQ m u2 - dotQ m u1) := fun m σ => by rw [hyb]; simp only [dotQ_sub, dotQ_smul, dotQ_add]
  have hit1 := W.half1.hit (ya := ya) (yb := yb) (hcv Q1 W.mem1) hD
    (by filter_upwards [ev_pos] with σ σ0; rw [← hm1, da, e11, e12]; nlinarith)
    (by filter_upwards [ev_pos] with σ σ0; rw [← hm1, db, e11, e12]; nlinarith)
    (by
      filter_upwards [ev_pos] with σ σ0
      rw [← hm1, ← hu1, da, da, db, db, e11, e12]
      have : 0 < (1 + 2 * σ) * ω * dotQ u1 u1 := by positivity
      linarith)
  have hit2 := W.half2.hit (ya := ya) (yb := yb) (hcv Q2 W.mem2) hD
    (by filter_upwards [ev_pos] with σ σ0; rw [← hm2, da, e21, e22]; nlinarith)
    (by filter_upwards [ev_pos] with σ σ0; rw [← hm2, db, e21, e22]; nlinarith)
    (by
      filter_upwards [ev_pos] with σ σ0
      rw [← hm2, ← hu2, da, da, db, db, e21, e22]
      have : 0 < (1 + 2 * σ) * ω * dotQ u2 u2 := by positivity
      linarith)
  have order : Robust ya yb fun ε x y => 0 < -dotQ m2 x * (dotQ m1 y - dotQ m1 x) - -dotQ m1 x * (dotQ m2 y - dotQ m2 x) := by
    have k1 := cont_dot m1
    have k2 := cont_dot m2
    refine robust_fun (F := fun ε x y => -dotQ m2 x * (dotQ m1 y - dotQ m1 x) - -dotQ m1 x * (dotQ m2 y - dotQ m2 x)) (by fun_prop) ?_
    filter_upwards [ev_pos] with σ σ0
    rw [da, da, db, db, e11, e12, e21, e22]
    have : 0 < (1 + 2 * σ) * ω * ω := by positivity
    linarith
  have avoid := robust_all (output tr) fun Q hQ => W.avoid hp hcv hD hgen hQ
  obtain ⟨ε, ε0, x, y, ⟨⟨l1, l2, l3, l4⟩, ⟨r1, r2, r3, r4⟩, ho, hav⟩, hG⟩ := (hit1.and (hit2.and (order.and avoid))).ray (tr := tr) h.leaf_pwn.1 (planes_normal b1.spec.1) P
  rw [← hm1] at l1 l2 l3 l4
  rw [← hm2] at r1 r2 r3 r4
  obtain ⟨p1, p2, _, p4⟩ := crossAt_spec l1 l2 m1
  obtain ⟨q1, q2, _, q4⟩ := crossAt_spec r1 r2 m2
  set s1 := crossAt m1 x y with hs1
  set s2 := crossAt m2 x y with hs2
  have N1 : 0 < dotQ m1 y - dotQ m1 x := by linarith
  have N2 : 0 < dotQ m2 y - dotQ m2 x := by linarith
  have s12 : s1 < s2 := by
    rw [hs1, hs2]; unfold crossAt
    rw [div_lt_div_iff₀ N1 N2]; linarith
  set v := y - x with hv
  have at_ : ∀ s : ℚ, P + ε • x + (ε * s) • v = P + ε • (x + s • v) := fun s => by rw [smul_add, smul_smul, add_assoc]
  have mv1 : 0 < dotQ m1 v := by rw [hv, dotQ_sub]; exact N1
  have mv2 : 0 < dotQ m2 v := by rw [hv, dotQ_sub]; exact N2
  have h12 : ε * s1 < ε * s2 := mul_lt_mul_of_pos_left s12 ε0
  have z1 : 0 < ε * s1 := mul_pos ε0 p1
  have z2 : 0 < ε * s2 := mul_pos ε0 q1
  -- a polygon in one of the planes is met where the plane is
  have only : ∀ Q ∈ output tr, ∀ s : ℚ, 0 ≤ s → s ≤ 1 → P + ε • (x + s • v) ∈ Q.region → P ∈ Q.region ∧ ((s = s1 ∧ tw D Q.plane.n.q m1 = 0) ∨ s = s2 ∧ tw D Q.plane.n.q m2 = 0) := by
    intro Q hQ s s0 s1' hm
    obtain ⟨hP, hor⟩ := hav Q hQ s s0 s1' hm
    have hcQ := hcv Q hQ
    have hside := side_region hcQ hm
    rw [side_ray, side_region hcQ hP, zero_add] at hside
    have hn := (mul_eq_zero.1 hside).resolve_left ε0.ne'
    have fn := hgen.plane Q hQ (side_region hcQ hP)
    have hnn := normal_pos hcQ
    refine ⟨hP, hor.imp (fun h0 => ⟨?_, h0⟩) fun h0 => ⟨?_, h0⟩⟩
    · have := tw_parallel hD fn f1 h0 (x + s • v)
      rw [hn, mul_zero] at this
      have := (mul_eq_zero.1 this).resolve_left hnn.ne'
      rw [p4] at this
      linarith [(mul_eq_zero.1 this).resolve_left N1.ne']
    · have := tw_parallel hD fn f2 h0 (x + s • v)
      rw [hn, mul_zero] at this
      have := (mul_eq_zero.1 this).resolve_left hnn.ne'
      rw [q4] at this
      linarith [(mul_eq_zero.1 this).resolve_left N2.ne']
  have gap : ∀ r, ε * s1 < r → r < ε * s2 → ∀ Q ∈ output tr, P + ε • x + r • v ∉ Q.region := by
    intro r g1 g2 Q hQ hm
    have er : r = ε * (r / ε) := by field_simp
    rw [er, at_] at hm
    have b1 : s1 < r / ε := by rw [lt_div_iff₀ ε0]; linarith
    have b2 : r / ε < s2 := by rw [div_lt_iff₀ ε0]; linarith
    obtain ⟨_, ⟨e, _⟩ | ⟨e, _⟩⟩ := only Q hQ (r / ε) (by linarith) (by linarith) hm <;> linarith
  have y12 : 0 < dotQ m1 (x + s2 • v) := by rw [p4]; exact mul_pos N1 (by linarith)
  have y21 : dotQ m2 (x + s1 • v) < 0 := by rw [q4]; exact mul_neg_of_pos_of_neg N2 (by linarith)
  cases hb : b
  · -- both are entered through
    subst hb
    simp only [Bool.not_false, Bool.false_eq_true, if_false] at hs
    have n1 : dotQ Q1.plane.n.q v < 0 := by rw [hm1, dot_mOf] at mv1; simp only [sig, Bool.false_eq_true, if_false] at mv1; linarith
    have n2 : dotQ Q2.plane.n.q v < 0 := by rw [hm2, dot_mOf] at mv2; simp only [sig, Bool.false_eq_true, if_false] at mv2; linarith
    have E1 : entering tr v (P + ε • x + (ε * s1) • v) ≠ [] := mem_filter_ne W.mem1 (by rw [decide_eq_true_iff, at_]; exact ⟨l3, n1⟩)
    have E2 : entering tr v (P + ε • x + (ε * s2) • v) ≠ [] := mem_filter_ne W.mem2 (by rw [decide_eq_true_iff, at_]; exact ⟨r3, n2⟩)
    have L2 : leaving tr v (P + ε • x + (ε * s2) • v) = [] := by
      refine List.filter_eq_nil_iff.2 fun Q hQ hq => ?_
      rw [decide_eq_true_iff, at_] at hq
      obtain ⟨hP, ⟨e, _⟩ | ⟨_, e⟩⟩ := only Q hQ s2 q1.le q2.le hq.1
      · linarith
      refine no_opposite hp hcv hD hgen (b := false) ε0 f2 mv2 r4 hQ hP hq.1 e W.mem1 W.half1.mem l3 ?_ (hs Q hQ) ?_
      · simp only [sig, Bool.false_eq_true, if_false]; linarith
      · simp only [sig, Bool.false_eq_true, if_false]; linarith [hq.2]
    obtain ⟨z, z', i1, i2, i3⟩ := ray_between h ht hf hk hg hr hc hG z1 h12 gap ((C75_behind h ht hf hk hg hr hc hG z1).2 E1) ((C75_front_partial h ht hf hk hg hr hc hG z2).2 E2 L2)
    exact i2 (i3.1 i1)
  · subst hb
    simp only [Bool.not_true, if_true] at hs
    have n1 : 0 < dotQ Q1.plane.n.q v := by rw [hm1, dot_mOf] at mv1; simp only [sig, if_true] at mv1; linarith
    have n2 : 0 < dotQ Q2.plane.n.q v := by rw [hm2, dot_mOf] at mv2; simp only [sig, if_true] at mv2; linarith
    have E1 : leaving tr v (P + ε • x + (ε * s1) • v) ≠ [] := mem_filter_ne W.mem1 (by rw [decide_eq_true_iff, at_]; exact ⟨l3, n1⟩)
    have E2 : leaving tr v (P + ε • x + (ε * s2) • v) ≠ [] := mem_filter_ne W.mem2 (by rw [decide_eq_true_iff, at_]; exact ⟨r3, n2⟩)
    have L1 : entering tr v (P + ε • x + (ε * s1) • v) = [] := by
      refine List.filter_eq_nil_iff.2 fun Q hQ hq => ?_
      rw [decide_eq_true_iff, at_] at hq
      obtain ⟨hP, ⟨_, e⟩ | ⟨e, _⟩⟩ := only Q hQ s1 p1.le p2.le hq.1
      · refine no_opposite hp hcv hD hgen (b := true) ε0 f1 mv1 l4 hQ hP hq.1 e W.mem2 W.half2.mem r3 ?_ (hs Q hQ) ?_
        · simp only [sig, if_true]; linarith
        · simp only [sig, if_true]; linarith [hq.2]
      · linarith
    obtain ⟨z, z', i1, i2, i3⟩ := ray_between h ht hf hk hg hr hc hG z1 h12 gap ((C75_front_partial h ht hf hk hg hr hc hG z1).1 E1 L1) ((C75_behind h ht hf hk hg hr hc hG z2).1 E2)
    exact i1 (i3.2 i2)

/-- No two polygons with the solid on the same side share a half plane at an edge point. -/
theorem no_double {i j : Nat} {Q1 Q2 : Polygon EdgeInfo} {b : Bool} (hij : i ≠ j) (hi : (output tr)[i]? = some Q1) (hj : (output tr)[j]? = some Q2) (h1 : Half Q1 P D b) (h2 : Half Q2 P D b)
    (h0 : tw D (mOf Q1 b) (mOf Q2 b) = 0) (hpos : 0 < dotQ (mOf Q1 b) (mOf Q2 b)) : False := by
  classical
  have mem1 := List.mem_of_getElem? hi
  have mem2 := List.mem_of_getElem? hj
  have hcv := output_convex h ht hg hr
  obtain ⟨c1, c2, c3⟩ := traverse_context h ht (filter_lawful f) hg hr
  have b1 := (splits_spec h c1).1
  set m1 := mOf Q1 b with hm1
  set m2 := mOf Q2 b with hm2
  set u1 := uOf Q1 b D with hu1
  set u2 := uOf Q2 b D with hu2
  have f1 : dotQ m1 D = 0 := half_flat (hcv Q1 mem1) h1
  have f2 : dotQ m2 D = 0 := half_flat (hcv Q2 mem2) h2
  have hDD := self_pos hD
  have mm : 0 < dotQ m1 m1 := self_pos fun e => by rw [e] at hpos; simp [dotQ] at hpos
  have mm2 : 0 < dotQ m2 m2 := self_pos fun e => by rw [e] at hpos; simp [dotQ] at hpos
  have hpar := tw_parallel hD f1 f2 h0
  have e11 : dotQ m1 u1 = 0 := tw_self D m1
  have e21 : dotQ m2 u1 = 0 := by
    have : dotQ m2 u1 = -tw D m1 m2 := tw_neg D m2 m1
    rw [this, h0, neg_zero]
  have sym : dotQ m2 m1 = dotQ m1 m2 := by unfold dotQ; ring
  have u11 : dotQ u1 u1 = dotQ m1 m1 * dotQ D D := dot_cross_cross f1
  have u21 : dotQ u2 u1 = dotQ m1 m2 * dotQ D D := by rw [← sym]; exact dot_cross_cross f2
  have um1 : dotQ u1 m1 = 0 := by rw [show dotQ u1 m1 = dotQ m1 u1 by unfold dotQ; ring, e11]
  have um2 : dotQ u2 m1 = 0 := by rw [show dotQ u2 m1 = dotQ m1 (crossQ m2 D) by rw [hu2]; unfold uOf dotQ; ring]; exact h0
  set ya : ℚ → Q3 := fun _ => u1 - m1 with hya
  set yb : ℚ → Q3 := fun _ => u1 + m1 with hyb
  have da : ∀ (m : Q3) σ, dotQ m (ya σ) = dotQ m u1 - dotQ m m1 := fun m σ => by rw [hya]; simp only [dotQ_sub]
  have db : ∀ (m : Q3) σ, dotQ m (yb σ) = dotQ m u1 + dotQ m m1 := fun m σ => by rw [hyb]; simp only [dotQ_add]
  have hit1 := h1.hit (ya := ya) (yb := yb) (hcv Q1 mem1) hD
    (by filter_upwards with σ; rw [← hm1, da m1 σ, e11]; linarith)
    (by filter_upwards with σ; rw [← hm1, db m1 σ, e11]; linarith)
    (by
      filter_upwards with σ
      rw [← hm1, ← hu1, da u1 σ, da m1 σ, db u1 σ, db m1 σ, e11, um1, u11]
      have : 0 < 2 * (dotQ m1 m1 * dotQ D D * dotQ m1 m1) := by positivity
      linarith)
  have hit2 := h2.hit (ya := ya) (yb := yb) (hcv Q2 mem2) hD
    (by filter_upwards with σ; rw [← hm2, da m2 σ, e21, sym]; linarith)
    (by filter_upwards with σ; rw [← hm2, db m2 σ, e21, sym]; linarith)
    (by
      filter_upwards with σ
      rw [← hm2, ← hu2, da u2 σ, da m2 σ, db u2 σ, db m2 σ, e21, um2, u21, sym]
      have : 0 < 2 * (dotQ m1 m2 * dotQ D D * dotQ m1 m2) := by positivity
      linarith)
  obtain ⟨ε, ε0, x, y, ⟨⟨l1, l2, l3, l4⟩, ⟨r1, r2, r3, r4⟩⟩, hG⟩ := (hit1.and hit2).ray (tr := tr) h.leaf_pwn.1 (planes_normal b1.spec.1) P
  rw [← hm1] at l1 l2 l3 l4
  rw [← hm2] at r1 r2 r3 r4
  obtain ⟨p1, p2, _, p4⟩ := crossAt_spec l1 l2 m1
  have hs : crossAt m2 x y = crossAt m1 x y := by
    have k1 := hpar x
    have k2 := hpar y
    unfold crossAt
    rw [div_eq_div_iff (by linarith) (by linarith)]
    have : dotQ m1 m1 * (-dotQ m2 x * (dotQ m1 y - dotQ m1 x) - -dotQ m1 x * (dotQ m2 y - dotQ m2 x)) = 0 := by
      linear_combination (-(dotQ m1 y - dotQ m1 x) - dotQ m1 x) * k1 + (dotQ m1 x) * k2
    have := (mul_eq_zero.1 this).resolve_left mm.ne'
    linarith
  rw [hs] at r3
  set s1 := crossAt m1 x y with hs1
  set v := y - x with hv
  have at_ : ∀ s : ℚ, P + ε • x + (ε * s) • v = P + ε • (x + s • v) := fun s => by rw [smul_add, smul_smul, add_assoc]
  have mv1 : 0 < dotQ m1 v := by rw [hv, dotQ_sub]; linarith
  have mv2 : 0 < dotQ m2 v := by rw [hv, dotQ_sub]; linarith
  obtain ⟨o1, o2⟩ := C75_once h ht hf hk hg hr hc hG (mul_pos ε0 p1)
  have two : ∀ p : Polygon EdgeInfo → Bool, p Q1 = true → p Q2 = true → 2 ≤ ((output tr).filter p).length := by
    intro p e1 e2
    rw [← List.countP_eq_length_filter]
    exact two_le_countP hij hi hj e1 e2
  cases hb : b
  · subst hb
    have n1 : dotQ Q1.plane.n.q v < 0 := by rw [hm1, dot_mOf] at mv1; simp only [sig, Bool.false_eq_true, if_false] at mv1; linarith
    have n2 : dotQ Q2.plane.n.q v < 0 := by rw [hm2, dot_mOf] at mv2; simp only [sig, Bool.false_eq_true, if_false] at mv2; linarith
    have := two (fun P' => decide (P + ε • x + (ε * s1) • v ∈ P'.region ∧ dotQ P'.plane.n.q v < 0)) (by rw [decide_eq_true_iff, at_]; exact ⟨l3, n1⟩) (by rw [decide_eq_true_iff, at_]; exact ⟨r3, n2⟩)
    unfold entering at o2
    omega
  · subst hb
    have n1 : 0 < dotQ Q1.plane.n.q v := by rw [hm1, dot_mOf] at mv1; simp only [sig, if_true] at mv1; linarith
    have n2 : 0 < dotQ Q2.plane.n.q v := by rw [hm2, dot_mOf] at mv2; simp only [sig, if_true] at mv2; linarith
    have := two (fun P' => decide (P + ε • x + (ε * s1) • v ∈ P'.region ∧ 0 < dotQ P'.plane.n.q v)) (by rw [decide_eq_true_iff, at_]; exact ⟨l3, n1⟩) (by rw [decide_eq_true_iff, at_]; exact ⟨r3, n2⟩)
    unfold leaving at o1
    omega

end

end Walnut.Bsp
