/-
Emitted polygons around an inner point of an emitted polygon.
-/
import Verif.Bsp.MovedRay

namespace Walnut.Bsp
open Walnut.Geom Walnut.Poly Walnut.Props

/-- The change of `turn` in direction `y`. -/
def turnBy (n a b y : Q3) : ℚ := dotQ n (crossQ (b - a) y)

theorem turn_add (n a b x y : Q3) (ε : ℚ) : Poly.turn n a b (x + ε • y) = Poly.turn n a b x + ε * turnBy n a b y := by
  unfold Poly.turn turnBy dotQ
  simp only [crossQ_zero, crossQ_one, crossQ_two, Pi.sub_apply, Pi.add_apply, Pi.smul_apply, smul_eq_mul]
  ring

theorem turnBy_cross (n a b y : Q3) : turnBy n a b y = dotQ (crossQ n (b - a)) y := by
  unfold turnBy dotQ
  simp only [crossQ_zero, crossQ_one, crossQ_two, Pi.sub_apply]
  ring

/-- The point is in the polygon and on none of its edges. -/
def FullAt {D : Type} (P : Polygon D) (x : Q3) : Prop :=
  P.plane.side x = 0 ∧ ∀ i < P.count, 0 < Poly.turn P.plane.n.q (P.pt i) (P.pt ((i + 1) % P.count)) x

theorem FullAt.move {D : Type} {P : Polygon D} (hc : IsConvexPolygon P) {x y : Q3} (h : FullAt P x) (hy : dotQ P.plane.n.q y = 0) : Ev fun ε => x + ε • y ∈ P.region := by
  have : Ev fun ε => ∀ i ∈ Finset.range P.count, 0 < Poly.turn P.plane.n.q (P.pt i) (P.pt ((i + 1) % P.count)) (x + ε • y) := by
    refine ev_fin _ fun i hi => ?_
    refine (ev_cont (f := fun ε => Poly.turn P.plane.n.q (P.pt i) (P.pt ((i + 1) % P.count)) x + ε * turnBy P.plane.n.q (P.pt i) (P.pt ((i + 1) % P.count)) y) (by fun_prop) ?_).mono
      fun ε h => ?_
    · simpa using h.2 i (Finset.mem_range.1 hi)
    · rw [turn_add]; exact h
  filter_upwards [this] with ε he
  refine mem_of_turns hc ?_ fun i hi => (he i (Finset.mem_range.2 hi)).le
  rw [side_ray, h.1, hy, mul_zero, add_zero]

/-- A plane with a polygon on one side that meets it in an inner point is the polygon's
plane. -/
theorem FullAt.through {D : Type} {P : Polygon D} (hc : IsConvexPolygon P) {x : Q3} (h : FullAt P x) {g : HS3} {b : Bool} (hg : ∀ z ∈ P.region, onSide g b z) (h0 : g.side x = 0) :
    Through g P.plane := by
  intro z hz
  have hy : dotQ P.plane.n.q (z - x) = 0 := by
    have h1 := h.1
    rw [side_dot] at h1 hz
    rw [dotQ_sub]; linarith
  have hy' : dotQ P.plane.n.q (-(z - x)) = 0 := by
    have : dotQ P.plane.n.q (-(z - x)) = -dotQ P.plane.n.q (z - x) := by unfold dotQ; simp only [Pi.neg_apply]; ring
    rw [this, hy, neg_zero]
  obtain ⟨ε, e0, e1, e2⟩ := ev_exists ((h.move hc hy).and (h.move hc hy'))
  have k1 := hg _ e1
  have k2 := hg _ e2
  unfold onSide at k1 k2
  rw [side_ray, h0, zero_add] at k1 k2
  have hn : dotQ g.n.q (-(z - x)) = -dotQ g.n.q (z - x) := by unfold dotQ; simp only [Pi.neg_apply]; ring
  rw [hn] at k2
  have hd : dotQ g.n.q (z - x) = 0 := by
    refine (mul_eq_zero.1 (?_ : ε * _ = 0)).resolve_left e0.ne'
    cases b <;> simp only [if_true, if_false, Bool.false_eq_true] at k1 k2 <;> linarith
  have := side_ray g x (z - x) 1
  rw [one_smul, add_sub_cancel, h0, hd] at this
  simpa using this

/-- Two emitted polygons are separated by a plane above the first. -/
def Apart (p q : BPoly) : Prop := ∃ m, BorderOK m p ∧ ∃ a ∈ m, ∀ y ∈ q.poly.region, onSide a.1.plane (!a.2) y

theorem Faces.apart {base anc : Anc} {tr : List Visit} (h : Faces base anc tr) (hb : ∀ a ∈ base, a ∈ anc) {a : PlaneRef × Bool} (ha : a ∈ base) {q : BPoly}
    (hq : ∀ y ∈ q.poly.region, a.1.plane.side y = 0) : ∀ p ∈ accepted tr, Apart p q := by
  intro p hp
  obtain ⟨m, h1, _⟩ := h.accepted_ok p hp
  refine ⟨_, h1, a, List.mem_append_left _ (hb a ha), fun y hy => ?_⟩
  unfold onSide
  rw [hq y hy]
  split_ifs <;> exact le_rfl

theorem Placed.apart {anc : Anc} {tr : List Visit} (h : Placed anc tr) : ∀ p ∈ accepted tr, ∀ q ∈ accepted tr, Apart p q := by
  induction h with
  | faces h =>
    intro p hp q hq
    obtain ⟨m, h1, _, a, ha, ht⟩ := h.accepted_ok q hq
    exact h.apart (fun a ha => ha) ha (fun y hy => ht y (side_region h1.convex hy)) p hp
  | node _ h1 h2 ih1 ih2 =>
    intro p hp q hq
    simp only [accepted, accepted_append, List.mem_append, List.append_nil] at hp hq
    rcases hp with hp | hp <;> rcases hq with hq | hq
    · exact ih1 p hp q hq
    · obtain ⟨m, k1, _⟩ := h1.accepted_ok p hp
      obtain ⟨m', k2, _⟩ := h2.accepted_ok q hq
      refine ⟨_, k1, _, List.mem_append_left _ (List.mem_append_right _ (List.mem_singleton_self _)), fun y hy => ?_⟩
      exact k2.cell hy _ (List.mem_append_left _ (List.mem_append_right _ (List.mem_singleton_self _)))
    · obtain ⟨m, k1, _⟩ := h2.accepted_ok p hp
      obtain ⟨m', k2, _⟩ := h1.accepted_ok q hq
      refine ⟨_, k1, _, List.mem_append_left _ (List.mem_append_right _ (List.mem_singleton_self _)), fun y hy => ?_⟩
      exact k2.cell hy _ (List.mem_append_left _ (List.mem_append_right _ (List.mem_singleton_self _)))
    · exact ih2 p hp q hq

/-- No emitted polygon at an inner point of another one is behind it. -/
theorem Apart.front {p q : BPoly} (h : Apart p q) {x : Q3} (hp : FullAt p.poly x) (hx : x ∈ q.poly.region) : ∀ y ∈ q.poly.region, 0 ≤ p.poly.plane.side y := by
  obtain ⟨m, hb, a, ha, hq⟩ := h
  have hxp : x ∈ p.poly.region := mem_of_turns hb.convex hp.1 fun i hi => (hp.2 i hi).le
  have h0 : a.1.plane.side x = 0 := by
    have h1 := hq x hx
    have h2 := hb.cell hxp a ha
    unfold onSide at h1 h2
    cases h : a.2 <;> simp only [h, Bool.not_true, Bool.not_false, if_true, if_false, Bool.false_eq_true] at h1 h2 <;> linarith
  have ht : Through a.1.plane p.poly.plane := hp.through hb.convex (fun z hz => hb.cell hz a ha) h0
  obtain ⟨l, c, r, hl, hc, hno, _, hs⟩ := hb.on
  have hca : c = a := border_unique hb (by rw [hl]; simp) ha hc ht
  subst hca
  obtain ⟨k, e1, e2⟩ := ht.parallel hb.convex.drop
  have hm := multiple_side e1 e2
  have hd : dotQ p.poly.plane.n.q c.1.plane.n.q = k * dotQ p.poly.plane.n.q p.poly.plane.n.q := by
    simp only [dotQ, e1]; ring
  have hpos := normal_pos hb.convex
  intro y hy
  have h1 := hq y hy
  unfold onSide at h1
  rw [hd] at hs
  rw [hm] at h1
  cases h : c.2 <;> simp only [h, Bool.not_true, Bool.not_false, if_true, if_false, Bool.false_eq_true] at h1 hs
  · have : 0 < k := pos_of_mul_pos_left hs hpos.le
    exact nonneg_of_mul_nonneg_right h1 this
  · have : k < 0 := by by_contra hk; push Not at hk; nlinarith [mul_nonneg hk hpos.le]
    by_contra hn
    push Not at hn
    nlinarith [mul_pos_of_neg_of_neg this hn]

end Walnut.Bsp
