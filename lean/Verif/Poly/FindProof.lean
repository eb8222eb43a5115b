/-
The searches of a convex polygon: the comparisons they make, the ranges of vertices
on both sides of a 2D half-space, and the farthest vertex.
-/
import Verif.Poly.Plane2
import Verif.Poly.LinearProof
import Verif.Props.Planes
import Verif.Props.Lines

namespace Walnut.Poly
open Walnut.Geom Walnut.Props

variable {D : Type}

/-- Position along a 2D direction of a point with the dimension `i` dropped. -/
def along2 (v : V2) (i : Fin 3) (q : Q3) : ℚ := v.x * q (i + 1) + v.y * q (i + 2)

theorem pt_drop (p : HP3) (i : Fin 3) : (p.dropDimension i).pt = ![p.pt (i + 1), p.pt (i + 2)] := rfl

theorem side2_eq (h : HS2) (p : HP3) (i : Fin 3) : h.side (p.dropDimension i).pt = along2 h.n i p.pt - h.d := by
  rw [pt_drop]; simp [HS2.side, along2]

theorem cmpAt_sign (P : Polygon D) (h : HS2) {i : Nat} (hw : (P.vertexD i).w ≠ 0) :
    SameSign (P.cmpAt h i) (along2 h.n P.drop (P.pt i) - h.d) := by
  have := C23_compare_homo2 h ((P.vertexD i).dropDimension P.drop) hw
  rwa [side2_eq] at this

theorem sameSign_of_eq {a : Int} {k t : ℚ} (hk : 0 < k) (h : (a : ℚ) = k * t) : SameSign a t := by
  have h1 : (a < 0 ↔ (a : ℚ) < 0) := by exact_mod_cast Iff.rfl
  have h2 : (0 < a ↔ 0 < (a : ℚ)) := by exact_mod_cast Iff.rfl
  have h3 : (a = 0 ↔ (a : ℚ) = 0) := by exact_mod_cast Iff.rfl
  refine ⟨?_, ?_, ?_⟩
  · rw [h1, h]
    exact ⟨fun hn => by by_contra hc; push Not at hc; have := mul_nonneg hk.le hc; linarith,
      fun hn => mul_neg_of_pos_of_neg hk hn⟩
  · rw [h3, h, mul_eq_zero]; exact ⟨fun hn => hn.resolve_left hk.ne', Or.inr⟩
  · rw [h2, h]; exact mul_pos_iff_of_pos_left hk

theorem dirAt_sign (P : Polygon D) (v : V2) {i : Nat} {p q : Q3} (hl : EdgeLine (P.lineD i) p q) :
    SameSign (P.dirAt v i) (along2 v P.drop q - along2 v P.drop p) := by
  obtain ⟨s, hs, hd⟩ := hl.dir
  refine sameSign_of_eq hs ?_
  have e1 := hd (P.drop + 1)
  have e2 := hd (P.drop + 2)
  unfold V3.q at e1 e2
  simp only [Polygon.dirAt, V3.dropDimension, V2.dot, along2]
  push_cast
  linear_combination (v.x : ℚ) * e1 + v.y * e2

theorem farther_iff (P : Polygon D) (v : V2) {i : Nat} (h0 : (P.vertexD 0).w ≠ 0) (hi : (P.vertexD i).w ≠ 0) :
    (P.farther v false i = true ↔ along2 v P.drop (P.pt 0) < along2 v P.drop (P.pt i)) ∧
    (P.farther v true i = true ↔ along2 v P.drop (P.pt i) < along2 v P.drop (P.pt 0)) := by
  have key : ∀ u : V2, (lessThan (hasDifferentSign (P.vertexD 0).w (P.vertexD i).w)
      (((P.vertexD 0).v.dropDimension P.drop).dot u * (P.vertexD i).w)
      (((P.vertexD i).v.dropDimension P.drop).dot u * (P.vertexD 0).w) = true ↔
      along2 u P.drop (P.pt 0) < along2 u P.drop (P.pt i)) := by
    intro u
    have q0 : ((P.vertexD 0).w : ℚ) ≠ 0 := by exact_mod_cast h0
    have qi : ((P.vertexD i).w : ℚ) ≠ 0 := by exact_mod_cast hi
    have e0 : along2 u P.drop (P.pt 0) = (((P.vertexD 0).v.dropDimension P.drop).dot u : ℚ) / (P.vertexD 0).w := by
      simp only [along2, Polygon.pt, HP3.pt, V3.dropDimension, V2.dot]; push_cast; field_simp
    have ei : along2 u P.drop (P.pt i) = (((P.vertexD i).v.dropDimension P.drop).dot u : ℚ) / (P.vertexD i).w := by
      simp only [along2, Polygon.pt, HP3.pt, V3.dropDimension, V2.dot]; push_cast; field_simp
    rw [e0, ei, div_lt_div_signs h0 hi, lessThan_iff]
    have hd := hasDifferentSign_iff (P.vertexD 0).w (P.vertexD i).w
    by_cases h : ((P.vertexD 0).w < 0 ↔ (P.vertexD i).w < 0)
    · rw [if_neg (by rw [hd]; exact not_not.mpr h), if_pos h]
    · rw [if_pos (hd.mpr h), if_neg h]
  refine ⟨key v, ?_⟩
  have := key v.neg
  have e : ∀ q, along2 v.neg P.drop q = - along2 v P.drop q := by
    intro q; simp only [along2, V2.neg]; push_cast; ring
  rw [e, e, neg_lt_neg_iff] at this
  exact this

theorem IsConvexPolygon.bitonic {P : Polygon D} (h : IsConvexPolygon P) {v : V2} (hv : v.isZero = false) (γ : ℚ) :
    Bitonic P.count fun i => along2 v P.drop (P.pt i) + γ := by
  have hs := sg_sq P.plane h.drop
  have hs0 : sg P.plane P.drop ≠ 0 := by intro h0; rw [h0] at hs; simp at hs
  have hv' : (v.x : ℚ) ≠ 0 ∨ sg P.plane P.drop * (v.y : ℚ) ≠ 0 := by
    by_contra hc
    push Not at hc
    obtain ⟨h1, h2⟩ := hc
    have h2 := (mul_eq_zero.mp h2).resolve_left hs0
    have h1 : v.x = 0 := by exact_mod_cast h1
    have h2 : v.y = 0 := by exact_mod_cast h2
    simp [V2.isZero, h1, h2] at hv
  have := h.convex2.bitonic γ hv'
  convert this using 2 with i
  unfold along2 px py
  linear_combination (-(v.y : ℚ) * P.pt i (P.drop + 2)) * hs

variable {P : Polygon D} (h : IsConvexPolygon P)
include h

theorem IsConvexPolygon.count_pos : 0 < P.count := h.convex2.npos

theorem IsConvexPolygon.dirs (v : V2) (γ : ℚ) : ∀ i, i < P.count → SameSign (P.dirAt v i)
    ((along2 v P.drop (P.pt ((i + 1) % P.count)) + γ) - (along2 v P.drop (P.pt i) + γ)) := by
  intro i hi
  have := dirAt_sign P v (h.line i hi)
  rwa [show ∀ x y z : ℚ, (x + z) - (y + z) = x - y by intro x y z; ring]

theorem IsConvexPolygon.fars (v : V2) (γ : ℚ) :
    (∀ i, i < P.count → (P.farther v false i = true ↔ along2 v P.drop (P.pt 0) + γ < along2 v P.drop (P.pt i) + γ)) ∧
    (∀ i, i < P.count → (P.farther v true i = true ↔ along2 v P.drop (P.pt i) + γ < along2 v P.drop (P.pt 0) + γ)) := by
  have h0 := h.finite 0 h.count_pos
  refine ⟨fun i hi => ?_, fun i hi => ?_⟩
  · rw [add_lt_add_iff_right]; exact (farther_iff P v h0 (h.finite i hi)).1
  · rw [add_lt_add_iff_right]; exact (farther_iff P v h0 (h.finite i hi)).2

theorem IsConvexPolygon.cmp_sign (g : HS2) : ∀ i, i < P.count →
    SameSign (P.cmpAt g i) (along2 g.n P.drop (P.pt i) + -(g.d : ℚ)) := by
  intro i hi
  have := cmpAt_sign P g (h.finite i hi)
  rwa [sub_eq_add_neg] at this

/-- The linear search finds the vertices on both sides of a 2D half-space. -/
theorem IsConvexPolygon.findLinear (g : HS2) (hg : g.n.isZero = false) :
    ∃ r, P.findLinear g = some r ∧ RangesOK P.count (P.cmpAt g) r := by
  have hb := h.bitonic hg (-(g.d : ℚ))
  exact linear_spec (hb.pattern.of_sign h.count_pos (h.cmp_sign g))

/-- The bisecting search finds the vertices on both sides of a 2D half-space. -/
theorem IsConvexPolygon.findBisect (g : HS2) (hg : g.n.isZero = false) :
    ∃ r, P.findBisect g = some r ∧ RangesOK P.count (P.cmpAt g) r := by
  unfold Polygon.findBisect
  rw [if_neg h.drop, if_neg (by rw [hg]; simp), if_neg h.count_pos.ne']
  refine bisect_spec (h.bitonic hg (-(g.d : ℚ))) (h.cmp_sign g) (h.dirs g.n _) (fun i => ?_) (fun i => ?_)
    (h.fars g.n _).1 (h.fars g.n _).2
  · simp only [Polygon.cmpAt, HS2.compareHomo, HS2.neg, V2.neg, V2.dot]
    generalize ((P.vertexD i).dropDimension P.drop) = q
    have : ∀ a b : Int, Geom.cmp (-a) (-b) = - Geom.cmp a b := by
      intro a b; unfold Geom.cmp; rw [show -a - -b = -(a - b) by ring, Int.sign_neg]
    rw [show -g.n.x * q.v.x + -g.n.y * q.v.y = -(g.n.x * q.v.x + g.n.y * q.v.y) by ring,
      show q.w * -g.d = -(q.w * g.d) by ring, this, neg_mul]
  · simp only [Polygon.dirAt, HS2.neg, V2.neg, V2.dot]; ring

/-- The search for the farthest vertex in a 2D direction. -/
theorem IsConvexPolygon.extreme2 (v : V2) (hv : v.isZero = false) :
    ∃ t, P.extreme2 v = some (.inr t) ∧ t < P.count ∧
      (∀ i, i < P.count → along2 v P.drop (P.pt i) ≤ along2 v P.drop (P.pt t)) ∧
      along2 v P.drop (P.pt ((t + P.count - 1) % P.count)) < along2 v P.drop (P.pt t) := by
  obtain ⟨t, h1, h2, h3, h4⟩ := extremeIndex_spec (h.bitonic hv 0) (h.dirs v 0) (h.fars v 0).1 (h.fars v 0).2
  refine ⟨t, ?_, h2, fun i hi => by simpa using h3 i hi, by simpa using h4⟩
  unfold Polygon.extreme2
  rw [if_neg (by rw [hv]; simp), if_neg h.count_pos.ne', h1]
  rfl

omit h in
/-- The 2D direction of the search in a 3D direction. -/
theorem extreme_dir (h : HS3) {i : Fin 3} (hi : h.n.comp i ≠ 0) (v : V3) {q : Q3} (hq : h.side q = 0) :
    along2 ((((v.dropDimension i).scale (h.n.comp i)).sub ((h.n.dropDimension i).scale (v.comp i))).scale
      (absMult (h.n.comp i))) i q = sg h i * h.n.comp i * dotQ v.q q - sg h i * v.comp i * h.d := by
  rw [HS3.side_eq] at hq
  have e : ((absMult (h.n.comp i) : Int) : ℚ) = sg h i := rfl
  simp only [along2, V2.scale, V2.sub, V3.dropDimension]
  push_cast
  rw [e]
  generalize sg h i = σ
  obtain rfl | rfl | rfl := fin3 i <;> simp [V3.comp, fin3_eqs, dotQ]
  · linear_combination (-(v.x : ℚ) * σ) * hq
  · linear_combination (-(v.y : ℚ) * σ) * hq
  · linear_combination (-(v.z : ℚ) * σ) * hq

omit h in
theorem extreme_zero (h : HS3) {i : Fin 3} (hi : h.n.comp i ≠ 0) (v : V3) :
    ((((v.dropDimension i).scale (h.n.comp i)).sub ((h.n.dropDimension i).scale (v.comp i))).scale
      (absMult (h.n.comp i))).isZero = true ↔ v.cross h.n = ⟨0, 0, 0⟩ := by
  have hs : absMult (h.n.comp i) ≠ 0 := by
    rcases absMult_cases (h.n.comp i) with ⟨_, e⟩ | ⟨_, e⟩ <;> rw [e] <;> decide
  generalize absMult (h.n.comp i) = σ at hs
  simp only [V2.isZero, V2.scale, V2.sub, V3.dropDimension, Bool.and_eq_true, decide_eq_true_eq, mul_eq_zero, hs, or_false,
    V3.cross, V3.mk.injEq]
  obtain rfl | rfl | rfl := fin3 i <;> simp [V3.comp, fin3_eqs] at hi ⊢
  · constructor
    · rintro ⟨h1, h2⟩
      refine ⟨?_, by linarith, by linarith⟩
      apply mul_left_cancel₀ hi; linear_combination h.n.z * h1 - h.n.y * h2
    · rintro ⟨h1, h2, h3⟩; exact ⟨by linarith, by linarith⟩
  · constructor
    · rintro ⟨h1, h2⟩
      refine ⟨by linarith, ?_, by linarith⟩
      apply mul_left_cancel₀ hi; linear_combination h.n.x * h1 - h.n.z * h2
    · rintro ⟨h1, h2, h3⟩; exact ⟨by linarith, by linarith⟩
  · constructor
    · rintro ⟨h1, h2⟩
      refine ⟨by linarith, by linarith, ?_⟩
      apply mul_left_cancel₀ hi; linear_combination h.n.y * h1 - h.n.x * h2
    · rintro ⟨h1, h2, h3⟩; exact ⟨by linarith, by linarith⟩

/-- The search for the farthest vertex in a 3D direction. -/
theorem IsConvexPolygon.extreme (v : V3) (hv : v.cross P.plane.n ≠ ⟨0, 0, 0⟩) :
    ∃ t, P.extreme v = some (.inr t) ∧ t < P.count ∧
      (∀ i, i < P.count → dotQ v.q (P.pt i) ≤ dotQ v.q (P.pt t)) ∧
      dotQ v.q (P.pt ((t + P.count - 1) % P.count)) < dotQ v.q (P.pt t) := by
  have hz := (extreme_zero P.plane h.drop v).not.mpr hv
  obtain ⟨t, h1, h2, h3, h4⟩ := h.extreme2 _ (by simpa using hz)
  have hp := sg_mul_pos P.plane h.drop
  refine ⟨t, h1, h2, fun i hi => ?_, ?_⟩
  · have := h3 i hi
    rw [extreme_dir P.plane h.drop v (h.onPlane i hi), extreme_dir P.plane h.drop v (h.onPlane t h2)] at this
    exact le_of_mul_le_mul_left (by linarith) hp
  · have hm := Nat.mod_lt (t + P.count - 1) h.count_pos
    rw [extreme_dir P.plane h.drop v (h.onPlane _ hm), extreme_dir P.plane h.drop v (h.onPlane t h2)] at h4
    exact lt_of_mul_lt_mul_left (by linarith) hp.le

end Walnut.Poly
