/-
Dropping a coordinate of the points of a plane: the remaining two determine the
point, orientations keep their sign, and half-spaces become affine functions.
-/
import Verif.Geom.QLemmas
import Verif.Poly.Spec
import Verif.Poly.Cut

namespace Walnut.Poly
open Walnut.Geom

/-- The sign of the dropped component of the normal, as a rational factor. -/
def sg (h : HS3) (i : Fin 3) : ℚ := (absMult (h.n.comp i) : ℚ)

theorem sg_cases (h : HS3) {i : Fin 3} (hi : h.n.comp i ≠ 0) :
    (sg h i = 1 ∧ 0 < (h.n.comp i : ℚ)) ∨ (sg h i = -1 ∧ (h.n.comp i : ℚ) < 0) := by
  unfold sg
  rcases absMult_cases (h.n.comp i) with ⟨h1, h2⟩ | ⟨h1, h2⟩ <;> rw [h2]
  · right; exact ⟨by norm_num, by exact_mod_cast h1⟩
  · left; exact ⟨by norm_num, by exact_mod_cast lt_of_le_of_ne h1 (Ne.symm hi)⟩

theorem sg_sq (h : HS3) {i : Fin 3} (hi : h.n.comp i ≠ 0) : sg h i * sg h i = 1 := by
  rcases sg_cases h hi with ⟨h1, _⟩ | ⟨h1, _⟩ <;> rw [h1] <;> norm_num

theorem sg_mul_pos (h : HS3) {i : Fin 3} (hi : h.n.comp i ≠ 0) : 0 < sg h i * h.n.comp i := by
  rcases sg_cases h hi with ⟨h1, h2⟩ | ⟨h1, h2⟩ <;> rw [h1] <;> linarith

theorem fin3 (i : Fin 3) : i = 0 ∨ i = 1 ∨ i = 2 := by fin_cases i <;> simp

theorem fin3_eqs : (1 : Fin 3) + 1 = 2 ∧ (1 : Fin 3) + 2 = 0 ∧ (2 : Fin 3) + 1 = 0 ∧ (2 : Fin 3) + 2 = 1 := by decide

/-- First remaining coordinate. -/
def px (i : Fin 3) (q : Q3) : ℚ := q (i + 1)
/-- Second remaining coordinate, mirrored when the normal points away. -/
def py (h : HS3) (i : Fin 3) (q : Q3) : ℚ := sg h i * q (i + 2)

/-- The two remaining coordinates. -/
def pr (h : HS3) (i : Fin 3) (q : Q3) : ℚ × ℚ := (px i q, py h i q)

/-- Signed area after dropping a coordinate. -/
def ar2 (h : HS3) (i : Fin 3) (a b c : Q3) : ℚ := ar (pr h i a) (pr h i b) (pr h i c)

theorem comp_sq_pos (h : HS3) {i : Fin 3} (hi : h.n.comp i ≠ 0) :
    (0 : ℚ) < h.n.x * h.n.x + h.n.y * h.n.y + h.n.z * h.n.z := by
  have : h.n ≠ ⟨0, 0, 0⟩ := by
    intro h0; apply hi; rw [h0]; fin_cases i <;> rfl
  exact_mod_cast V3.dot_self_pos this

/-- The turn of three points of the plane and the area after dropping a coordinate
have the same sign. -/
theorem turn_eq (h : HS3) {i : Fin 3} (hi : h.n.comp i ≠ 0) {a b c : Q3}
    (ha : h.side a = 0) (hb : h.side b = 0) (hc : h.side c = 0) :
    (sg h i * h.n.comp i) * turn h.n.q a b c =
      (h.n.x * h.n.x + h.n.y * h.n.y + h.n.z * h.n.z : ℚ) * ar2 h i a b c := by
  rw [HS3.side_eq] at ha hb hc
  obtain rfl | rfl | rfl := fin3 i
  · simp [turn, dotQ, ar2, ar, pr, px, py, V3.comp, fin3_eqs]
    generalize sg h 0 = σ
    linear_combination σ * (h.n.y * ((b 2 - a 2) * (hc - ha) - (c 2 - a 2) * (hb - ha)) +
      h.n.z * ((c 1 - a 1) * (hb - ha) - (b 1 - a 1) * (hc - ha)))
  · simp [turn, dotQ, ar2, ar, pr, px, py, V3.comp, fin3_eqs]
    generalize sg h 1 = σ
    linear_combination σ * (h.n.z * ((b 0 - a 0) * (hc - ha) - (c 0 - a 0) * (hb - ha)) +
      h.n.x * ((c 2 - a 2) * (hb - ha) - (b 2 - a 2) * (hc - ha)))
  · simp [turn, dotQ, ar2, ar, pr, px, py, V3.comp, fin3_eqs]
    generalize sg h 2 = σ
    linear_combination σ * (h.n.x * ((b 1 - a 1) * (hc - ha) - (c 1 - a 1) * (hb - ha)) +
      h.n.y * ((c 0 - a 0) * (hb - ha) - (b 0 - a 0) * (hc - ha)))

theorem turn_nonneg_iff (h : HS3) {i : Fin 3} (hi : h.n.comp i ≠ 0) {a b c : Q3}
    (ha : h.side a = 0) (hb : h.side b = 0) (hc : h.side c = 0) :
    0 ≤ turn h.n.q a b c ↔ 0 ≤ ar2 h i a b c := by
  have e := turn_eq h hi ha hb hc
  have p1 := sg_mul_pos h hi
  have p2 := comp_sq_pos h hi
  constructor
  · intro ht
    by_contra hn
    push Not at hn
    have := mul_nonneg p1.le ht
    have := mul_neg_of_pos_of_neg p2 hn
    linarith
  · intro ht
    by_contra hn
    push Not at hn
    have := mul_nonneg p2.le ht
    have := mul_neg_of_pos_of_neg p1 hn
    linarith

theorem turn_pos_iff (h : HS3) {i : Fin 3} (hi : h.n.comp i ≠ 0) {a b c : Q3}
    (ha : h.side a = 0) (hb : h.side b = 0) (hc : h.side c = 0) :
    0 < turn h.n.q a b c ↔ 0 < ar2 h i a b c := by
  have e := turn_eq h hi ha hb hc
  have p1 := sg_mul_pos h hi
  have p2 := comp_sq_pos h hi
  constructor
  · intro ht
    have := mul_pos p1 ht
    rw [e] at this
    exact (mul_pos_iff_of_pos_left p2).mp this
  · intro ht
    have := mul_pos p2 ht
    rw [← e] at this
    exact (mul_pos_iff_of_pos_left p1).mp this

/-- A point of the plane is determined by the remaining coordinates. -/
theorem plane_ext (h : HS3) {i : Fin 3} (hi : h.n.comp i ≠ 0) {a b : Q3}
    (ha : h.side a = 0) (hb : h.side b = 0) (hx : px i a = px i b) (hy : py h i a = py h i b) : a = b := by
  rw [HS3.side_eq] at ha hb
  have hs := sg_sq h hi
  have hy' : a (i + 2) = b (i + 2) := by
    unfold py at hy
    linear_combination sg h i * hy + (b (i + 2) - a (i + 2)) * hs
  have hi' : (h.n.comp i : ℚ) ≠ 0 := by exact_mod_cast hi
  unfold px at hx
  obtain rfl | rfl | rfl := fin3 i <;> simp [fin3_eqs] at hx hy' <;> simp only [V3.comp] at hi'
  · refine q3_ext ?_ hx hy'
    apply mul_left_cancel₀ hi'
    linear_combination ha - hb - h.n.y * hx - h.n.z * hy'
  · refine q3_ext hy' ?_ hx
    apply mul_left_cancel₀ hi'
    linear_combination ha - hb - h.n.z * hx - h.n.x * hy'
  · refine q3_ext hx hy' ?_
    apply mul_left_cancel₀ hi'
    linear_combination ha - hb - h.n.x * hx - h.n.y * hy'

/-- Coefficients of a half-space restricted to the plane `h`. -/
def ca (h g : HS3) (i : Fin 3) : ℚ := (g.n.comp (i + 1) * h.n.comp i - g.n.comp i * h.n.comp (i + 1)) / h.n.comp i
/-- Second coefficient. -/
def cb (h g : HS3) (i : Fin 3) : ℚ :=
  sg h i * ((g.n.comp (i + 2) * h.n.comp i - g.n.comp i * h.n.comp (i + 2)) / h.n.comp i)
/-- Constant. -/
def cc (h g : HS3) (i : Fin 3) : ℚ := g.n.comp i * h.d / h.n.comp i - g.d

theorem side_affine (h g : HS3) {i : Fin 3} (hi : h.n.comp i ≠ 0) {a : Q3} (ha : h.side a = 0) :
    g.side a = ca h g i * px i a + cb h g i * py h i a + cc h g i := by
  have hs := sg_sq h hi
  have hi' : (h.n.comp i : ℚ) ≠ 0 := by exact_mod_cast hi
  have e : cb h g i * py h i a = (g.n.comp (i + 2) * h.n.comp i - g.n.comp i * h.n.comp (i + 2)) / h.n.comp i * a (i + 2) := by
    unfold cb py
    linear_combination ((g.n.comp (i + 2) * h.n.comp i - g.n.comp i * h.n.comp (i + 2)) / h.n.comp i * a (i + 2) : ℚ) * hs
  rw [e]
  unfold ca cc px
  rw [HS3.side_eq] at ha ⊢
  obtain rfl | rfl | rfl := fin3 i <;> simp [V3.comp, fin3_eqs] at hi' ⊢ <;> field_simp
  · linear_combination g.n.x * ha
  · linear_combination g.n.y * ha
  · linear_combination g.n.z * ha

theorem coeff_ne (h g : HS3) {i : Fin 3} (hi : h.n.comp i ≠ 0) (hg : h.n.cross g.n ≠ ⟨0, 0, 0⟩) :
    ca h g i ≠ 0 ∨ cb h g i ≠ 0 := by
  by_contra hc
  push Not at hc
  obtain ⟨h1, h2⟩ := hc
  apply hg
  have hi' : (h.n.comp i : ℚ) ≠ 0 := by exact_mod_cast hi
  have hs := sg_sq h hi
  have hs0 : sg h i ≠ 0 := by intro h0; rw [h0] at hs; simp at hs
  unfold ca at h1
  unfold cb at h2
  have h2 := (mul_eq_zero.mp h2).resolve_left hs0
  rw [div_eq_zero_iff] at h1 h2
  have h1 := h1.resolve_right hi'
  have h2 := h2.resolve_right hi'
  have h1 : g.n.comp (i + 1) * h.n.comp i - g.n.comp i * h.n.comp (i + 1) = 0 := by exact_mod_cast h1
  have h2 : g.n.comp (i + 2) * h.n.comp i - g.n.comp i * h.n.comp (i + 2) = 0 := by exact_mod_cast h2
  obtain rfl | rfl | rfl := fin3 i <;> simp [V3.comp, fin3_eqs] at hi h1 h2 <;> ext <;> simp only [V3.cross]
  · apply mul_left_cancel₀ hi; linear_combination h.n.y * h2 - h.n.z * h1
  · linear_combination - h2
  · linear_combination h1
  · linear_combination h1
  · apply mul_left_cancel₀ hi; linear_combination h.n.z * h2 - h.n.x * h1
  · linear_combination - h2
  · linear_combination - h2
  · linear_combination h1
  · apply mul_left_cancel₀ hi; linear_combination h.n.x * h2 - h.n.y * h1

/-- A convex polygon without its dropped coordinate. -/
theorem IsConvexPolygon.convex2 {D : Type} {P : Polygon D} (h : IsConvexPolygon P) :
    Convex2 P.count (fun i => px P.drop (P.pt i)) (fun i => py P.plane P.drop (P.pt i)) := by
  refine ⟨fun i j k h1 h2 h3 => ?_, fun i j h1 h2 => ?_, ?_⟩
  · have := h.ccw i j k h1 h2 h3
    rwa [turn_nonneg_iff P.plane h.drop (h.onPlane i (by omega)) (h.onPlane j (by omega)) (h.onPlane k h3)] at this
  · by_contra hc
    push Not at hc
    exact h.distinct i j h1 h2 (plane_ext P.plane h.drop (h.onPlane i (by omega)) (h.onPlane j h2) hc.1 hc.2)
  · obtain ⟨i, j, k, h1, h2, h3, h4⟩ := h.proper
    refine ⟨i, j, k, h1, h2, h3, ?_⟩
    rwa [turn_pos_iff P.plane h.drop (h.onPlane i (by omega)) (h.onPlane j (by omega)) (h.onPlane k h3)] at h4

end Walnut.Poly
