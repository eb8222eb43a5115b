/-
Planes through polygons, through the edge made by a cut and through parts of edges.
-/
import Verif.Bsp.Spec
import Verif.Props.Track

namespace Walnut.Bsp
open Walnut.Geom Walnut.Poly

variable {D : Type}

theorem onSide_convex (g : HS3) (s : Bool) : Convex ℚ {q : Q3 | onSide g s q} := by
  intro p hp q hq a b ha hb hab
  simp only [Set.mem_ofPred_eq, onSide] at *
  have e : g.side (a • p + b • q) = a * g.side p + b * g.side q := by
    obtain rfl : b = 1 - a := by linarith
    simp only [HS3.side_eq, Pi.add_apply, Pi.smul_apply, smul_eq_mul]; ring
  rw [e]
  cases s <;> simp only [Bool.false_eq_true, if_false, if_true] at *
  · nlinarith [mul_nonneg ha (neg_nonneg.2 hp), mul_nonneg hb (neg_nonneg.2 hq)]
  · nlinarith [mul_nonneg ha hp, mul_nonneg hb hq]

theorem pt_mem {P : Polygon D} {i : Nat} (hi : i < P.count) : P.pt i ∈ P.region := subset_convexHull _ _ ⟨i, hi, rfl⟩

theorem region_onSide {P : Polygon D} {g : HS3} {s : Bool} (h : ∀ i, i < P.count → onSide g s (P.pt i)) :
    ∀ q ∈ P.region, onSide g s q := by
  intro q hq
  refine convexHull_min (t := {q | onSide g s q}) ?_ (onSide_convex g s) hq
  rintro x ⟨i, hi, rfl⟩
  exact h i hi

/-- A plane through all vertices contains the polygon's plane. -/
theorem through_of_vertices {P : Polygon D} (h : IsConvexPolygon P) (g : HS3) (hz : ∀ i, i < P.count → g.side (P.pt i) = 0) :
    Through g P.plane := by
  obtain ⟨i, j, k, h1, h2, h3, ht⟩ := h.proper
  intro q hq
  rw [turn_pos_iff P.plane h.drop (h.onPlane i (by omega)) (h.onPlane j (by omega)) (h.onPlane k h3)] at ht
  have ei := SplitShape.aff_pt (g := g) h (h.onPlane i (by omega))
  have ej := SplitShape.aff_pt (g := g) h (h.onPlane j (by omega))
  have ek := SplitShape.aff_pt (g := g) h (h.onPlane k h3)
  have eq := SplitShape.aff_pt (g := g) h hq
  rw [hz i (by omega)] at ei
  rw [hz j (by omega)] at ej
  rw [hz k h3] at ek
  rw [← eq]
  unfold ar2 ar at ht
  unfold aff at *
  generalize pr P.plane P.drop (P.pt i) = a at *
  generalize pr P.plane P.drop (P.pt j) = b at *
  generalize pr P.plane P.drop (P.pt k) = c at *
  generalize pr P.plane P.drop q = d at *
  generalize ca P.plane g P.drop = α at *
  generalize cb P.plane g P.drop = β at *
  generalize cc P.plane g P.drop = γ at *
  have hα : α = 0 := by
    apply (mul_eq_zero.1 _).resolve_left ht.ne'
    linear_combination (c.2 - a.2) * (ej - ei) - (b.2 - a.2) * (ek - ei)
  have hβ : β = 0 := by
    apply (mul_eq_zero.1 _).resolve_left ht.ne'
    linear_combination (b.1 - a.1) * (ek - ei) - (c.1 - a.1) * (ej - ei)
  subst hα hβ
  linear_combination ei

theorem Through.vertex {P : Polygon D} (h : IsConvexPolygon P) {g : HS3} (ht : Through g P.plane) {i : Nat} (hi : i < P.count) :
    g.side (P.pt i) = 0 := ht _ (h.onPlane i hi)

/-- A plane that vanishes at two points of a line vanishes on the line. -/
theorem side_line {h : HS3} {p q : Q3} {x y : ℚ} (hxy : x ≠ y) (hx : h.side (lerp3 x p q) = 0) (hy : h.side (lerp3 y p q) = 0) :
    h.side p = 0 ∧ h.side q = 0 := by
  rw [side_lerp3] at hx hy
  have hne : x - y ≠ 0 := sub_ne_zero.2 hxy
  constructor
  · apply (mul_eq_zero.1 _).resolve_left hne
    linear_combination x * hy - y * hx
  · apply (mul_eq_zero.1 _).resolve_left hne
    linear_combination (1 - y) * hx - (1 - x) * hy

/-- A plane with the whole polygon on one side, through two different points where the
plane `g` cuts the polygon into two parts, contains the polygon. -/
theorem cut_face {P : Polygon D} (h : IsConvexPolygon P) {g f : HS3} {x y : Q3} (hxy : x ≠ y)
    (hx : P.plane.side x = 0) (hy : P.plane.side y = 0) (gx : g.side x = 0) (gy : g.side y = 0)
    (fx : f.side x = 0) (fy : f.side y = 0) {s : Bool} (hf : ∀ i, i < P.count → onSide f s (P.pt i))
    (hneg : ∃ i, i < P.count ∧ g.side (P.pt i) < 0) (hpos : ∃ i, i < P.count ∧ 0 < g.side (P.pt i)) :
    Through f P.plane := by
  obtain ⟨i, hi, gi⟩ := hneg
  obtain ⟨j, hj, gj⟩ := hpos
  -- in the plane, `f` is a multiple of `g`
  have key : ∃ l : ℚ, ∀ q, P.plane.side q = 0 → f.side q = l * g.side q := by
    have ne2 : pr P.plane P.drop x ≠ pr P.plane P.drop y := by
      intro e
      exact hxy (plane_ext P.plane h.drop hx hy (Prod.ext_iff.1 e).1 (Prod.ext_iff.1 e).2)
    have e1 := SplitShape.aff_pt (g := g) h hx
    have e2 := SplitShape.aff_pt (g := g) h hy
    have e3 := SplitShape.aff_pt (g := f) h hx
    have e4 := SplitShape.aff_pt (g := f) h hy
    have e5 := SplitShape.aff_pt (g := g) h (h.onPlane i hi)
    rw [gx] at e1
    rw [gy] at e2
    rw [fx] at e3
    rw [fy] at e4
    rw [← e5] at gi
    have aq : ∀ q, P.plane.side q = 0 → _ := fun q hq => SplitShape.aff_pt (g := g) h hq
    have af : ∀ q, P.plane.side q = 0 → _ := fun q hq => SplitShape.aff_pt (g := f) h hq
    unfold aff at *
    generalize pr P.plane P.drop x = a at *
    generalize pr P.plane P.drop y = b at *
    generalize pr P.plane P.drop (P.pt i) = c at *
    generalize ca P.plane g P.drop = α at *
    generalize cb P.plane g P.drop = β at *
    generalize cc P.plane g P.drop = γ at *
    generalize ca P.plane f P.drop = α' at *
    generalize cb P.plane f P.drop = β' at *
    generalize cc P.plane f P.drop = γ' at *
    have hd : b.1 - a.1 ≠ 0 ∨ b.2 - a.2 ≠ 0 := by
      by_contra hc
      push Not at hc
      exact ne2 (Prod.ext (by linarith) (by linarith))
    have d1 : α * (b.1 - a.1) + β * (b.2 - a.2) = 0 := by linear_combination e2 - e1
    have d2 : α' * (b.1 - a.1) + β' * (b.2 - a.2) = 0 := by linear_combination e4 - e3
    have hc : α * β' = α' * β := by
      rcases hd with hd | hd
      · apply mul_left_cancel₀ hd; linear_combination β' * d1 - β * d2
      · apply mul_left_cancel₀ hd; linear_combination α * d2 - α' * d1
    have hab : α ≠ 0 ∨ β ≠ 0 := by
      by_contra hc'
      push Not at hc'
      rw [hc'.1, hc'.2] at e1 gi
      linarith
    rcases hab with h0 | h0
    · refine ⟨α' / α, fun q hq => ?_⟩
      rw [← aq q hq, ← af q hq]
      have : β' = α' / α * β := by field_simp; linear_combination hc
      have h3 : γ' = α' / α * γ := by
        have : α' = α' / α * α := by field_simp
        linear_combination e3 - α' / α * e1 - a.1 * this - a.2 * ‹β' = α' / α * β›
      rw [this, h3]; field_simp
    · refine ⟨β' / β, fun q hq => ?_⟩
      rw [← aq q hq, ← af q hq]
      have : α' = β' / β * α := by field_simp; linear_combination -hc
      have h3 : γ' = β' / β * γ := by
        have : β' = β' / β * β := by field_simp
        linear_combination e3 - β' / β * e1 - a.2 * this - a.1 * ‹α' = β' / β * α›
      rw [this, h3]; field_simp
  obtain ⟨l, hl⟩ := key
  have fi := hl _ (h.onPlane i hi)
  have fj := hl _ (h.onPlane j hj)
  have h1 := hf i hi
  have h2 := hf j hj
  have l0 : l = 0 := by
    unfold onSide at h1 h2
    rw [fi] at h1
    rw [fj] at h2
    cases s <;> simp only [Bool.false_eq_true, if_false, if_true] at h1 h2
    · have a1 : l ≤ 0 := by by_contra hc; push Not at hc; linarith [mul_pos hc gj]
      have a2 : 0 ≤ l := by by_contra hc; push Not at hc; linarith [mul_pos_of_neg_of_neg hc gi]
      linarith
    · have a1 : l ≤ 0 := by by_contra hc; push Not at hc; linarith [mul_neg_of_pos_of_neg hc gi]
      have a2 : 0 ≤ l := by by_contra hc; push Not at hc; linarith [mul_neg_of_neg_of_pos hc gj]
      linarith
  intro q hq
  rw [hl q hq, l0, zero_mul]

/-- Planes through the same plane are coplanar. -/
theorem Through.parallel {g p : HS3} {i : Fin 3} (hi : p.n.comp i ≠ 0) (h : Through g p) :
    ∃ l : ℚ, (∀ j, g.n.q j = l * p.n.q j) ∧ (g.d : ℚ) = l * p.d := by
  have hi' : (p.n.comp i : ℚ) ≠ 0 := by exact_mod_cast hi
  have c1 : g.side (fun j => if j = i then (p.d / p.n.comp i : ℚ) else 0) = 0 := h _ (by
    rw [HS3.side_eq]; obtain rfl | rfl | rfl := fin3 i <;> simp [V3.comp] at hi' ⊢ <;> field_simp <;> ring)
  have c2 : g.side (fun j => if j = i then ((p.d - p.n.comp (i + 1)) / p.n.comp i : ℚ) else if j = i + 1 then 1 else 0) = 0 := h _ (by
    rw [HS3.side_eq]; obtain rfl | rfl | rfl := fin3 i <;> simp [V3.comp, fin3_eqs] at hi' ⊢ <;> field_simp <;> ring)
  have c3 : g.side (fun j => if j = i then ((p.d - p.n.comp (i + 2)) / p.n.comp i : ℚ) else if j = i + 2 then 1 else 0) = 0 := h _ (by
    rw [HS3.side_eq]; obtain rfl | rfl | rfl := fin3 i <;> simp [V3.comp, fin3_eqs] at hi' ⊢ <;> field_simp <;> ring)
  refine ⟨g.n.comp i / p.n.comp i, fun j => ?_, ?_⟩
  · rw [HS3.side_eq] at c1 c2 c3
    obtain rfl | rfl | rfl := fin3 i <;> obtain rfl | rfl | rfl := fin3 j <;>
      simp [V3.comp, fin3_eqs] at hi' c1 c2 c3 ⊢ <;> field_simp at c1 c2 c3 ⊢ <;> linarith
  · rw [HS3.side_eq] at c1
    obtain rfl | rfl | rfl := fin3 i <;> simp [V3.comp, fin3_eqs] at hi' c1 ⊢ <;> field_simp at c1 ⊢ <;> linarith

end Walnut.Bsp
