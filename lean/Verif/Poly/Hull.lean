/-
A convex polygon is the intersection of the half planes to the left of its edges.
-/
import Verif.Poly.SplitRegion

namespace Walnut.Poly
open Walnut.Geom Walnut.Props

variable {n : Nat} {V : Nat → ℚ × ℚ}

theorem line_trans {p s x y z : ℚ × ℚ} (h1 : ar p s x = 0) (h2 : ar p s y = 0) (h3 : ar x y z = 0) (hne : x ≠ y) : ar p s z = 0 := by
  have h : x.1 ≠ y.1 ∨ x.2 ≠ y.2 := by
    by_contra hc
    push Not at hc
    exact hne (Prod.ext hc.1 hc.2)
  unfold ar at *
  rcases h with h | h
  · apply mul_left_cancel₀ (sub_ne_zero.mpr h.symm)
    linear_combination (s.1 - p.1) * h3 + (y.1 - z.1) * h1 + (z.1 - x.1) * h2
  · apply mul_left_cancel₀ (sub_ne_zero.mpr h.symm)
    linear_combination (s.2 - p.2) * h3 + (y.2 - z.2) * h1 + (z.2 - x.2) * h2

/-- Some vertex is a corner. -/
theorem VRing.corner (h : VRing n V) (hn : 3 ≤ n) : ∃ c, 0 < ar (V c) (V (c + 1)) (V (c + 2)) := by
  by_contra hc
  push Not at hc
  have z : ∀ c, ar (V c) (V (c + 1)) (V (c + 2)) = 0 := fun c => le_antisymm (hc c) (h.le (by omega) (by omega) (by omega))
  have h01 : V 0 ≠ V 1 := h.ne (by omega) (by omega)
  have key : ∀ k, ar (V 0) (V 1) (V k) = 0 ∧ ar (V 0) (V 1) (V (k + 1)) = 0 := by
    intro k
    induction k with
    | zero => exact ⟨by unfold ar; ring, by unfold ar; ring⟩
    | succ k ih => exact ⟨ih.2, line_trans ih.1 ih.2 (z k) (h.ne (by omega) (by omega))⟩
  obtain ⟨m, _, hm⟩ := h.off h01
  exact hm (key m).1

/-- A point left of all edges is in a triangle of vertices. -/
theorem VRing.hull (h : VRing n V) (hn : 3 ≤ n) {q : ℚ × ℚ} (hq : ∀ i, 0 ≤ ar (V i) (V (i + 1)) q) :
    ∃ (a b c : Nat) (x y z : ℚ), 0 ≤ x ∧ 0 ≤ y ∧ 0 ≤ z ∧ x + y + z = 1 ∧
      q.1 = x * (V a).1 + y * (V b).1 + z * (V c).1 ∧ q.2 = x * (V a).2 + y * (V b).2 + z * (V c).2 := by
  obtain ⟨c, hc⟩ := h.corner hn
  set o := c + 1 with ho
  have hlast : V (o + (n - 1)) = V c := by
    rw [show o + (n - 1) = c + n by omega]; exact h.per c
  have s1 : 0 ≤ ar (V o) (V (o + 1)) q := hq o
  have sl : ar (V o) (V (o + (n - 1))) q ≤ 0 := by
    have := hq c
    rw [hlast]
    have e : ar (V o) (V c) q = -ar (V c) (V o) q := by unfold ar; ring
    rw [e]; linarith
  by_cases both : ar (V o) (V (o + 1)) q = 0 ∧ ar (V o) (V (o + (n - 1))) q = 0
  · refine ⟨o, o, o, 1, 0, 0, by norm_num, le_rfl, le_rfl, by norm_num, ?_, ?_⟩
    · obtain ⟨b1, b2⟩ := both
      rw [hlast] at b2
      rw [show c + 2 = o + 1 by omega] at hc
      have : ar (V c) (V o) (V (o + 1)) * (q.1 - (V o).1) = 0 := by
        unfold ar at *
        linear_combination -((V o).1 - (V c).1) * b1 - ((V (o + 1)).1 - (V o).1) * b2
      rcases mul_eq_zero.1 this with e | e
      · exact absurd e hc.ne'
      · linarith
    · obtain ⟨b1, b2⟩ := both
      rw [hlast] at b2
      rw [show c + 2 = o + 1 by omega] at hc
      have : ar (V c) (V o) (V (o + 1)) * (q.2 - (V o).2) = 0 := by
        unfold ar at *
        linear_combination -((V o).2 - (V c).2) * b1 - ((V (o + 1)).2 - (V o).2) * b2
      rcases mul_eq_zero.1 this with e | e
      · exact absurd e hc.ne'
      · linarith
  · obtain ⟨i, i1, i2, j1, j2, j3⟩ : ∃ i, 1 ≤ i ∧ i + 1 ≤ n - 1 ∧ 0 ≤ ar (V o) (V (o + i)) q ∧ ar (V o) (V (o + (i + 1))) q ≤ 0 ∧
        0 < ar (V o) (V (o + i)) q - ar (V o) (V (o + (i + 1))) q := by
      by_cases hs : ar (V o) (V (o + 1)) q = 0
      · have hl : ar (V o) (V (o + (n - 1))) q < 0 := lt_of_le_of_ne sl fun e => both ⟨hs, e⟩
        classical
        have hex : ∃ k, 2 ≤ k ∧ ar (V o) (V (o + k)) q < 0 := ⟨n - 1, by omega, hl⟩
        have f1 := Nat.find_spec hex
        have f2 : Nat.find hex ≤ n - 1 := Nat.find_min' hex ⟨by omega, hl⟩
        set k := Nat.find hex
        have f3 : 0 ≤ ar (V o) (V (o + (k - 1))) q := by
          by_cases hk : k = 2
          · rw [hk]; exact s1
          · by_contra hcon
            push Not at hcon
            exact Nat.find_min hex (m := k - 1) (by omega) ⟨by omega, hcon⟩
        refine ⟨k - 1, by omega, by omega, f3, ?_, ?_⟩
        · rw [show k - 1 + 1 = k by omega]; exact f1.2.le
        · rw [show k - 1 + 1 = k by omega]; linarith [f1.2]
      · have hl : 0 < ar (V o) (V (o + 1)) q := lt_of_le_of_ne s1 (Ne.symm hs)
        classical
        have hex : ∃ k, 2 ≤ k ∧ ar (V o) (V (o + k)) q ≤ 0 := ⟨n - 1, by omega, sl⟩
        have f1 := Nat.find_spec hex
        have f2 : Nat.find hex ≤ n - 1 := Nat.find_min' hex ⟨by omega, sl⟩
        set k := Nat.find hex
        have f3 : 0 < ar (V o) (V (o + (k - 1))) q := by
          by_cases hk : k = 2
          · rw [hk]; exact hl
          · by_contra hcon
            push Not at hcon
            exact Nat.find_min hex (m := k - 1) (by omega) ⟨by omega, hcon⟩
        refine ⟨k - 1, by omega, by omega, f3.le, ?_, ?_⟩
        · rw [show k - 1 + 1 = k by omega]; exact f1.2
        · rw [show k - 1 + 1 = k by omega]; linarith [f1.2]
    have e := hq (o + i)
    have hA : ar (V o) (V (o + i)) (V (o + (i + 1))) =
        ar (V (o + i)) (V (o + i + 1)) q + (ar (V o) (V (o + i)) q - ar (V o) (V (o + (i + 1))) q) := by
      rw [← add_assoc o i 1]; unfold ar; ring
    have hApos : 0 < ar (V o) (V (o + i)) (V (o + (i + 1))) := by rw [hA]; linarith
    refine ⟨o, o + i, o + (i + 1), ar (V (o + i)) (V (o + i + 1)) q / ar (V o) (V (o + i)) (V (o + (i + 1))),
      -ar (V o) (V (o + (i + 1))) q / ar (V o) (V (o + i)) (V (o + (i + 1))),
      ar (V o) (V (o + i)) q / ar (V o) (V (o + i)) (V (o + (i + 1))),
      div_nonneg e hApos.le, div_nonneg (by linarith) hApos.le, div_nonneg j1 hApos.le, ?_, ?_, ?_⟩
    · rw [← add_div, ← add_div, div_eq_one_iff_eq hApos.ne', hA]; ring
    · have hne := hApos.ne'
      have : ar (V o) (V (o + i)) (V (o + (i + 1))) * q.1 = ar (V (o + i)) (V (o + i + 1)) q * (V o).1 +
          -ar (V o) (V (o + (i + 1))) q * (V (o + i)).1 + ar (V o) (V (o + i)) q * (V (o + (i + 1))).1 := by
        rw [← add_assoc o i 1]; unfold ar; ring
      field_simp
      linear_combination this
    · have hne := hApos.ne'
      have : ar (V o) (V (o + i)) (V (o + (i + 1))) * q.2 = ar (V (o + i)) (V (o + i + 1)) q * (V o).2 +
          -ar (V o) (V (o + (i + 1))) q * (V (o + i)).2 + ar (V o) (V (o + i)) q * (V (o + (i + 1))).2 := by
        rw [← add_assoc o i 1]; unfold ar; ring
      field_simp
      linear_combination this

theorem IsConvexPolygon.three {D : Type} {P : Polygon D} (h : IsConvexPolygon P) : 3 ≤ P.count := by
  obtain ⟨i, j, k, h1, h2, h3, _⟩ := h.proper; omega

/-- A point of the plane left of all edges belongs to the polygon. -/
theorem IsConvexPolygon.mem_of_edges {D : Type} {P : Polygon D} (h : IsConvexPolygon P) {q : Q3} (hq : P.plane.side q = 0)
    (he : ∀ i, 0 ≤ ar (ring2 P i) (ring2 P (i + 1)) (pr P.plane P.drop q)) : q ∈ P.region := by
  obtain ⟨a, b, c, x, y, z, x0, y0, z0, hs, e1, e2⟩ := h.ring.hull h.three he
  have ha := SplitShape.mem_pt h a
  have hb := SplitShape.mem_pt h b
  have hc := SplitShape.mem_pt h c
  have e : q = x • P.pt (a % P.count) + y • P.pt (b % P.count) + z • P.pt (c % P.count) := by
    refine plane_ext P.plane h.drop hq ?_ ?_ ?_
    · have sa := SplitShape.pt_side h a
      have sb := SplitShape.pt_side h b
      have sc := SplitShape.pt_side h c
      rw [HS3.side_eq] at *
      simp only [Pi.add_apply, Pi.smul_apply, smul_eq_mul]
      linear_combination x * sa + y * sb + z * sc + P.plane.d * hs
    · unfold ring2 pr at e1
      simp only [px] at e1 ⊢
      rw [e1]
      simp only [Pi.add_apply, Pi.smul_apply, smul_eq_mul]
    · unfold ring2 pr at e2
      simp only [py] at e2 ⊢
      rw [e2]
      simp only [Pi.add_apply, Pi.smul_apply, smul_eq_mul]; ring
  rw [e]
  have hconv : Convex ℚ P.region := convex_convexHull ℚ _
  rcases eq_or_lt_of_le (add_nonneg x0 y0) with h0 | h0
  · have ex : x = 0 := by linarith
    have ey : y = 0 := by linarith
    have ez : z = 1 := by linarith
    rw [ex, ey, ez]; simpa using hc
  · have hm := hconv ha hb (div_nonneg x0 h0.le) (div_nonneg y0 h0.le) (by rw [← add_div, div_self h0.ne'])
    have hm' := hconv hm hc h0.le z0 hs
    rw [smul_add, smul_smul, smul_smul, mul_div_cancel₀ _ h0.ne', mul_div_cancel₀ _ h0.ne'] at hm'
    exact hm'

end Walnut.Poly
