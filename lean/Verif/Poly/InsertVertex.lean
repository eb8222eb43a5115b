/-
A new vertex inside of a side of a convex polygon: the polygon stays convex and covers
the same points.
-/
import Verif.Poly.MergeShape

namespace Walnut.Poly
open Walnut.Geom Walnut.Props

variable {D : Type}


theorem ar_mid1 (s : ℚ) (a b c d : ℚ × ℚ) : ar (lerp s a b) c d = (1 - s) * ar a c d + s * ar b c d := by
  unfold ar lerp; simp only; ring

theorem ar_mid2 (s : ℚ) (a b c d : ℚ × ℚ) : ar c (lerp s a b) d = (1 - s) * ar c a d + s * ar c b d := by
  unfold ar lerp; simp only; ring

theorem ar_same (a c : ℚ × ℚ) : ar a a c = 0 := by unfold ar; ring

theorem Convex2.insert_mid {n : Nat} {V W : Nat → ℚ × ℚ} (h : Convex2 n (fun k => (V k).1) (fun k => (V k).2))
    (n3 : 3 ≤ n) {s : ℚ} (s0 : 0 < s) (s1 : s < 1) (w0 : W 0 = V 0) (w1 : W 1 = lerp s (V 0) (V 1))
    (w2 : ∀ k, W (k + 2) = V (k + 1)) : Convex2 (n + 1) (fun k => (W k).1) (fun k => (W k).2) := by
  have ccw : ∀ i j k, i < j → j < k → k < n → 0 ≤ ar (V i) (V j) (V k) := fun i j k h1 h2 h3 => h.ccw i j k h1 h2 h3
  have ne : ∀ i j, i < j → j < n → V i ≠ V j := by
    intro i j h1 h2 e
    have := h.ne i j h1 h2
    simp only [e] at this
    simp at this
  obtain ⟨c, c1, c2, c3⟩ : ∃ c, 2 ≤ c ∧ c < n ∧ 0 < ar (V 0) (V 1) (V c) := by
    obtain ⟨c, hc, hne⟩ := h.off_line (p := 0) (q := 1) (h.ne 0 1 (by omega) (by omega))
    have hne : ar (V 0) (V 1) (V c) ≠ 0 := hne
    have c2 : 2 ≤ c := by
      by_contra hlt
      have : c = 0 ∨ c = 1 := by omega
      rcases this with rfl | rfl
      · apply hne; unfold ar; ring
      · apply hne; unfold ar; ring
    exact ⟨c, c2, hc, lt_of_le_of_ne (ccw 0 1 c (by omega) (by omega) hc) (Ne.symm hne)⟩
  refine ⟨fun i j k h1 h2 h3 => ?_, fun i j h1 h2 => ?_, ?_⟩
  · show 0 ≤ ar (W i) (W j) (W k)
    obtain ⟨k, rfl⟩ : ∃ k', k = k' + 2 := ⟨k - 2, by omega⟩
    rw [w2]
    by_cases j1 : j = 1
    · obtain rfl : i = 0 := by omega
      rw [j1, w0, w1, ar_mid2, ar_same, mul_zero, zero_add]
      rcases Nat.eq_zero_or_pos k with rfl | kp
      · have : ar (V 0) (V 1) (V (0 + 1)) = 0 := by unfold ar; ring
        rw [this, mul_zero]
      · exact mul_nonneg s0.le (ccw _ _ _ (by omega) (by omega) (by omega))
    · obtain ⟨j, rfl⟩ : ∃ j', j = j' + 2 := ⟨j - 2, by omega⟩
      rw [w2]
      rcases Nat.eq_zero_or_pos i with rfl | ip
      · rw [w0]; exact ccw _ _ _ (by omega) (by omega) (by omega)
      · by_cases i1 : i = 1
        · rw [i1, w1, ar_mid1]
          have e1 := ccw 0 (j + 1) (k + 1) (by omega) (by omega) (by omega)
          have e2 : 0 ≤ ar (V 1) (V (j + 1)) (V (k + 1)) := by
            rcases Nat.eq_zero_or_pos j with rfl | jp
            · rw [Nat.zero_add, ar_same]
            · exact ccw _ _ _ (by omega) (by omega) (by omega)
          have e3 := mul_nonneg (by linarith : 0 ≤ 1 - s) e1
          have e4 := mul_nonneg s0.le e2
          linarith
        · obtain ⟨i, rfl⟩ : ∃ i', i = i' + 2 := ⟨i - 2, by omega⟩
          rw [w2]; exact ccw _ _ _ (by omega) (by omega) (by omega)
  · by_contra hc
    push Not at hc
    have he : W i = W j := Prod.ext hc.1 hc.2
    by_cases i1 : i = 1
    · obtain ⟨j, rfl⟩ : ∃ j', j = j' + 2 := ⟨j - 2, by omega⟩
      rw [i1, w1, w2] at he
      have f1 : ar (V 0) (V 1) (V (j + 1)) = 0 := by rw [← he]; unfold ar lerp; simp only; ring
      have f2 : ar (V 0) (V c) (V (j + 1)) = - s * ar (V 0) (V 1) (V c) := by
        rw [← he]; unfold ar lerp; simp only; ring
      have f3 : ar (V 1) (V (j + 1)) (V c) = - (1 - s) * ar (V 0) (V 1) (V c) := by
        rw [← he]; unfold ar lerp; simp only; ring
      rcases Nat.lt_trichotomy c (j + 1) with hl | hl | hl
      · have := ccw 0 c (j + 1) (by omega) hl (by omega)
        rw [f2] at this
        nlinarith
      · rw [← hl] at f1; linarith
      · rcases Nat.eq_zero_or_pos j with rfl | jp
        · rw [ar_same] at f3
          have := mul_pos (by linarith : 0 < 1 - s) c3
          linarith
        · have := ccw 1 (j + 1) c (by omega) hl c2
          rw [f3] at this
          have := mul_pos (by linarith : 0 < 1 - s) c3
          linarith
    · by_cases j1 : j = 1
      · obtain rfl : i = 0 := by omega
        rw [j1, w0, w1] at he
        apply ne 0 1 (by omega) (by omega)
        have e1 := congrArg Prod.fst he
        have e2 := congrArg Prod.snd he
        simp only [lerp] at e1 e2
        refine Prod.ext ?_ ?_
        · have : s * ((V 1).1 - (V 0).1) = 0 := by linarith
          have := (mul_eq_zero.1 this).resolve_left s0.ne'
          linarith
        · have : s * ((V 1).2 - (V 0).2) = 0 := by linarith
          have := (mul_eq_zero.1 this).resolve_left s0.ne'
          linarith
      · obtain ⟨j, rfl⟩ : ∃ j', j = j' + 2 := ⟨j - 2, by omega⟩
        rw [w2] at he
        rcases Nat.eq_zero_or_pos i with rfl | ip
        · rw [w0] at he; exact ne _ _ (by omega) (by omega) he
        · obtain ⟨i, rfl⟩ : ∃ i', i = i' + 2 := ⟨i - 2, by omega⟩
          rw [w2] at he
          exact ne _ _ (by omega) (by omega) he
  · refine ⟨0, 2, c + 1, by omega, by omega, by omega, ?_⟩
    show 0 < ar (W 0) (W 2) (W (c + 1))
    obtain ⟨c, rfl⟩ : ∃ c', c = c' + 1 := ⟨c - 1, by omega⟩
    rw [w0, show (2 : Nat) = 0 + 2 from rfl, w2, w2]
    exact c3

/-- A vertex inside of the first side can be added. -/
theorem IsConvexPolygon.insert_first {P : Polygon D} (h : IsConvexPolygon P) {e m : Edge D} {t : List (Edge D)}
    (he : P.edges = e :: t) (hl : m.line = e.line) (hw : m.vertex.w ≠ 0) {s : ℚ} (s0 : 0 < s) (s1 : s < 1)
    (hm : m.vertex.pt = lerp3 s (P.pt 0) (P.pt 1)) :
    IsConvexPolygon { P with edges := e :: m :: t } ∧ Polygon.region { P with edges := e :: m :: t } = P.region := by
  have n3 := h.three
  set R : Polygon D := { P with edges := e :: m :: t } with hR
  have hc : R.count = P.count + 1 := by unfold Polygon.count; rw [hR, he]; simp
  have g0 : R.edges[0]? = P.edges[0]? := by rw [hR, he]; rfl
  have g2 : ∀ k, R.edges[k + 2]? = P.edges[k + 1]? := by intro k; rw [hR, he]; rfl
  have p0 : R.pt 0 = P.pt 0 := by unfold Polygon.pt Polygon.vertexD; rw [g0]
  have p1 : R.pt 1 = lerp3 s (P.pt 0) (P.pt 1) := by rw [← hm]; rfl
  have p2 : ∀ k, R.pt (k + 2) = P.pt (k + 1) := by intro k; unfold Polygon.pt Polygon.vertexD; rw [g2]
  have l0 : R.lineD 0 = P.lineD 0 := by unfold Polygon.lineD; rw [g0]
  have l1 : R.lineD 1 = P.lineD 0 := by
    have : P.lineD 0 = e.line := by unfold Polygon.lineD; rw [he]; rfl
    rw [this, ← hl]; rfl
  have l2 : ∀ k, R.lineD (k + 2) = P.lineD (k + 1) := by intro k; unfold Polygon.lineD; rw [g2]
  have first : EdgeLine (P.lineD 0) (P.pt 0) (P.pt 1) := by
    have := h.line 0 (by omega)
    rwa [Nat.mod_eq_of_lt (by omega)] at this
  have cases : ∀ i, i = 0 ∨ i = 1 ∨ ∃ k, i = k + 2 := by
    intro i
    rcases i with _ | _ | k
    · exact Or.inl rfl
    · exact Or.inr (Or.inl rfl)
    · exact Or.inr (Or.inr ⟨k, rfl⟩)
  refine ⟨isConvex_of_convex2 h.drop ?_ ?_ ?_ ?_, ?_⟩
  · intro i hi
    rw [hc] at hi
    rcases cases i with rfl | rfl | ⟨k, rfl⟩
    · unfold Polygon.vertexD; rw [g0]; exact h.finite 0 (by omega)
    · exact hw
    · unfold Polygon.vertexD; rw [g2]; exact h.finite _ (by omega)
  · intro i hi
    rw [hc] at hi
    rcases cases i with rfl | rfl | ⟨k, rfl⟩
    · rw [p0]; exact h.onPlane 0 (by omega)
    · rw [p1]
      show P.plane.side _ = 0
      rw [side_lerp3, h.onPlane 0 (by omega), h.onPlane 1 (by omega)]; ring
    · rw [p2]; exact h.onPlane _ (by omega)
  · intro i hi
    rw [hc] at hi ⊢
    rcases cases i with rfl | rfl | ⟨k, rfl⟩
    · rw [Nat.mod_eq_of_lt (by omega), l0, p0, p1]
      have := first.part s0
      rwa [lerp3_zero] at this
    · rw [Nat.mod_eq_of_lt (by omega), l1, p1, show 1 + 1 = 0 + 2 from rfl, p2]
      have := first.part s1
      rwa [lerp3_one] at this
    · rw [l2, p2]
      have := h.line (k + 1) (by omega)
      by_cases k1 : k + 1 + 1 = P.count
      · rw [k1, Nat.mod_self] at this
        rw [show k + 2 + 1 = P.count + 1 by omega, Nat.mod_self, p0]; exact this
      · rw [Nat.mod_eq_of_lt (by omega)] at this
        rw [Nat.mod_eq_of_lt (by omega), show k + 2 + 1 = (k + 1) + 2 from rfl, p2]; exact this
  · rw [hc]
    refine Convex2.insert_mid (V := fun i => pr P.plane P.drop (P.pt i)) (W := fun i => pr P.plane P.drop (R.pt i))
      h.convex2 n3 s0 s1 ?_ ?_ ?_
    · simp only [p0]
    · simp only [p1, pr_lerp3]
    · intro k; simp only [p2]
  · apply Set.Subset.antisymm
    · refine convexHull_min ?_ (convex_convexHull ℚ _)
      rintro z ⟨i, hi, rfl⟩
      rw [hc] at hi
      rcases cases i with rfl | rfl | ⟨k, rfl⟩
      · rw [p0]; exact Facing.mem_vertex (by omega)
      · rw [p1]
        exact (convex_convexHull ℚ _).segment_subset (Facing.mem_vertex (by omega)) (Facing.mem_vertex (by omega))
          (SplitShape.lerp3_mem h s0.le s1.le)
      · rw [p2]; exact Facing.mem_vertex (by omega)
    · refine convexHull_min ?_ (convex_convexHull ℚ _)
      rintro z ⟨i, hi, rfl⟩
      rcases Nat.eq_zero_or_pos i with rfl | ip
      · rw [← p0]; exact Facing.mem_vertex (by omega)
      · obtain ⟨k, rfl⟩ : ∃ k, i = k + 1 := ⟨i - 1, by omega⟩
        rw [← p2]; exact Facing.mem_vertex (by omega)

end Walnut.Poly
