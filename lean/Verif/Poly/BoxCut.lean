/- Cutting the parallelogram by the top and the bottom of the box. -/
import Verif.Poly.BoxProof

namespace Walnut.Poly
open Walnut.Geom Walnut.Props

variable {D : Type}

/-- The points on the kept side. -/
def KeptSide (g : HS3) (keep : Bool) : Set Q3 := {q | if keep then 0 ≤ g.side q else g.side q ≤ 0}

theorem region_le {P : Polygon D} {g : HS3} (h : ∀ i < P.count, g.side (P.pt i) ≤ 0) : P.region ⊆ {q | g.side q ≤ 0} :=
  convexHull_min (by rintro q ⟨i, hi, rfl⟩; exact h i hi) (affine_side g).convex_le

theorem region_ge {P : Polygon D} {g : HS3} (h : ∀ i < P.count, 0 ≤ g.side (P.pt i)) : P.region ⊆ {q | 0 ≤ g.side q} :=
  convexHull_min (by rintro q ⟨i, hi, rfl⟩; exact h i hi) (affine_side g).convex_ge

theorem clip_spec (ops : EdgeOps D) {P : Polygon D} (h : IsConvexPolygon P) (g : HS3) (keep : Bool) :
    (clip ops P g keep = some (none, true) ∧ P.region ∩ KeptSide g keep ⊆ {q | g.side q = 0} ∧ ∃ q ∈ P.region, q ∉ KeptSide g keep) ∨
    (clip ops P g keep = some (some P, true) ∧ P.region ⊆ {q | g.side q = 0}) ∨
    (∃ C, clip ops P g keep = some (some C, false) ∧ IsConvexPolygon C ∧ C.plane = P.plane ∧ C.region = P.region ∩ KeptSide g keep) := by
  obtain ⟨s, h1, _, _, e1, e2, e3⟩ := C29_split_info P h g
  have vert : ∀ i < P.count, P.pt i ∈ P.region := fun i hi => subset_convexHull _ _ ⟨i, hi, rfl⟩
  unfold clip
  rw [h1]
  simp only
  cases keep with
  | false =>
    simp only [Bool.false_eq_true, if_false]
    by_cases hk : s.ranges.emitNeg = true
    · rw [hk]
      simp only [Bool.not_true, Bool.false_eq_true, if_false]
      by_cases ho : s.ranges.emitPos = true
      · obtain ⟨s', N, Q, k1, k2, k3, k4, k5, k6, k7, k8, _⟩ := C29_children ops P h g (e1.mp hk) (e2.mp ho)
        obtain rfl : s = s' := Option.some.inj (h1.symm.trans k1)
        rw [ho, k2]
        exact Or.inr (Or.inr ⟨N, rfl, k3, k5, k7⟩)
      · rw [if_neg ho]
        refine Or.inr (Or.inr ⟨P, rfl, h, rfl, (Set.inter_eq_left.2 ?_).symm⟩)
        refine region_le fun i hi => ?_
        by_contra hc
        exact ho (e2.mpr ⟨i, hi, not_le.1 hc⟩)
    · have hk' : s.ranges.emitNeg = false := by simpa using hk
      have ge : ∀ i < P.count, 0 ≤ g.side (P.pt i) := fun i hi => by
        by_contra hc
        exact hk (e1.mpr ⟨i, hi, not_le.1 hc⟩)
      rw [hk']
      simp only [Bool.not_false, if_true]
      by_cases ho : s.emitOn = true
      · rw [if_pos ho]
        refine Or.inr (Or.inl ⟨rfl, fun q hq => ?_⟩)
        exact le_antisymm (region_le (fun i hi => (e3.mp ho i hi).le) hq) (region_ge ge hq)
      · rw [if_neg ho]
        refine Or.inl ⟨rfl, fun q hq => le_antisymm (by simpa [KeptSide] using hq.2) (region_ge ge hq.1), ?_⟩
        by_contra hc
        refine ho (e3.mpr fun i hi => le_antisymm ?_ (ge i hi))
        by_contra hn
        exact hc ⟨_, vert i hi, by simpa [KeptSide] using hn⟩
  | true =>
    simp only [if_true]
    by_cases hk : s.ranges.emitPos = true
    · rw [hk]
      simp only [Bool.not_true, Bool.false_eq_true, if_false]
      by_cases ho : s.ranges.emitNeg = true
      · obtain ⟨s', N, Q, k1, k2, k3, k4, k5, k6, k7, k8, _⟩ := C29_children ops P h g (e1.mp ho) (e2.mp hk)
        obtain rfl : s = s' := Option.some.inj (h1.symm.trans k1)
        rw [ho, k2]
        exact Or.inr (Or.inr ⟨Q, rfl, k4, k6, k8⟩)
      · rw [if_neg ho]
        refine Or.inr (Or.inr ⟨P, rfl, h, rfl, (Set.inter_eq_left.2 ?_).symm⟩)
        refine region_ge fun i hi => ?_
        by_contra hc
        exact ho (e1.mpr ⟨i, hi, not_le.1 hc⟩)
    · have hk' : s.ranges.emitPos = false := by simpa using hk
      have le : ∀ i < P.count, g.side (P.pt i) ≤ 0 := fun i hi => by
        by_contra hc
        exact hk (e2.mpr ⟨i, hi, not_le.1 hc⟩)
      rw [hk']
      simp only [Bool.not_false, if_true]
      by_cases ho : s.emitOn = true
      · rw [if_pos ho]
        refine Or.inr (Or.inl ⟨rfl, fun q hq => ?_⟩)
        exact le_antisymm (region_le le hq) (region_ge (fun i hi => (e3.mp ho i hi).ge) hq)
      · rw [if_neg ho]
        refine Or.inl ⟨rfl, fun q hq => le_antisymm (region_le le hq.1) (by simpa [KeptSide] using hq.2), ?_⟩
        by_contra hc
        refine ho (e3.mpr fun i hi => le_antisymm (le i hi) ?_)
        by_contra hn
        exact hc ⟨_, vert i hi, by simpa [KeptSide] using hn⟩

theorem other_dim : ∀ i j : Fin 3, j ≠ i → j = i + 1 ∨ j = i + 2 := by decide
theorem dim_ne : ∀ i : Fin 3, i + 1 ≠ i ∧ i + 2 ≠ i := by decide

/-- What it means to be over the rectangle. -/
theorem over_iff (b : AABB) (pl : HS3) (i : Fin 3) (q : Q3) :
    (((b.lo.comp (i + 1) : ℚ) / b.den ≤ px i q ∧ px i q ≤ b.hi.comp (i + 1) / b.den) ∧ lowY b pl i ≤ py pl i q ∧ py pl i q ≤ highY b pl i) ↔
      ∀ j ≠ i, (b.lo.comp j : ℚ) / b.den ≤ q j ∧ q j ≤ b.hi.comp j / b.den := by
  change ((_ ≤ q (i + 1) ∧ q (i + 1) ≤ _) ∧ _ ≤ sg pl i * q (i + 2) ∧ sg pl i * q (i + 2) ≤ _) ↔ _
  have y : (lowY b pl i ≤ sg pl i * q (i + 2) ∧ sg pl i * q (i + 2) ≤ highY b pl i) ↔
      ((b.lo.comp (i + 2) : ℚ) / b.den ≤ q (i + 2) ∧ q (i + 2) ≤ b.hi.comp (i + 2) / b.den) := by
    rw [sg_eq]; unfold lowY highY
    split
    · rw [one_mul]
    · constructor <;> rintro ⟨a1, a2⟩ <;> constructor <;> linarith
  rw [y]
  constructor
  · rintro ⟨a, c⟩ j hj
    have : j = i + 1 ∨ j = i + 2 := other_dim i j hj
    rcases this with rfl | rfl
    exacts [a, c]
  · intro a
    exact ⟨a _ (dim_ne i).1, a _ (dim_ne i).2⟩

/-- The region of the parallelogram. -/
theorem par_region (d0 : D) {b : AABB} (hd : 0 < b.den) {pl : HS3} {i : Fin 3} (hi : pl.n.comp i ≠ 0)
    (h1 : b.lo.comp (i + 1) < b.hi.comp (i + 1)) (h2 : b.lo.comp (i + 2) < b.hi.comp (i + 2)) :
    (parallelogram d0 b pl i).region = {q | pl.side q = 0 ∧ ∀ j ≠ i, (b.lo.comp j : ℚ) / b.den ≤ q j ∧ q j ≤ b.hi.comp j / b.den} := by
  rw [(par_over d0 hd hi h1 h2).region]
  exact Set.ext fun q => and_congr Iff.rfl (over_iff b pl i q)

theorem axis_side (b : AABB) (i : Fin 3) (n : Int) (q : Q3) : (⟨V3.zero.set i b.den, n⟩ : HS3).side q = b.den * q i - n := by
  obtain rfl | rfl | rfl := fin3 i <;> simp [HS3.side_eq, V3.set, V3.zero]

theorem first_nonzero {v : V3} {i : Fin 3} (h : v.firstNonzeroDimension = some i) : v.comp i ≠ 0 := by
  unfold V3.firstNonzeroDimension at h
  split at h
  · cases h; assumption
  · split at h
    · cases h; assumption
    · split at h
      · cases h; assumption
      · cases h

/-- Two points of a plane are on the same side of a parallel plane. -/
theorem parallel_side {a g : HS3} {i : Fin 3} (hi : a.n.comp i ≠ 0) (hc : a.n.cross g.n = ⟨0, 0, 0⟩) {p q : Q3} (hp : a.side p = 0)
    (hq : a.side q = 0) : g.side p = g.side q := by
  have hi' : (a.n.comp i : ℚ) ≠ 0 := by exact_mod_cast hi
  simp only [V3.cross, V3.mk.injEq] at hc
  obtain ⟨c1, c2, c3⟩ := hc
  have c1 : (a.n.y * g.n.z - a.n.z * g.n.y : ℚ) = 0 := by exact_mod_cast c1
  have c2 : (a.n.z * g.n.x - a.n.x * g.n.z : ℚ) = 0 := by exact_mod_cast c2
  have c3 : (a.n.x * g.n.y - a.n.y * g.n.x : ℚ) = 0 := by exact_mod_cast c3
  rw [HS3.side_eq] at hp hq ⊢
  rw [HS3.side_eq]
  apply mul_left_cancel₀ hi'
  obtain rfl | rfl | rfl := fin3 i <;> simp only [V3.comp]
  · linear_combination (g.n.x : ℚ) * (hp - hq) + (p 1 - q 1) * c3 - (p 2 - q 2) * c2
  · linear_combination (g.n.y : ℚ) * (hp - hq) - (p 0 - q 0) * c3 + (p 2 - q 2) * c1
  · linear_combination (g.n.z : ℚ) * (hp - hq) + (p 0 - q 0) * c2 - (p 1 - q 1) * c1

theorem intersectPlane_spec (ops : EdgeOps D) (d0 : D) {b : AABB} (hd : 0 < b.den) {pl : HS3} {i : Fin 3}
    (hf : pl.n.firstNonzeroDimension = some i) (h0 : b.lo.comp i ≤ b.hi.comp i)
    (h1 : b.lo.comp (i + 1) < b.hi.comp (i + 1)) (h2 : b.lo.comp (i + 2) < b.hi.comp (i + 2)) :
    (∃ C, intersectPlane ops d0 b pl = some (some C) ∧ IsConvexPolygon C ∧ C.plane = pl ∧
      C.region = {q | pl.side q = 0 ∧ InBox b q}) ∨
    (intersectPlane ops d0 b pl = some none ∧
      ∃ g : HS3, pl.n.cross g.n ≠ ⟨0, 0, 0⟩ ∧ ∀ q, pl.side q = 0 → InBox b q → g.side q = 0) := by
  have hi := first_nonzero hf
  have hq : (0 : ℚ) < b.den := by exact_mod_cast hd
  have hn : pl.n.cross (sidePlane b i (sideIndex (decide (0 ≤ pl.n.comp i)) 0)).n ≠ ⟨0, 0, 0⟩ := by
    intro h0
    have := par_dot hd hi 0
    rw [h0] at this
    simp [V3.dot] at this
  have conv : IsConvexPolygon (parallelogram d0 b pl i) := (par_over d0 hd hi h1 h2).isConvex (par_lines d0 hd hi h1 h2)
  have reg := par_region d0 hd hi h1 h2
  have hlo : (b.lo.comp i : ℚ) / b.den ≤ b.hi.comp i / b.den := by
    rw [div_le_div_iff_of_pos_right hq]; exact_mod_cast h0
  -- the box is the prism between top and bottom
  have top : ∀ q, q ∈ KeptSide ⟨V3.zero.set i b.den, b.hi.comp i⟩ false ↔ q i ≤ b.hi.comp i / b.den := by
    intro q
    simp only [KeptSide, Bool.false_eq_true, if_false, Set.mem_ofPred_eq, axis_side]
    rw [le_div_iff₀ hq, sub_nonpos, mul_comm]
  have bot : ∀ q, q ∈ KeptSide ⟨V3.zero.set i b.den, b.lo.comp i⟩ true ↔ b.lo.comp i / b.den ≤ q i := by
    intro q
    simp only [KeptSide, if_true, Set.mem_ofPred_eq, axis_side]
    rw [div_le_iff₀ hq, sub_nonneg, mul_comm]
  have zero : ∀ q n, (⟨V3.zero.set i b.den, n⟩ : HS3).side q = 0 → q i = n / b.den := by
    intro q n h
    rw [axis_side] at h
    rw [eq_div_iff hq.ne']; linarith
  have box : ∀ q, (pl.side q = 0 ∧ InBox b q) ↔ q ∈ (parallelogram d0 b pl i).region ∧ q i ≤ b.hi.comp i / b.den ∧ b.lo.comp i / b.den ≤ q i := by
    intro q
    rw [reg]
    constructor
    · rintro ⟨a, c⟩; exact ⟨⟨a, fun j _ => c j⟩, (c i).2, (c i).1⟩
    · rintro ⟨⟨a, c⟩, d, e⟩
      refine ⟨a, fun j => ?_⟩
      by_cases hj : j = i
      · subst hj; exact ⟨e, d⟩
      · exact c j hj
  -- an empty result
  have empty : ∀ (g : HS3) (A : Set Q3), A ⊆ {q | pl.side q = 0} → (∀ q, pl.side q = 0 → InBox b q → q ∈ A ∧ g.side q = 0) →
      (∃ q ∈ A, g.side q ≠ 0) → ∃ g : HS3, pl.n.cross g.n ≠ ⟨0, 0, 0⟩ ∧ ∀ q, pl.side q = 0 → InBox b q → g.side q = 0 := by
    rintro g A hA hg ⟨p, pA, hp⟩
    by_cases c : pl.n.cross g.n = ⟨0, 0, 0⟩
    · refine ⟨_, hn, fun q q1 q2 => absurd ?_ hp⟩
      rw [parallel_side hi c (hA pA) q1]
      exact (hg q q1 q2).2
    · exact ⟨g, c, fun q q1 q2 => (hg q q1 q2).2⟩
  unfold intersectPlane
  rw [hf]
  simp only
  rcases clip_spec ops conv ⟨V3.zero.set i b.den, b.hi.comp i⟩ false with ⟨e, k1, p, p1, p2⟩ | ⟨e, k1⟩ | ⟨C, e, k1, k2, k3⟩ <;> rw [e] <;> simp only
  · refine Or.inr ⟨trivial, empty ⟨V3.zero.set i b.den, b.hi.comp i⟩ _ (fun q hq => ?_) (fun q q1 q2 => ?_) ⟨p, p1, fun h => p2 ?_⟩⟩
    · rw [reg] at hq; exact hq.1
    · have := (box q).1 ⟨q1, q2⟩
      exact ⟨this.1, k1 ⟨this.1, (top q).2 this.2.1⟩⟩
    · rw [top, zero _ _ h]
  · refine Or.inl ⟨_, rfl, conv, rfl, Set.ext fun q => ?_⟩
    refine Iff.trans ⟨fun h => ⟨h, ?_⟩, fun h => h.1⟩ (box q).symm
    have := zero _ _ (k1 h)
    exact ⟨this.le, this ▸ hlo⟩
  · rcases clip_spec ops k1 ⟨V3.zero.set i b.den, b.lo.comp i⟩ true with ⟨e', m1, p, p1, p2⟩ | ⟨e', m1⟩ | ⟨C', e', m1, m2, m3⟩ <;> rw [e'] <;>
      simp only [Option.map_some]
    · refine Or.inr ⟨trivial, empty ⟨V3.zero.set i b.den, b.lo.comp i⟩ C.region (fun q hq => ?_) (fun q q1 q2 => ?_) ⟨p, p1, fun h => p2 ?_⟩⟩
      · rw [k3, reg] at hq; exact hq.1.1
      · have := (box q).1 ⟨q1, q2⟩
        have hC : q ∈ C.region := by rw [k3]; exact ⟨this.1, (top q).2 this.2.1⟩
        exact ⟨hC, m1 ⟨hC, (bot q).2 this.2.2⟩⟩
      · rw [bot, zero _ _ h]
    · refine Or.inl ⟨_, rfl, k1, k2, Set.ext fun q => ?_⟩
      refine Iff.trans ⟨fun h => ?_, fun h => ?_⟩ (box q).symm
      · have := zero _ _ (m1 h)
        rw [k3] at h
        exact ⟨h.1, (top q).1 h.2, this.ge⟩
      · rw [k3]; exact ⟨h.1, (top q).2 h.2.1⟩
    · refine Or.inl ⟨_, rfl, m1, m2.trans k2, Set.ext fun q => ?_⟩
      rw [m3, k3]
      refine Iff.trans ⟨fun h => ?_, fun h => ?_⟩ (box q).symm
      · exact ⟨h.1.1, (top q).1 h.1.2, (bot q).1 h.2⟩
      · exact ⟨⟨h.1, (top q).2 h.2.1⟩, (bot q).2 h.2.2⟩

end Walnut.Poly
