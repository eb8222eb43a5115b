/-
The parts of a convex polygon cover exactly the points of the polygon on the two sides
of the splitting plane.
-/
import Verif.Poly.SplitShape

namespace Walnut.Poly
open Walnut.Geom Walnut.Props

variable {D : Type}

/-- `φ` respects convex combinations. -/
def Affine (φ : Q3 → ℚ) : Prop := ∀ (a b : ℚ) (x y : Q3), a + b = 1 → φ (a • x + b • y) = a * φ x + b * φ y

theorem affine_side (g : HS3) : Affine g.side := by
  intro a b x y hab
  simp only [HS3.side_eq, Pi.add_apply, Pi.smul_apply, smul_eq_mul]
  linear_combination (-(g.d : ℚ)) * (1 - hab) + (-(g.d : ℚ)) * (hab - 1) + (g.d : ℚ) * hab

theorem Affine.neg {φ : Q3 → ℚ} (h : Affine φ) : Affine fun q => -φ q := by
  intro a b x y hab; simp only; rw [h a b x y hab]; ring

theorem affine_ar (h : HS3) (i : Fin 3) (p q : ℚ × ℚ) : Affine fun z => ar p q (pr h i z) := by
  intro a b x y hab
  simp only [ar, pr, px, py, Pi.add_apply, Pi.smul_apply, smul_eq_mul]
  linear_combination (-(q.1 - p.1) * p.2 + (q.2 - p.2) * p.1) * (1 - hab) + (-(q.1 - p.1) * p.2 + (q.2 - p.2) * p.1) * (hab - 1) +
    ((q.1 - p.1) * p.2 - (q.2 - p.2) * p.1) * hab

theorem Affine.convex_le {φ : Q3 → ℚ} (h : Affine φ) : Convex ℚ {q | φ q ≤ 0} := by
  intro x hx y hy a b ha hb hab
  simp only [Set.mem_setOf_eq] at *
  rw [h a b x y hab]
  have := mul_nonpos_of_nonneg_of_nonpos ha hx
  have := mul_nonpos_of_nonneg_of_nonpos hb hy
  linarith

theorem Affine.convex_ge {φ : Q3 → ℚ} (h : Affine φ) : Convex ℚ {q | 0 ≤ φ q} := by
  have := h.neg.convex_le
  simpa using this

/-- The points of a convex hull on one side of a plane are covered by the corners on
that side and the points on the plane. -/
theorem half_region {φ : Q3 → ℚ} (hφ : Affine φ) {S K : Set Q3} (hK : Convex ℚ K)
    (hA : ∀ v ∈ S, φ v ≤ 0 → v ∈ K) (hZ : ∀ q ∈ convexHull ℚ S, φ q = 0 → q ∈ K)
    (neA : ∃ v ∈ S, φ v ≤ 0) (neB : ∃ v ∈ S, 0 ≤ φ v) : ∀ q ∈ convexHull ℚ S, φ q ≤ 0 → q ∈ K := by
  intro q hq hq0
  have hS : S = {v ∈ S | φ v ≤ 0} ∪ {v ∈ S | 0 ≤ φ v} := by
    ext v
    simp only [Set.mem_union, Set.mem_setOf_eq]
    constructor
    · intro hv
      rcases le_total (φ v) 0 with h | h
      · exact Or.inl ⟨hv, h⟩
      · exact Or.inr ⟨hv, h⟩
    · rintro (h | h) <;> exact h.1
  have hq' := hq
  rw [hS, convexHull_union (by obtain ⟨v, h1, h2⟩ := neA; exact ⟨v, h1, h2⟩)
    (by obtain ⟨v, h1, h2⟩ := neB; exact ⟨v, h1, h2⟩), mem_convexJoin] at hq'
  obtain ⟨x, hx, y, hy, a, b, ha, hb, hab, rfl⟩ := hq'
  have xK : x ∈ K := convexHull_min (fun v hv => hA v hv.1 hv.2) hK hx
  have x0 : φ x ≤ 0 := convexHull_min (fun v hv => hv.2) hφ.convex_le hx
  have y0 : 0 ≤ φ y := convexHull_min (fun v hv => hv.2) hφ.convex_ge hy
  have xS : x ∈ convexHull ℚ S := convexHull_mono (fun v hv => hv.1) hx
  have yS : y ∈ convexHull ℚ S := convexHull_mono (fun v hv => hv.1) hy
  rcases eq_or_lt_of_le y0 with y0 | y0
  · exact hK xK (hZ y yS y0.symm) ha hb hab
  rw [hφ a b x y hab] at hq0
  have hd : 0 < φ y - φ x := by linarith
  set c := -φ x / (φ y - φ x) with hc
  have hcm : c * (φ y - φ x) = -φ x := by rw [hc]; field_simp
  have hbc : b ≤ c := by
    rw [hc, le_div_iff₀ hd]
    have : a = 1 - b := by linarith
    rw [this] at hq0
    linarith
  have hc1 : c ≤ 1 := by rw [hc, div_le_one hd]; linarith
  have hc0 : 0 ≤ c := le_trans hb hbc
  have hz : (1 - c) • x + c • y ∈ K := by
    refine hZ _ (convex_convexHull ℚ S xS yS (by linarith) hc0 (by ring)) ?_
    rw [hφ _ _ _ _ (by ring)]
    linear_combination hcm
  rcases eq_or_lt_of_le hc0 with c0 | c0
  · have hb0 : b = 0 := le_antisymm (c0 ▸ hbc) hb
    have ha1 : a = 1 := by linarith
    rw [hb0, ha1]; simpa using xK
  have := hK xK hz (a := 1 - b / c) (b := b / c) (by rw [sub_nonneg, div_le_one c0]; exact hbc)
    (by positivity) (by ring)
  convert this using 1
  have hbc' : b / c * c = b := by field_simp
  have ha' : a = 1 - b := by linarith
  ext j
  simp only [Pi.add_apply, Pi.smul_apply, smul_eq_mul, ha']
  linear_combination (x j - y j) * hbc'

namespace SplitShape
variable {P N Q : Polygon D} {g : HS3} {a m b k : Nat} {t u : ℚ}
variable (h : IsConvexPolygon P) (s : SplitShape P N Q g a m b k t u)
include h

omit s in
theorem mem_pt (i : Nat) : P.pt (i % P.count) ∈ P.region :=
  subset_convexHull ℚ _ ⟨i % P.count, Nat.mod_lt _ h.count_pos, rfl⟩

theorem lerp3_mem {x y : Q3} {t : ℚ} (h0 : 0 ≤ t) (h1 : t ≤ 1) : lerp3 t x y ∈ segment ℚ x y := by
  refine ⟨1 - t, t, by linarith, h0, by ring, ?_⟩
  ext j
  simp only [Pi.add_apply, Pi.smul_apply, smul_eq_mul, lerp3]; ring

omit s in
theorem mem_cross (i : Nat) {x : ℚ} (h0 : 0 ≤ x) (h1 : x ≤ 1) : cross3 P i x ∈ P.region :=
  (convex_convexHull ℚ _).segment_subset (mem_pt h i) (mem_pt h (i + 1)) (lerp3_mem h h0 h1)

omit s in
theorem region_plane {q : Q3} (hq : q ∈ P.region) : P.plane.side q = 0 := by
  have h1 : P.plane.side q ≤ 0 := by
    refine convexHull_min (?_ : _ ⊆ {z | P.plane.side z ≤ 0}) (affine_side P.plane).convex_le hq
    rintro v ⟨i, hi, rfl⟩
    exact (h.onPlane i hi).le
  have h2 : 0 ≤ P.plane.side q := by
    refine convexHull_min (?_ : _ ⊆ {z | 0 ≤ P.plane.side z}) (affine_side P.plane).convex_ge hq
    rintro v ⟨i, hi, rfl⟩
    exact (h.onPlane i hi).ge
  linarith

omit s in
/-- The polygon is on the inner side of each edge. -/
theorem region_edge {q : Q3} (hq : q ∈ P.region) (e : Nat) :
    0 ≤ ar (ring2 P e) (ring2 P (e + 1)) (pr P.plane P.drop q) := by
  refine convexHull_min (?_ : _ ⊆ {z | 0 ≤ ar (ring2 P e) (ring2 P (e + 1)) (pr P.plane P.drop z)})
    (affine_ar P.plane P.drop _ _).convex_ge hq
  rintro v ⟨i, hi, rfl⟩
  obtain ⟨j, h1, h2, h3⟩ := Cut.win (j := i) (a := e) h.count_pos h.ring.per
  have := h.ring.edge (k := e) (j := j) (t := 0) h1 h2.le le_rfl zero_le_one
  rw [bd_zero, h3] at this
  unfold ring2 at this ⊢
  rwa [Nat.mod_eq_of_lt hi] at this

include s

/-- The points of the polygon on the splitting plane. -/
theorem chord {q : Q3} (hq : q ∈ P.region) (h0 : g.side q = 0) :
    q ∈ segment ℚ (cross3 P (a + m - 1) t) (cross3 P (a + P.count - 1) u) := by
  have hp := region_plane h hq
  obtain ⟨τ, t0, t1, e⟩ := s.cut.chord (z := pr P.plane P.drop q) (by rw [aff_pt h hp, h0])
    (region_edge h hq _) (region_edge h hq _)
  rw [← pr_cross3, ← pr_cross3, ← pr_lerp3] at e
  have : q = lerp3 τ (cross3 P (a + m - 1) t) (cross3 P (a + P.count - 1) u) := by
    refine plane_ext P.plane h.drop hp ?_ (congrArg Prod.fst e) (congrArg Prod.snd e)
    rw [side_lerp3, cross_side h, cross_side h]; ring
  rw [this]
  exact lerp3_mem h t0 t1

/-- The vertices in the window starting with the negative run. -/
theorem cases_vertex {v : Q3} (hv : ∃ i, i < P.count ∧ v = P.pt i) :
    (∃ i, i < m ∧ v = P.pt ((a + i) % P.count) ∧ g.side v < 0) ∨
    (∃ i, 1 ≤ i ∧ i ≤ k ∧ v = P.pt ((b + i - 1) % P.count) ∧ 0 < g.side v) ∨
    v = cross3 P (a + m - 1) t ∨ v = cross3 P (a + P.count - 1) u := by
  obtain ⟨i, hi, rfl⟩ := hv
  have hn := h.count_pos
  obtain ⟨j, h1, h2, h3⟩ := Cut.win (j := i) (a := a) hn h.ring.per
  have hij : P.pt i = P.pt (j % P.count) := by
    unfold ring2 at h3
    rw [Nat.mod_eq_of_lt hi] at h3
    exact plane_ext P.plane h.drop (h.onPlane i hi) (pt_side h j) (congrArg Prod.fst h3).symm (congrArg Prod.snd h3).symm
  have fj : aff (ca P.plane g P.drop) (cb P.plane g P.drop) (cc P.plane g P.drop) (ring2 P j) = g.side (P.pt i) := by
    rw [hij]; exact aff_pt h (pt_side h j)
  rcases s.cut.between h1 h2 with e | ⟨e1, e2⟩ | ⟨e1, e2, e3⟩ | ⟨e1, e2, e3⟩
  · refine Or.inl ⟨j - a, by omega, ?_, ?_⟩
    · rw [hij, show a + (j - a) = j by omega]
    · rw [← fj]; exact s.cut.neg j h1 e
  · refine Or.inr (Or.inl ⟨j - b + 1, by omega, by omega, ?_, ?_⟩)
    · rw [hij, show b + (j - b + 1) - 1 = j by omega]
    · rw [← fj]; exact s.cut.pos j e1 e2
  · right; right; left
    have := s.cut.m1
    unfold cross3; rw [e3, lerp3_one, hij, e1, show a + m - 1 + 1 = a + m by omega]
  · right; right; right
    unfold cross3; rw [e3, lerp3_zero, hij, e1]

theorem ex_neg : ∃ v, (∃ i, i < P.count ∧ v = P.pt i) ∧ g.side v ≤ 0 := by
  have hm := s.cut.m1
  refine ⟨_, ⟨a % P.count, Nat.mod_lt _ h.count_pos, rfl⟩, ?_⟩
  rw [← aff_pt h (pt_side h a)]
  exact (s.cut.neg a le_rfl (by omega)).le

theorem ex_pos : ∃ v, (∃ i, i < P.count ∧ v = P.pt i) ∧ 0 ≤ g.side v := by
  have hm := s.cut.k1
  refine ⟨_, ⟨b % P.count, Nat.mod_lt _ h.count_pos, rfl⟩, ?_⟩
  rw [← aff_pt h (pt_side h b)]
  exact (s.cut.pos b le_rfl (by omega)).le

theorem neg_mem2 : cross3 P (a + m - 1) t ∈ N.region := by
  refine subset_convexHull ℚ _ ⟨m, by rw [s.ncount]; omega, ?_⟩
  rw [s.npt m (by omega), if_neg (by omega), if_pos rfl]

theorem neg_mem1 : cross3 P (a + P.count - 1) u ∈ N.region := by
  refine subset_convexHull ℚ _ ⟨m + 1, by rw [s.ncount]; omega, ?_⟩
  rw [s.npt (m + 1) (by omega), if_neg (by omega), if_neg (by omega)]

theorem pos_mem2 : cross3 P (a + m - 1) t ∈ Q.region := by
  refine subset_convexHull ℚ _ ⟨0, by rw [s.qcount]; omega, ?_⟩
  rw [s.qpt 0 (by omega), if_pos rfl]

theorem pos_mem1 : cross3 P (a + P.count - 1) u ∈ Q.region := by
  refine subset_convexHull ℚ _ ⟨k + 1, by rw [s.qcount]; omega, ?_⟩
  rw [s.qpt (k + 1) (by omega), if_neg (by omega), if_neg (by omega)]

/-- The part on the negative side covers the points of the polygon there. -/
theorem neg_region : N.region = P.region ∩ {q | g.side q ≤ 0} := by
  have hm := s.cut.m1
  apply Set.Subset.antisymm
  · refine convexHull_min ?_ ((convex_convexHull ℚ _).inter (affine_side g).convex_le)
    rintro v ⟨i, hi, rfl⟩
    rw [s.ncount] at hi
    rw [s.npt i hi]
    split
    · refine ⟨mem_pt h _, ?_⟩
      show g.side _ ≤ 0
      rw [← aff_pt h (pt_side h _)]
      exact (s.cut.neg (a + i) (by omega) (by omega)).le
    · split
      · exact ⟨mem_cross h _ s.cut.t0.le s.cut.t1, (s2_side h s).le⟩
      · exact ⟨mem_cross h _ s.cut.u0 s.cut.u1.le, (s1_side h s).le⟩
  · rintro q ⟨hq, hq0⟩
    refine half_region (affine_side g) (convex_convexHull ℚ _) (fun v hv hv0 => ?_) (fun z hz hz0 => ?_)
      (ex_neg h s) (ex_pos h s) q hq hq0
    · rcases cases_vertex h s hv with ⟨i, h1, h2, _⟩ | ⟨i, _, _, _, h4⟩ | e | e
      · refine subset_convexHull ℚ _ ⟨i, by rw [s.ncount]; omega, ?_⟩
        rw [s.npt i (by omega), if_pos h1, h2]
      · linarith
      · rw [e]; exact neg_mem2 h s
      · rw [e]; exact neg_mem1 h s
    · exact (convex_convexHull ℚ _).segment_subset (neg_mem2 h s) (neg_mem1 h s) (chord h s hz hz0)

/-- The part on the positive side covers the points of the polygon there. -/
theorem pos_region : Q.region = P.region ∩ {q | 0 ≤ g.side q} := by
  have hk := s.cut.k1
  apply Set.Subset.antisymm
  · refine convexHull_min ?_ ((convex_convexHull ℚ _).inter (affine_side g).convex_ge)
    rintro v ⟨i, hi, rfl⟩
    rw [s.qcount] at hi
    rw [s.qpt i hi]
    split
    · exact ⟨mem_cross h _ s.cut.t0.le s.cut.t1, (s2_side h s).ge⟩
    · split
      · refine ⟨mem_pt h _, ?_⟩
        show 0 ≤ g.side _
        rw [← aff_pt h (pt_side h _)]
        exact (s.cut.pos (b + i - 1) (by omega) (by omega)).le
      · exact ⟨mem_cross h _ s.cut.u0 s.cut.u1.le, (s1_side h s).ge⟩
  · rintro q ⟨hq, hq0⟩
    have hq0' : 0 ≤ g.side q := hq0
    refine half_region (affine_side g).neg (convex_convexHull ℚ _) (fun v hv hv0 => ?_) (fun z hz hz0 => ?_)
      ?_ ?_ q hq (by linarith)
    · rcases cases_vertex h s hv with ⟨i, _, _, h4⟩ | ⟨i, h1, h2, h3, _⟩ | e | e
      · linarith
      · refine subset_convexHull ℚ _ ⟨i, by rw [s.qcount]; omega, ?_⟩
        rw [s.qpt i (by omega), if_neg (by omega), if_pos h2, h3]
      · rw [e]; exact pos_mem2 h s
      · rw [e]; exact pos_mem1 h s
    · exact (convex_convexHull ℚ _).segment_subset (pos_mem2 h s) (pos_mem1 h s) (chord h s hz (by linarith))
    · obtain ⟨v, h1, h2⟩ := ex_pos h s
      exact ⟨v, h1, by linarith⟩
    · obtain ⟨v, h1, h2⟩ := ex_neg h s
      exact ⟨v, h1, by linarith⟩

end SplitShape

end Walnut.Poly
