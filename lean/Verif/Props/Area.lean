/-
Property C32: area and centroid of a polygon.
-/
import Verif.Poly.AreaProof
import Verif.Props.Reduce
import Verif.Props.Split

namespace Walnut.Props
open Walnut.Geom Walnut.Poly Finset

variable {D : Type}

/-- The signed area of the triangle `a b c` after dropping a coordinate: positive when
it is counter-clockwise. -/
def triArea (drop : Fin 3) (a b c : Q3) : ℚ :=
  ((b (drop + 1) - a (drop + 1)) * (c (drop + 2) - a (drop + 2)) -
    (b (drop + 2) - a (drop + 2)) * (c (drop + 1) - a (drop + 1))) / 2

/-- The triangles `0, i + 1, i + 2` cut the polygon with `n` vertices into pieces. -/
def overFan (P : Polygon D) (f : Q3 → Q3 → Q3 → ℚ) : ℚ :=
  ∑ i ∈ range (P.count - 2), f (P.pt 0) (P.pt (i + 1)) (P.pt (i + 2))

theorem fan_index (P : Polygon D) (f : Q3 → Q3 → Q3 → ℚ) {a : HP3} {l : List HP3} (h : P.verts = a :: l)
    (hl : l.length + 1 = P.count) : fanSum (fun a b c => f a.pt b.pt c.pt) a l = overFan P f := by
  have e := pt_verts P
  have h0 : a.pt = P.pt 0 := by rw [← e 0 (by rw [h]; simp)]; simp [h]
  rw [fanSum_eq f a l (fun i => P.pt (i + 1)) (fun i hi => by
    rw [← e (i + 1) (by rw [h]; simpa using hi)]; simp [h]), h0]
  unfold overFan
  rw [show l.length - 1 = P.count - 2 by omega]

/-- C32: `GetProjectedArea` returns the area of the projected polygon: the sum of the
signed areas of the triangles it consists of. -/
theorem C32_area (P : Polygon D) (drop : Fin 3) (hw : ∀ i, i < P.count → (P.vertexD i).w ≠ 0) {num den : Int}
    (h : P.projectedArea drop = some (num, den)) : den ≠ 0 ∧ (num : ℚ) / den = overFan P (triArea drop) := by
  unfold Polygon.projectedArea at h
  split_ifs at h with hc
  · simp only [Option.some.injEq, Prod.mk.injEq] at h
    obtain ⟨rfl, rfl⟩ := h
    refine ⟨one_ne_zero, ?_⟩
    unfold overFan
    rw [show P.count - 2 = 0 by omega]; simp
  · obtain ⟨a, l, hv, hl⟩ := verts_cons P (by omega)
    have hne : l ≠ [] := by rintro rfl; simp at hl; omega
    obtain ⟨b, l', rfl⟩ : ∃ b l', l = b :: l' := by cases l with | nil => exact absurd rfl hne | cons b l' => exact ⟨b, l', rfl⟩
    rw [hv] at h
    simp only [List.head?_cons, Option.bind_eq_bind, Option.bind_some, List.getLast?_eq_some_getLast (List.cons_ne_nil a _),
      Option.bind_eq_some_iff, Option.pure_def, Option.some.injEq, Prod.mk.injEq] at h
    obtain ⟨⟨n, d⟩, h1, rfl, rfl⟩ := h
    have hf : ∀ u ∈ a :: b :: l', u.w ≠ 0 := by rw [← hv]; exact verts_finite hw
    have hlast := hf _ (List.getLast_mem (List.cons_ne_nil a _))
    obtain ⟨r1, r2⟩ := areaLoop_spec drop _ a h1 hf hlast
    refine ⟨mul_ne_zero (mul_ne_zero r1 hlast) two_ne_zero, ?_⟩
    have hlq : (((a :: b :: l').getLast (List.cons_ne_nil a _)).w : ℚ) ≠ 0 := by exact_mod_cast hlast
    have hdq : (d : ℚ) ≠ 0 := by exact_mod_cast r1
    have haq : (a.w : ℚ) ≠ 0 := by exact_mod_cast hf a (by simp)
    rw [crs_eq drop hlast (hf a (by simp)), mul_div_assoc, div_self (by positivity), mul_one] at r2
    have e := closed_fan (f := crs drop) (g := fun a b c => 2 * triArea drop a.pt b.pt c.pt)
      (fun a b => by unfold crs; ring) (fun a b c => by unfold crs triArea cx cy; ring) a b l'
    rw [List.getLast_cons (List.cons_ne_nil b l')] at r2 hlq ⊢
    rw [add_comm, e] at r2
    have e2 := fan_index P (fun a b c => 2 * triArea drop a b c) hv hl
    rw [e2] at r2
    have e3 : overFan P (fun a b c => 2 * triArea drop a b c) = 2 * overFan P (triArea drop) := by
      unfold overFan; rw [mul_sum]
    rw [e3] at r2
    push_cast
    rw [← div_div, r2]
    ring

/-- C32: with positive denominators the computation is defined. -/
theorem C32_area_defined (P : Polygon D) (drop : Fin 3) (hw : ∀ i, i < P.count → 0 < (P.vertexD i).w) :
    ∃ r, P.projectedArea drop = some r := by
  unfold Polygon.projectedArea
  split_ifs with hc
  · exact ⟨_, rfl⟩
  · obtain ⟨a, l, hv, hl⟩ := verts_cons P (by omega)
    have hf : ∀ u ∈ a :: l, 0 < u.w := by rw [← hv]; exact verts_pos hw
    rw [hv]
    obtain ⟨r, e⟩ := areaLoop_defined drop (a :: l)
      (num := crossAfterDrop drop ((a :: l).getLast (List.cons_ne_nil a l)) a) hf
      (hf _ (List.getLast_mem (List.cons_ne_nil a l)))
    simp only [List.head?_cons, Option.bind_eq_bind, Option.bind_some, List.getLast?_eq_some_getLast (List.cons_ne_nil a l), e]
    exact ⟨_, rfl⟩

theorem square_w : ∀ i, i < square.count → 0 < (square.vertexD i).w := by decide

example : ∃ r, square.projectedArea 2 = some r ∧ (r.1 : ℚ) / r.2 = 4 := by
  obtain ⟨⟨n, d⟩, h⟩ := C32_area_defined square 2 square_w
  obtain ⟨p0, p1, p2, p3⟩ := square_pt
  refine ⟨_, h, ?_⟩
  rw [(C32_area square 2 (fun i hi => (square_w i hi).ne') h).2]
  unfold overFan
  rw [show square.count - 2 = 2 from rfl, Finset.sum_range_succ, Finset.sum_range_one]
  norm_num [p0, p1, p2, p3, triArea, fin3_eqs]

/-- C32: without that assumption it is not: the gcd of the denominators -2^63 and -1
divides the smallest word by -1. -/
theorem C32_area_undefined : ∃ P : Polygon Unit, (∀ i, i < P.count → (P.vertexD i).w ≠ 0) ∧ P.projectedArea 2 = none := by
  refine ⟨⟨⟨⟨0, 0, 1⟩, 0⟩, 2, [⟨⟨⟨0, 0, 0⟩, 1⟩, ⟨⟨0, 0, 0⟩, ⟨0, 0, 0⟩⟩, ()⟩,
    ⟨⟨⟨-1, 0, 0⟩, -1⟩, ⟨⟨0, 0, 0⟩, ⟨0, 0, 0⟩⟩, ()⟩,
    ⟨⟨⟨0, -2 ^ 63, 0⟩, -2 ^ 63⟩, ⟨⟨0, 0, 0⟩, ⟨0, 0, 0⟩⟩, ()⟩]⟩, by decide, ?_⟩
  simp [Polygon.projectedArea, Polygon.count, Polygon.verts, areaLoop, gcd?_undefined]

/-- C32: `GetProjectedCentroid` returns the centroid of the projected polygon: the
average of the centroids of the triangles it consists of, weighted by their areas.  For
a polygon of area 0 the result is not a finite point. -/
theorem C32_projected_centroid (P : Polygon D) (drop : Fin 3) (hw : ∀ i, i < P.count → (P.vertexD i).w ≠ 0) {c : HP2}
    (h : P.projectedCentroid drop = some c) :
    (c.w = 0 ↔ overFan P (triArea drop) = 0) ∧
    (c.w ≠ 0 → c.pt = ![
      overFan P (fun p q r => triArea drop p q r * ((p (drop + 1) + q (drop + 1) + r (drop + 1)) / 3)) / overFan P (triArea drop),
      overFan P (fun p q r => triArea drop p q r * ((p (drop + 2) + q (drop + 2) + r (drop + 2)) / 3)) / overFan P (triArea drop)]) := by
  unfold Polygon.projectedCentroid at h
  split_ifs at h with hc
  · simp only [Option.some.injEq] at h
    subst h
    refine ⟨?_, fun h => absurd rfl h⟩
    unfold overFan; rw [hc]; simp
  · obtain ⟨a, l, hv, hl⟩ := verts_cons P (by omega)
    rw [hv] at h
    simp only [List.head?_cons, Option.bind_eq_bind, Option.bind_some, List.getLast?_eq_some_getLast (List.cons_ne_nil a _),
      Option.bind_eq_some_iff, Option.pure_def, Option.some.injEq] at h
    obtain ⟨t, h1, rfl⟩ := h
    have hf : ∀ u ∈ a :: l, u.w ≠ 0 := by rw [← hv]; exact verts_finite hw
    have hlast := hf _ (List.getLast_mem (List.cons_ne_nil a _))
    set z := (a :: l).getLast (List.cons_ne_nil a _) with hz
    have hlq : (z.w : ℚ) ≠ 0 := by exact_mod_cast hlast
    have haq : (a.w : ℚ) ≠ 0 := by exact_mod_cast hf a (by simp)
    have cv : ∀ k : Fin 3, (a.v.comp k : ℚ) = a.pt k * a.w := fun k => by unfold HP3.pt; field_simp
    have cz : ∀ k : Fin 3, (z.v.comp k : ℚ) = z.pt k * z.w := fun k => by unfold HP3.pt; field_simp
    have s := centroidLoop_spec drop l a (A := crs drop z a) (M0 := mom drop (drop + 1) z a)
      (M1 := mom drop (drop + 2) z a) h1 hf ⟨hlast, by
        rw [crs_eq drop hlast (hf a (by simp))]; field_simp, by
        unfold mom
        simp only [after0]
        push_cast
        rw [crs_eq drop hlast (hf a (by simp)), cv, cz]; field_simp, by
        unfold mom
        simp only [after1]
        push_cast
        rw [crs_eq drop hlast (hf a (by simp)), cv, cz]; field_simp⟩
    -- the closed sums as sums over the fan
    have F : ∀ (f : HP3 → HP3 → ℚ) (g : Q3 → Q3 → Q3 → ℚ), (∀ a b, f a b = -f b a) →
        (∀ a b c : HP3, g a.pt b.pt c.pt = f a b + f b c + f c a) → f z a + pairSum f (a :: l) = overFan P g := by
      intro f g f1 f2
      cases l with
      | nil =>
        have : f a a = 0 := by have := f1 a a; linarith
        have hz' : z = a := by rw [hz]; rfl
        unfold overFan
        rw [hz', this, show P.count - 2 = 0 by simp at hl; omega]; simp [pairSum]
      | cons b l' =>
        have e := closed_fan (f := f) (g := fun a b c => g a.pt b.pt c.pt) f1 f2 a b l'
        rw [fan_index P g hv hl] at e
        rw [← e, add_comm, hz, List.getLast_cons (List.cons_ne_nil b l')]
    have A1 := F (crs drop) (fun a b c => 2 * triArea drop a b c) (fun a b => by unfold crs; ring)
      (fun a b c => by unfold crs triArea cx cy; ring)
    have B1 := F (mom drop (drop + 1)) (fun p q r => 6 * (triArea drop p q r * ((p (drop + 1) + q (drop + 1) + r (drop + 1)) / 3)))
      (fun a b => by unfold mom crs; ring) (fun a b c => by unfold mom crs triArea cx cy; ring)
    have B2 := F (mom drop (drop + 2)) (fun p q r => 6 * (triArea drop p q r * ((p (drop + 2) + q (drop + 2) + r (drop + 2)) / 3)))
      (fun a b => by unfold mom crs; ring) (fun a b c => by unfold mom crs triArea cx cy; ring)
    have L : ∀ (k : ℚ) (g : Q3 → Q3 → Q3 → ℚ), overFan P (fun a b c => k * g a b c) = k * overFan P g := by
      intro k g; unfold overFan; rw [mul_sum]
    rw [L] at A1 B1 B2
    rw [A1, B1, B2, ← hz] at s
    obtain ⟨d0, e0, e1, e2⟩ := s
    have hdq : (t.den : ℚ) ≠ 0 := by exact_mod_cast d0
    have ea : (t.area : ℚ) = 2 * overFan P (triArea drop) * (t.den * z.w) := by rw [← e0]; field_simp
    constructor
    · constructor
      · intro hh
        have : t.area = 0 := by
          rcases mul_eq_zero.mp hh with hh | hh
          · rcases mul_eq_zero.mp hh with hh | hh
            · rcases mul_eq_zero.mp hh with hh | hh
              · exact hh
              · norm_num at hh
            · exact absurd hh d0
          · exact absurd hh hlast
        rw [this] at e0
        simp at e0
        exact e0
      · intro hh
        rw [hh] at ea
        have : t.area = 0 := by
          have : (t.area : ℚ) = 0 := by rw [ea]; ring
          exact_mod_cast this
        rw [this]; simp
    · intro hh
      have hA : overFan P (triArea drop) ≠ 0 := by
        intro h0
        apply hh
        rw [h0] at ea
        have : t.area = 0 := by
          have : (t.area : ℚ) = 0 := by rw [ea]; ring
          exact_mod_cast this
        simp only [this]; ring
      unfold HP2.pt
      have k1 : (t.c0 : ℚ) = 6 * overFan P (fun p q r => triArea drop p q r * ((p (drop + 1) + q (drop + 1) + r (drop + 1)) / 3)) * (t.den * z.w) ^ 2 := by
        rw [← e1]; field_simp
      have k2 : (t.c1 : ℚ) = 6 * overFan P (fun p q r => triArea drop p q r * ((p (drop + 2) + q (drop + 2) + r (drop + 2)) / 3)) * (t.den * z.w) ^ 2 := by
        rw [← e2]; field_simp
      push_cast
      rw [k1, k2, ea]
      congr 1
      · field_simp; ring
      · congr 1
        field_simp; ring

theorem C32_centroid_defined (P : Polygon D) (hw : ∀ i, i < P.count → 0 < (P.vertexD i).w) (drop : Fin 3) :
    ∃ c, P.projectedCentroid drop = some c := by
  unfold Polygon.projectedCentroid
  split_ifs with hc
  · exact ⟨_, rfl⟩
  · obtain ⟨a, l, hv, hl⟩ := verts_cons P (by omega)
    have hf : ∀ u ∈ a :: l, 0 < u.w := by rw [← hv]; exact verts_pos hw
    rw [hv]
    simp only [List.head?_cons, Option.bind_eq_bind, Option.bind_some, List.getLast?_eq_some_getLast (List.cons_ne_nil a l)]
    obtain ⟨r, e⟩ := centroidLoop_defined drop (a :: l) (s := ⟨crossAfterDrop drop ((a :: l).getLast (List.cons_ne_nil a l)) a,
      (((a :: l).getLast (List.cons_ne_nil a l)).v.componentAfterDrop 0 drop * a.w + a.v.componentAfterDrop 0 drop * ((a :: l).getLast (List.cons_ne_nil a l)).w) * crossAfterDrop drop ((a :: l).getLast (List.cons_ne_nil a l)) a,
      (((a :: l).getLast (List.cons_ne_nil a l)).v.componentAfterDrop 1 drop * a.w + a.v.componentAfterDrop 1 drop * ((a :: l).getLast (List.cons_ne_nil a l)).w) * crossAfterDrop drop ((a :: l).getLast (List.cons_ne_nil a l)) a,
      ((a :: l).getLast (List.cons_ne_nil a l)).w⟩) hf
      (hf _ (List.getLast_mem (List.cons_ne_nil a l)))
    rw [e]
    exact ⟨_, rfl⟩

/-- The triangle areas of a convex polygon after dropping a coordinate are a fixed
multiple of the areas in its plane. -/
theorem triArea_turn (P : Polygon D) (h : IsConvexPolygon P) : ∃ κ : ℚ, κ ≠ 0 ∧ ∀ p q r, P.plane.side p = 0 →
    P.plane.side q = 0 → P.plane.side r = 0 → triArea P.drop p q r = κ * turn P.plane.n.q p q r := by
  have hp := comp_sq_pos P.plane h.drop
  have hs := sg_mul_pos P.plane h.drop
  have hq := sg_sq P.plane h.drop
  refine ⟨sg P.plane P.drop * (sg P.plane P.drop * P.plane.n.comp P.drop) /
    (2 * (P.plane.n.x * P.plane.n.x + P.plane.n.y * P.plane.n.y + P.plane.n.z * P.plane.n.z)), ?_, ?_⟩
  · apply div_ne_zero
    · apply mul_ne_zero _ hs.ne'
      intro h0; rw [h0] at hq; norm_num at hq
    · positivity
  · intro p q r a1 a2 a3
    have e := turn_eq P.plane h.drop a1 a2 a3
    have e' : sg P.plane P.drop * ar2 P.plane P.drop p q r = 2 * triArea P.drop p q r := by
      unfold ar2 ar pr px py triArea
      simp only
      linear_combination ((q (P.drop + 1) - p (P.drop + 1)) * (r (P.drop + 2) - p (P.drop + 2)) -
        (q (P.drop + 2) - p (P.drop + 2)) * (r (P.drop + 1) - p (P.drop + 1))) * hq
    rw [div_mul_eq_mul_div, eq_div_iff (by positivity)]
    linear_combination (-(P.plane.n.x * P.plane.n.x + P.plane.n.y * P.plane.n.y + P.plane.n.z * P.plane.n.z : ℚ)) * e' - sg P.plane P.drop * e

/-- C32: the area of a convex polygon is positive when seen from the tip of the
normal. -/
theorem C32_area_positive (P : Polygon D) (h : IsConvexPolygon P) : 0 < overFan P (turn P.plane.n.q) := by
  have hp := comp_sq_pos P.plane h.drop
  have hs := sg_mul_pos P.plane h.drop
  have hf := h.convex2.fan_pos
  have e : (sg P.plane P.drop * P.plane.n.comp P.drop) * overFan P (turn P.plane.n.q) =
      (P.plane.n.x * P.plane.n.x + P.plane.n.y * P.plane.n.y + P.plane.n.z * P.plane.n.z : ℚ) *
      ∑ i ∈ range (P.count - 2), area2 (fun i => px P.drop (P.pt i)) (fun i => py P.plane P.drop (P.pt i)) 0 (i + 1) (i + 2) := by
    unfold overFan
    rw [mul_sum, mul_sum]
    apply sum_congr rfl
    intro i hi
    rw [mem_range] at hi
    rw [turn_eq P.plane h.drop (h.onPlane 0 (by omega)) (h.onPlane (i + 1) (by omega)) (h.onPlane (i + 2) (by omega))]
    rfl
  exact (mul_pos_iff_of_pos_left hs).mp (by rw [e]; positivity)

/-- C32: `GetCentroid` of a convex polygon (with positive denominators) returns its
centroid, which is one of the polygon's points. -/
theorem C32_centroid (P : Polygon D) (h : IsConvexPolygon P) (hw : ∀ i, i < P.count → 0 < (P.vertexD i).w) :
    ∃ c, P.centroid = some c ∧ c.w ≠ 0 ∧
      (∀ k, c.pt k = overFan P (fun p q r => turn P.plane.n.q p q r * ((p k + q k + r k) / 3)) /
        overFan P (turn P.plane.n.q)) ∧
      c.pt ∈ P.region := by
  obtain ⟨c, hc⟩ := C32_centroid_defined P hw P.drop
  obtain ⟨e1, e2⟩ := C32_projected_centroid P P.drop (fun i hi => (hw i hi).ne') hc
  obtain ⟨κ, hκ, hturn⟩ := triArea_turn P h
  have hpos := C32_area_positive P h
  have hcount : ∀ i ∈ range (P.count - 2), i + 2 < P.count := fun i hi => by rw [mem_range] at hi; omega
  have scale : ∀ g : Q3 → Q3 → Q3 → ℚ, overFan P (fun p q r => triArea P.drop p q r * g p q r) =
      κ * overFan P (fun p q r => turn P.plane.n.q p q r * g p q r) := by
    intro g
    unfold overFan
    rw [mul_sum]
    apply sum_congr rfl
    intro i hi
    have := hcount i hi
    beta_reduce
    rw [hturn _ _ _ (h.onPlane 0 (by omega)) (h.onPlane (i + 1) (by omega)) (h.onPlane (i + 2) (by omega))]
    ring
  have scale1 : overFan P (triArea P.drop) = κ * overFan P (turn P.plane.n.q) := by
    have := scale (fun _ _ _ => 1)
    simpa using this
  have hA : overFan P (triArea P.drop) ≠ 0 := by rw [scale1]; exact mul_ne_zero hκ hpos.ne'
  have hcw : c.w ≠ 0 := fun h0 => hA (e1.mp h0)
  have e3 := e2 hcw
  rw [scale, scale, scale1, mul_div_mul_left _ _ hκ, mul_div_mul_left _ _ hκ] at e3
  obtain ⟨w0, w1, w2⟩ := C62_project_onto_plane P.plane c P.drop h.drop hcw
  set S : Q3 := fun k => overFan P (fun p q r => turn P.plane.n.q p q r * ((p k + q k + r k) / 3)) /
        overFan P (turn P.plane.n.q) with hS
  have hSs : S = ∑ i ∈ range (P.count - 2), (turn P.plane.n.q (P.pt 0) (P.pt (i + 1)) (P.pt (i + 2)) /
      overFan P (turn P.plane.n.q)) • (fun k => (P.pt 0 k + P.pt (i + 1) k + P.pt (i + 2) k) / 3 : Q3) := by
    funext k
    rw [hS, Finset.sum_apply]
    simp only [Pi.smul_apply, smul_eq_mul]
    conv_lhs => rw [overFan, sum_div]
    apply sum_congr rfl
    intro i _
    ring
  have hmem : S ∈ P.region := by
    rw [hSs]
    apply Convex.sum_mem (convex_convexHull ℚ _)
    · intro i hi
      have := hcount i hi
      exact div_nonneg (h.ccw 0 (i + 1) (i + 2) (by omega) (by omega) (by omega)) hpos.le
    · rw [← sum_div]
      exact div_self hpos.ne'
    · intro i hi
      have hi' := hcount i hi
      have m : ∀ j, j < P.count → P.pt j ∈ convexHull ℚ {q | ∃ i, i < P.count ∧ q = P.pt i} :=
        fun j hj => subset_convexHull ℚ _ ⟨j, hj, rfl⟩
      have := (convex_convexHull ℚ {q | ∃ i, i < P.count ∧ q = P.pt i}).sum_mem (t := (Finset.univ : Finset (Fin 3)))
        (w := fun _ => 1 / 3) (z := ![P.pt 0, P.pt (i + 1), P.pt (i + 2)]) (fun _ _ => by norm_num)
        (by simp) (fun j _ => by
          fin_cases j
          · exact m 0 (by omega)
          · exact m (i + 1) (by omega)
          · exact m (i + 2) (by omega))
      convert this using 1
      funext k
      simp [Fin.sum_univ_three]
      ring
  have hSp : P.plane.side S = 0 := by
    have hlin : ∀ i, i + 2 < P.count → P.plane.n.q 0 * ((P.pt 0 0 + P.pt (i + 1) 0 + P.pt (i + 2) 0) / 3) +
        P.plane.n.q 1 * ((P.pt 0 1 + P.pt (i + 1) 1 + P.pt (i + 2) 1) / 3) +
        P.plane.n.q 2 * ((P.pt 0 2 + P.pt (i + 1) 2 + P.pt (i + 2) 2) / 3) = P.plane.d := by
      intro i hi
      have a1 := h.onPlane 0 (by omega)
      have a2 := h.onPlane (i + 1) (by omega)
      have a3 := h.onPlane (i + 2) (by omega)
      unfold HS3.side dotQ at a1 a2 a3
      linear_combination (a1 + a2 + a3) / 3
    unfold HS3.side dotQ
    rw [hS]
    simp only
    have : P.plane.n.q 0 * overFan P (fun p q r => turn P.plane.n.q p q r * ((p 0 + q 0 + r 0) / 3)) +
        P.plane.n.q 1 * overFan P (fun p q r => turn P.plane.n.q p q r * ((p 1 + q 1 + r 1) / 3)) +
        P.plane.n.q 2 * overFan P (fun p q r => turn P.plane.n.q p q r * ((p 2 + q 2 + r 2) / 3)) =
        P.plane.d * overFan P (turn P.plane.n.q) := by
      unfold overFan
      rw [mul_sum, mul_sum, mul_sum, mul_sum, ← sum_add_distrib, ← sum_add_distrib]
      apply sum_congr rfl
      intro i hi
      have := hlin i (hcount i hi)
      linear_combination turn P.plane.n.q (P.pt 0) (P.pt (i + 1)) (P.pt (i + 2)) * this
    have key : ∀ a b c A B C d T : ℚ, T ≠ 0 → a * A + b * B + c * C = d * T →
        a * (A / T) + b * (B / T) + c * (C / T) - d = 0 := by
      intro a b c A B C d T hT e
      field_simp
      linear_combination e
    exact key _ _ _ _ _ _ _ _ hpos.ne' this
  have hx : ∀ (H : HP3) (i : Fin 3), H.pt (i + 1) = (H.dropDimension i).pt 0 ∧ H.pt (i + 2) = (H.dropDimension i).pt 1 := by
    intro H i
    constructor <;> rfl
  have hcS : (P.plane.projectOntoPlane c P.drop).pt = S := by
    apply plane_ext P.plane h.drop w1 hSp
    · unfold px
      rw [(hx _ _).1, w2, e3]; rfl
    · unfold py
      rw [(hx _ _).2, w2, e3]; rfl
  refine ⟨P.plane.projectOntoPlane c P.drop, by unfold Polygon.centroid; rw [hc]; rfl, w0, fun k => ?_, ?_⟩
  · rw [hcS]
  · rw [hcS]; exact hmem

example : ∃ c, square.centroid = some c ∧ c.pt ∈ square.region :=
  (C32_centroid square square_convex square_w).imp fun _ h => ⟨h.1, h.2.2.2⟩

end Walnut.Props
