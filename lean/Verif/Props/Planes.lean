/-
Properties C23-C25: planes through points, sides of a plane, plane equality and
the orders of planes and lines used by containers.
-/
import Verif.Geom.QLemmas
import Verif.Props.Rotation
import Mathlib.Data.List.Lex

namespace Walnut.Props
open Walnut.Geom

/-! ### C23 -/

/-- `q - p` -/
def subQ (q p : Q3) : Q3 := fun i => q i - p i

/-- The orientation of four points: positive iff `q` is on the side of the plane
through `a`, `b`, `c` from which these are counter-clockwise. -/
def orient (a b c q : Q3) : ℚ := dotQ (crossQ (subQ b a) (subQ c a)) (subQ q a)

/-- C23: the plane through three integer points: its distance function is the
orientation determinant, so it vanishes at the three points and is positive on the
side from which the points are counter-clockwise. -/
theorem C23_of_points (p1 p2 p3 : V3) (q : Q3) :
    (HS3.ofPoints p1 p2 p3).side q = orient p1.q p2.q p3.q q := by
  simp [HS3.side_eq, HS3.ofPoints, orient, dotQ, subQ, V3.cross, V3.sub, V3.dot]
  ring

/-- C23: the plane through three homogeneous points is a positive multiple of it
(partial: `p2.w = -2^63` makes the code's `abs` undefined, see `C23_false`). -/
theorem C23_of_homo_points_partial (p1 p2 p3 : HP3) (h1 : p1.w ≠ 0) (h2 : p2.w ≠ 0) (h3 : p3.w ≠ 0)
    (hm : p2.w ≠ -2 ^ 63) :
    ∃ h, HS3.ofHomoPoints p1 p2 p3 = some h ∧
      ∃ k : ℚ, 0 < k ∧ ∀ q, h.side q = k * orient p1.pt p2.pt p3.pt q := by
  refine ⟨_, by unfold HS3.ofHomoPoints; rw [abs?_some hm]; rfl, ?_⟩
  have q1 : (p1.w : ℚ) ≠ 0 := by exact_mod_cast h1
  have q2 : (p2.w : ℚ) ≠ 0 := by exact_mod_cast h2
  have q3 : (p3.w : ℚ) ≠ 0 := by exact_mod_cast h3
  have e13 : ((p1.w : ℚ) * p3.w * absMult2 p1.w p3.w) = |(p1.w : ℚ) * p3.w| := by
    exact_mod_cast absMult2_mul_self h1 h3
  have e2 : (p2.w : ℚ) * absMult p2.w = |(p2.w : ℚ)| := by exact_mod_cast absMult_mul_self p2.w
  refine ⟨|(p1.w : ℚ) * p3.w| * |(p2.w : ℚ)| * |(p2.w : ℚ) * p2.w|, by positivity, fun q => ?_⟩
  rw [← e13, abs_mul_self]
  simp only [HS3.side_eq, orient, dotQ, V3.cross, V3.sub, V3.dot, V3.scale]
  push_cast
  rw [← e2]
  simp [subQ]
  field_simp
  ring

/-- C23 is false of the code for `p2.w = -2^63`. -/
theorem C23_false :
    HS3.ofHomoPoints ⟨⟨1, 0, 0⟩, 1⟩ ⟨⟨0, 0, 0⟩, -2 ^ 63⟩ ⟨⟨0, 1, 0⟩, 1⟩ = none := by decide

/-- C23: the plane with a given normal through a given point. -/
theorem C23_of_normal_point (n : V3) (p : HP3) (h : p.w ≠ 0) :
    ∃ k : ℚ, 0 < k ∧ ∀ q, (HS3.ofNormalPoint n p).side q = k * dotQ n.q (subQ q p.pt) := by
  have hq : (p.w : ℚ) ≠ 0 := by exact_mod_cast h
  refine ⟨|(p.w : ℚ)|, by positivity, fun q => ?_⟩
  simp only [HS3.side_eq, HS3.ofNormalPoint, V3.dot, V3.scale, dotQ, subQ]
  by_cases hw : p.w < 0
  · rw [if_pos hw]
    have : (p.w : ℚ) < 0 := by exact_mod_cast hw
    push_cast
    rw [abs_of_neg this]
    simp; field_simp; ring
  · rw [if_neg hw]
    have : (0 : ℚ) < p.w := by exact_mod_cast (by omega : 0 < p.w)
    push_cast
    rw [abs_of_pos this]
    simp; field_simp; ring

/-- C23: `Compare` is the sign of the distance. -/
theorem C23_compare (h : HS3) (v : V3) : SameSign (h.compare v) (h.side v.q) :=
  sameSign_cmp (k := 1) one_pos (by simp [HS3.side_eq, V3.dot])

/-- C23: `Compare` of a homogeneous point, with denominator of any sign. -/
theorem C23_compare_homo (h : HS3) (v : HP3) (hw : v.w ≠ 0) :
    SameSign (h.compareHomo v) (h.side v.pt) ∧ (h.isCoincident v = true ↔ h.side v.pt = 0) := by
  have hq : (v.w : ℚ) ≠ 0 := by exact_mod_cast hw
  have key : SameSign (h.compareHomo v) (h.side v.pt) :=
    sameSign_cmp_absMult hw (by simp [HS3.side_eq, V3.dot]; field_simp)
  exact ⟨key, by simp only [HS3.isCoincident, decide_eq_true_eq]; exact key.2.1⟩

/-- C23 in the plane: `HalfSpace2(p1, p2)` and its comparisons. -/
theorem C23_half_space2 (p1 p2 : V2) (q : Q2) : (HS2.ofPoints p1 p2).side q =
    cross2Q ![(p2.x : ℚ) - p1.x, (p2.y : ℚ) - p1.y] ![q 0 - p1.x, q 1 - p1.y] := by
  simp [HS2.side, HS2.ofPoints, cross2Q, V2.perp, V2.dot, V2.sub]; ring

theorem C23_compare2 (h : HS2) (v : V2) : SameSign (h.compare v) (h.side v.q) :=
  sameSign_cmp (k := 1) one_pos (by simp [HS2.side, V2.dot, V2.q])

theorem C23_compare_homo2 (h : HS2) (v : HP2) (hw : v.w ≠ 0) :
    SameSign (h.compareHomo v) (h.side v.pt) := by
  have hq : (v.w : ℚ) ≠ 0 := by exact_mod_cast hw
  exact sameSign_cmp_absMult hw (by simp [HS2.side, V2.dot, HP2.pt]; field_simp)

/-- C23: comparison of two parallel planes: the sign tells on which side of `h` the
points of `p` are, for normals pointing in the same direction. -/
theorem C23_compare_parallel (h p : HS3) (i : Fin 3) (k l : Int) (hk : 0 < k) (hl : 0 < l)
    (hp : h.n.scale k = p.n.scale l) (hi : p.n.comp i ≠ 0) (q : Q3) (hq : p.side q = 0) :
    SameSign (h.compareParallel p i) (-(h.side q)) := by
  obtain ⟨⟨nx, ny, nz⟩, d⟩ := h
  obtain ⟨⟨px, py, pz⟩, e⟩ := p
  simp only [V3.scale, V3.mk.injEq] at hp
  obtain ⟨e1, e2, e3⟩ := hp
  have kq : (0 : ℚ) < k := by exact_mod_cast hk
  have lq : (0 : ℚ) < l := by exact_mod_cast hl
  have f1 : (nx : ℚ) * k = px * l := by exact_mod_cast e1
  have f2 : (ny : ℚ) * k = py * l := by exact_mod_cast e2
  have f3 : (nz : ℚ) * k = pz * l := by exact_mod_cast e3
  simp only [HS3.side_eq] at hq ⊢
  refine sameSign_cmp_absMult hi ?_
  have hn : ((⟨nx, ny, nz⟩ : V3).comp i : ℚ) * k = (⟨px, py, pz⟩ : V3).comp i * l := by
    fin_cases i <;> assumption
  push_cast
  have : k * ((d : ℚ) * (⟨px, py, pz⟩ : V3).comp i - e * (⟨nx, ny, nz⟩ : V3).comp i) =
      k * ((⟨px, py, pz⟩ : V3).comp i * -((nx : ℚ) * q 0 + ny * q 1 + nz * q 2 - d)) := by
    linear_combination -e * hn + (⟨px, py, pz⟩ : V3).comp i * (q 0 * f1 + q 1 * f2 + q 2 * f3)
       + (⟨px, py, pz⟩ : V3).comp i * l * hq
  exact mul_left_cancel₀ kq.ne' this

example : ∃ h, HS3.ofHomoPoints ⟨⟨1, 0, 0⟩, -2⟩ ⟨⟨0, 0, 0⟩, 3⟩ ⟨⟨0, 1, 0⟩, 1⟩ = some h ∧
      ∃ k : ℚ, 0 < k ∧ ∀ q, h.side q = k * orient (HP3.pt ⟨⟨1, 0, 0⟩, -2⟩) (HP3.pt ⟨⟨0, 0, 0⟩, 3⟩)
        (HP3.pt ⟨⟨0, 1, 0⟩, 1⟩) q :=
  C23_of_homo_points_partial _ _ _ (by decide) (by decide) (by decide) (by norm_num)

/-! ### C24 -/

/-- No component is `-2^63`. -/
def NoMinPlane (h : HS3) : Prop := NoMin3 h.n ∧ h.d ≠ -2 ^ 63

theorem plane_vec_ne_zero {b : HS3} (h : b.n ≠ ⟨0, 0, 0⟩) :
    (![b.n.x, b.n.y, b.n.z, b.d] : Fin 4 → Int) ≠ 0 := by
  intro e
  apply h
  have h1 := congrFun e 0; have h2 := congrFun e 1; have h3 := congrFun e 2
  simp at h1 h2 h3
  ext <;> assumption

theorem forall_fin4 {P : Fin 4 → Prop} : (∀ i, P i) ↔ P 0 ∧ P 1 ∧ P 2 ∧ P 3 :=
  ⟨fun h => ⟨h 0, h 1, h 2, h 3⟩, fun ⟨a, b, c, d⟩ i => by fin_cases i <;> assumption⟩

theorem half_iff {a b : HS3} (ha : a.n ≠ ⟨0, 0, 0⟩) (hb : b.n ≠ ⟨0, 0, 0⟩) :
    (∃ k l : Int, 0 < k ∧ 0 < l ∧ a.Proportional b k l) ↔ ∀ q, 0 < a.side q ↔ 0 < b.side q := by
  constructor
  · rintro ⟨k, l, hk, hl, h⟩ q
    have kq : (0 : ℚ) < k := by exact_mod_cast hk
    have lq : (0 : ℚ) < l := by exact_mod_cast hl
    rw [← mul_pos_iff_of_pos_left kq, h.side, mul_pos_iff_of_pos_left lq]
  · intro h
    obtain ⟨h1, h2⟩ := proportional_of_half ha hb h
    exact ⟨_, _, V3.dot_self_pos hb, h1, h2⟩

theorem plane_iff {a b : HS3} (ha : a.n ≠ ⟨0, 0, 0⟩) (hb : b.n ≠ ⟨0, 0, 0⟩) :
    (∃ k l : Int, k ≠ 0 ∧ l ≠ 0 ∧ a.Proportional b k l) ↔ ∀ q, a.side q = 0 ↔ b.side q = 0 := by
  constructor
  · rintro ⟨k, l, hk, hl, h⟩ q
    have kq : (k : ℚ) ≠ 0 := by exact_mod_cast hk
    have lq : (l : ℚ) ≠ 0 := by exact_mod_cast hl
    have := h.side q
    constructor
    · intro h1
      rw [h1, mul_zero] at this
      exact (mul_eq_zero.mp this.symm).resolve_left lq
    · intro h1
      rw [h1, mul_zero] at this
      exact (mul_eq_zero.mp this).resolve_left kq
  · intro h
    obtain ⟨h1, h2⟩ := proportional_of_plane ha hb (fun q => (h q).mpr)
    exact ⟨_, _, (V3.dot_self_pos hb).ne', h1, h2⟩

/-- C24 (partial): `==` holds iff the two half-spaces contain the same points.
Missing: components `-2^63`, see `C24_eq_false`. -/
theorem C24_eq_partial (a b : HS3) (ha : a.n ≠ ⟨0, 0, 0⟩) (hb : b.n ≠ ⟨0, 0, 0⟩)
    (ma : NoMinPlane a) (mb : NoMinPlane b) :
    ∃ r, a.eq b = some r ∧ (r = true ↔ ∀ q, 0 < a.side q ↔ 0 < b.side q) := by
  have hg := plane_vec_ne_zero hb
  have key : ∀ {j : Fin 4} {p q : Int}, p ≠ 0 → ![a.n.x, a.n.y, a.n.z, a.d] j = p →
      ![b.n.x, b.n.y, b.n.z, b.d] j = q →
      ((a.n.x * |q| = b.n.x * |p| ∧ a.n.y * |q| = b.n.y * |p| ∧ a.n.z * |q| = b.n.z * |p| ∧
        a.d * |q| = b.d * |p|) ↔ ∀ q, 0 < a.side q ↔ 0 < b.side q) := by
    intro j p q hp h1 h2
    rw [← half_iff ha hb]
    have := scaled_eq hp h1 h2 hg
    simp only [forall_fin4] at this
    simpa [HS3.Proportional] using this
  unfold HS3.eq
  rw [abs?_some ma.2, abs?_some ma.1.1, abs?_some ma.1.2.1, abs?_some ma.1.2.2, abs?_some mb.2,
    abs?_some mb.1.1, abs?_some mb.1.2.1, abs?_some mb.1.2.2]
  by_cases hd : a.d = 0
  · by_cases hx : a.n.x = 0
    · by_cases hy : a.n.y = 0
      · have hz : a.n.z ≠ 0 := by
          intro hz; apply ha; ext <;> assumption
        refine ⟨_, by simp [hd, hx, hy]; rfl, ?_⟩
        rw [← key (j := 2) hz rfl rfl, hd, hx, hy]; simp
      · refine ⟨_, by simp [hd, hx, hy]; rfl, ?_⟩
        rw [← key (j := 1) hy rfl rfl, hd, hx]; simp [hy]
    · refine ⟨_, by simp [hd, hx]; rfl, ?_⟩
      rw [← key (j := 0) hx rfl rfl, hd]; simp [hx]
  · refine ⟨_, by simp [hd]; rfl, ?_⟩
    rw [← key (j := 3) hd rfl rfl]; simp

/-- C24: `==` is undefined when the compared components are `-2^63`. -/
theorem C24_eq_false : HS3.eq ⟨⟨1, 0, 0⟩, -2 ^ 63⟩ ⟨⟨1, 0, 0⟩, -2 ^ 63⟩ = none := by decide

/-- C24: `IsSameOrOpposite` holds iff the boundary planes contain the same points. -/
theorem C24_same_or_opposite (a b : HS3) (ha : a.n ≠ ⟨0, 0, 0⟩) (hb : b.n ≠ ⟨0, 0, 0⟩) :
    a.isSameOrOpposite b = true ↔ ∀ q, a.side q = 0 ↔ b.side q = 0 := by
  have hg := plane_vec_ne_zero hb
  have key : ∀ {j : Fin 4} {p q : Int}, p ≠ 0 → ![a.n.x, a.n.y, a.n.z, a.d] j = p →
      ![b.n.x, b.n.y, b.n.z, b.d] j = q →
      ((a.n.x * q = b.n.x * p ∧ a.n.y * q = b.n.y * p ∧ a.n.z * q = b.n.z * p ∧
        a.d * q = b.d * p) ↔ ∀ q, a.side q = 0 ↔ b.side q = 0) := by
    intro j p q hp h1 h2
    rw [← plane_iff ha hb]
    have := scaled_eq_signed hp h1 h2 hg
    simp only [forall_fin4] at this
    simpa [HS3.Proportional] using this
  unfold HS3.isSameOrOpposite
  by_cases hd : a.d = 0
  · by_cases hx : a.n.x = 0
    · by_cases hy : a.n.y = 0
      · have hz : a.n.z ≠ 0 := by
          intro hz; apply ha; ext <;> assumption
        rw [← key (j := 2) hz rfl rfl, hd, hx, hy]; simp
      · rw [← key (j := 1) hy rfl rfl, hd, hx]; simp [hy]
    · rw [← key (j := 0) hx rfl rfl, hd]; simp [hx]
  · rw [← key (j := 3) hd rfl rfl]; simp [hd]

/-- The sum of the components of the normal. -/
def compSum (h : HS3) : Int := h.n.x + h.n.y + h.n.z

/-- The plane's numbers divided by `|compSum|`. -/
def normalized (h : HS3) : List ℚ :=
  [(h.n.x : ℚ) / |(compSum h : ℚ)|, (h.n.y : ℚ) / |(compSum h : ℚ)|, (h.n.z : ℚ) / |(compSum h : ℚ)|,
   (h.d : ℚ) / |(compSum h : ℚ)|]

theorem lexCompare_lt : ∀ {as bs : List Int} {qs rs : List ℚ},
    List.Forall₂ (fun (p : Int × Int) (r : ℚ × ℚ) => (p.1 < p.2 ↔ r.1 < r.2) ∧ (p.2 < p.1 ↔ r.2 < r.1))
      (as.zip bs) (qs.zip rs) → as.length = bs.length → qs.length = rs.length →
    (lexCompare (lessThan false) as bs = true ↔ qs < rs) := by
  intro as
  induction as with
  | nil =>
    intro bs qs rs h h1 h2
    cases bs with
    | cons _ _ => simp at h1
    | nil =>
      cases qs with
      | nil => cases rs with
        | nil => simp [lexCompare]
        | cons _ _ => simp at h2
      | cons _ _ => cases rs with
        | nil => simp at h2
        | cons _ _ => simp at h
  | cons a as ih =>
    intro bs qs rs h h1 h2
    cases bs with
    | nil => simp at h1
    | cons b bs =>
      cases qs with
      | nil => simp at h
      | cons q qs =>
        cases rs with
        | nil => simp at h
        | cons r rs =>
          simp only [List.zip_cons_cons, List.forall₂_cons] at h
          have ih' := ih h.2 (by simpa using h1) (by simpa using h2)
          simp only [lexCompare, lessThan, List.cons_lt_cons_iff]
          obtain ⟨⟨h3, h4⟩, _⟩ := h
          rcases lt_trichotomy q r with hl | he | hg
          · simp [h3.mpr hl, hl]
          · have n1 : ¬ a < b := by rw [h3, he]; exact lt_irrefl _
            have n2 : ¬ b < a := by rw [h4, he]; exact lt_irrefl _
            simp only [n1, n2, decide_false, Bool.false_eq_true, if_false]
            rw [ih', he]
            simp
          · have n1 : ¬ a < b := by rw [h3]; exact hg.le.not_gt
            simp [n1, h4.mpr hg, hg.le.not_gt, hg.ne']

theorem lt_scaled {a b s t : Int} (hs : s ≠ 0) (ht : t ≠ 0) :
    a * |t| < b * |s| ↔ (a : ℚ) / |(s : ℚ)| < b / |(t : ℚ)| := by
  have hs' : (0 : ℚ) < |(s : ℚ)| := abs_pos.mpr (by exact_mod_cast hs)
  have ht' : (0 : ℚ) < |(t : ℚ)| := abs_pos.mpr (by exact_mod_cast ht)
  rw [div_lt_div_iff₀ hs' ht']
  exact_mod_cast Iff.rfl

/-- C24 (partial): on planes whose normal's components do not sum to zero,
`HalfSpace3Compare` is the lexicographic order of the normalized planes. -/
theorem C24_set_compare_partial (a b : HS3) (ha : compSum a ≠ 0) (hb : compSum b ≠ 0)
    (ma : compSum a ≠ -2 ^ 63) (mb : compSum b ≠ -2 ^ 63) :
    ∃ r, a.setCompare b = some r ∧ (r = true ↔ normalized a < normalized b) := by
  refine ⟨_, by
    unfold HS3.setCompare
    rw [show b.n.x + b.n.y + b.n.z = compSum b from rfl, show a.n.x + a.n.y + a.n.z = compSum a from rfl,
      abs?_some ma, abs?_some mb]; rfl, ?_⟩
  apply lexCompare_lt
  · simp only [normalized, List.zip_cons_cons, List.zip_nil_right, List.forall₂_cons,
      List.Forall₂.nil, and_true]
    exact ⟨⟨lt_scaled ha hb, lt_scaled hb ha⟩, ⟨lt_scaled ha hb, lt_scaled hb ha⟩,
      ⟨lt_scaled ha hb, lt_scaled hb ha⟩, lt_scaled ha hb, lt_scaled hb ha⟩
  · rfl
  · rfl

theorem compSum_ne {a : HS3} (ha : compSum a ≠ 0) : a.n ≠ ⟨0, 0, 0⟩ := by
  intro e; apply ha; unfold compSum; rw [e]; rfl

theorem normalized_eq_iff {a b : HS3} (ha : compSum a ≠ 0) (hb : compSum b ≠ 0) :
    normalized a = normalized b ↔ ∀ q, 0 < a.side q ↔ 0 < b.side q := by
  rw [← half_iff (compSum_ne ha) (compSum_ne hb)]
  have hs' : (|(compSum a : ℚ)|) ≠ 0 := abs_ne_zero.mpr (by exact_mod_cast ha)
  have ht' : (|(compSum b : ℚ)|) ≠ 0 := abs_ne_zero.mpr (by exact_mod_cast hb)
  simp only [normalized, List.cons.injEq, and_true, div_eq_div_iff hs' ht']
  constructor
  · rintro ⟨h1, h2, h3, h4⟩
    refine ⟨|compSum b|, |compSum a|, abs_pos.mpr hb, abs_pos.mpr ha, ?_⟩
    exact ⟨by exact_mod_cast h1, by exact_mod_cast h2, by exact_mod_cast h3, by exact_mod_cast h4⟩
  · rintro ⟨k, l, hk, hl, h1, h2, h3, h4⟩
    have hs : compSum a * k = compSum b * l := by
      unfold compSum; linear_combination h1 + h2 + h3
    have habs : |compSum a| * k = |compSum b| * l := by
      have h1 : |compSum a * k| = |compSum b * l| := by rw [hs]
      rwa [abs_mul, abs_mul, abs_of_pos hk, abs_of_pos hl] at h1
    have fin : ∀ {x y : Int}, x * k = y * l → x * |compSum b| = y * |compSum a| := by
      intro x y h
      have : l * (x * |compSum b|) = l * (y * |compSum a|) := by
        linear_combination |compSum a| * h - x * habs
      exact Int.eq_of_mul_eq_mul_left hl.ne' this
    exact ⟨by exact_mod_cast fin h1, by exact_mod_cast fin h2, by exact_mod_cast fin h3,
      by exact_mod_cast fin h4⟩

/-- C24 (partial): so on those planes it is a strict weak order whose equivalence
is equality of the half-spaces. -/
theorem C24_set_order_partial (a b c : HS3) (ha : compSum a ≠ 0) (hb : compSum b ≠ 0)
    (hc : compSum c ≠ 0) (ma : compSum a ≠ -2 ^ 63) (mb : compSum b ≠ -2 ^ 63)
    (mc : compSum c ≠ -2 ^ 63) :
    a.setCompare a = some false ∧
    (a.setCompare b = some true → b.setCompare a = some false) ∧
    (a.setCompare b = some true → b.setCompare c = some true → a.setCompare c = some true) ∧
    ((a.setCompare b = some false ∧ b.setCompare a = some false) ↔
      ∀ q, 0 < a.side q ↔ 0 < b.side q) := by
  have conv : ∀ x y : HS3, compSum x ≠ 0 → compSum y ≠ 0 → compSum x ≠ -2 ^ 63 →
      compSum y ≠ -2 ^ 63 → (x.setCompare y = some true ↔ normalized x < normalized y) ∧
      (x.setCompare y = some false ↔ ¬ normalized x < normalized y) := by
    intro x y h1 h2 h3 h4
    obtain ⟨r, h5, h6⟩ := C24_set_compare_partial x y h1 h2 h3 h4
    rw [h5, ← h6]
    cases r <;> simp
  have aa := conv a a ha ha ma ma
  have ab := conv a b ha hb ma mb
  have ba := conv b a hb ha mb ma
  have bc := conv b c hb hc mb mc
  have ac := conv a c ha hc ma mc
  rw [aa.2, ab.1, ba.2, bc.1, ac.1, ab.2, ← normalized_eq_iff ha hb]
  refine ⟨lt_irrefl _, fun h => lt_asymm h, fun h1 h2 => lt_trans h1 h2, ?_⟩
  constructor
  · rintro ⟨h1, h2⟩; exact le_antisymm (not_lt.mp h2) (not_lt.mp h1)
  · intro h; rw [h]; exact ⟨lt_irrefl _, lt_irrefl _⟩

/-- C24 is false of the code: planes whose normal's components sum to zero are
equivalent to each other although they differ; a `std::set` would merge them. -/
theorem C24_set_false :
    HS3.setCompare ⟨⟨1, -1, 0⟩, 0⟩ ⟨⟨1, -1, 0⟩, 5⟩ = some false ∧
    HS3.setCompare ⟨⟨1, -1, 0⟩, 5⟩ ⟨⟨1, -1, 0⟩, 0⟩ = some false ∧
    HS3.eq ⟨⟨1, -1, 0⟩, 0⟩ ⟨⟨1, -1, 0⟩, 5⟩ = some false ∧
    ¬ (0 < HS3.side ⟨⟨1, -1, 0⟩, 0⟩ ![3, 0, 0] ↔ 0 < HS3.side ⟨⟨1, -1, 0⟩, 5⟩ ![3, 0, 0]) := by
  refine ⟨by decide, by decide, by decide, ?_⟩
  norm_num [HS3.side_eq]

example : ∃ r, HS3.eq ⟨⟨2, -4, 0⟩, 6⟩ ⟨⟨3, -6, 0⟩, 9⟩ = some r ∧
    (r = true ↔ ∀ q, 0 < HS3.side ⟨⟨2, -4, 0⟩, 6⟩ q ↔ 0 < HS3.side ⟨⟨3, -6, 0⟩, 9⟩ q) :=
  C24_eq_partial _ _ (by decide) (by decide) (by norm_num [NoMinPlane, NoMin3])
    (by norm_num [NoMinPlane, NoMin3])
example : HS3.setCompare ⟨⟨2, -4, 0⟩, 6⟩ ⟨⟨3, -6, 0⟩, 10⟩ = some true ∧
    compSum ⟨⟨2, -4, 0⟩, 6⟩ ≠ 0 ∧ compSum ⟨⟨2, -4, 0⟩, 6⟩ ≠ -2 ^ 63 := by decide

/-! ### C25 -/

/-- The normals the comparison treats correctly: not pointing straight down. -/
def NotDown (h : HS2) : Prop := h.n.x ≠ 0 ∨ 0 < h.n.y

/-- The lines `n·q = d` contain the same points. -/
def SameLine (a b : HS2) : Prop := ∀ q, a.side q = 0 ↔ b.side q = 0

/-- A half-plane extended into space. -/
def lift2 (h : HS2) : HS3 := ⟨⟨h.n.x, h.n.y, 0⟩, h.d⟩

theorem sameLine_iff {a b : HS2} (ha : a.n ≠ ⟨0, 0⟩) (hb : b.n ≠ ⟨0, 0⟩) :
    SameLine a b ↔ ∃ k l : Int, k ≠ 0 ∧ l ≠ 0 ∧ a.n.x * k = b.n.x * l ∧ a.n.y * k = b.n.y * l ∧
      a.d * k = b.d * l := by
  have ha' : (lift2 a).n ≠ ⟨0, 0, 0⟩ := by
    intro e; apply ha; obtain ⟨⟨x, y⟩, d⟩ := a; simp_all [lift2]
  have hb' : (lift2 b).n ≠ ⟨0, 0, 0⟩ := by
    intro e; apply hb; obtain ⟨⟨x, y⟩, d⟩ := b; simp_all [lift2]
  have hs : ∀ (h : HS2) (q : Q3), (lift2 h).side q = h.side ![q 0, q 1] := by
    intro h q; simp [HS3.side_eq, HS2.side, lift2]
  have h1 : SameLine a b ↔ ∀ q, (lift2 a).side q = 0 ↔ (lift2 b).side q = 0 := by
    constructor
    · intro h q; rw [hs, hs]; exact h _
    · intro h q
      have := h ![q 0, q 1, 0]
      rw [hs, hs] at this
      have e : (![(![q 0, q 1, 0] : Q3) 0, (![q 0, q 1, 0] : Q3) 1] : Q2) = q := by
        funext i; fin_cases i <;> rfl
      rwa [e] at this
  rw [h1, ← plane_iff ha' hb']
  simp [HS3.Proportional, lift2]

/-- The offset of a line along an axis. -/
def offset (h : HS2) : ℚ := if h.n.x ≠ 0 then (h.d : ℚ) / h.n.x else (h.d : ℚ) / h.n.y

theorem offset_eq_iff {a b : HS2} (ha : a.n ≠ ⟨0, 0⟩) (hb : b.n ≠ ⟨0, 0⟩) (hp : Parallel2 a.n b.n) :
    offset a = offset b ↔ SameLine a b := by
  rw [sameLine_iff ha hb]
  obtain ⟨k, l, hk, hl, e⟩ := hp
  obtain ⟨⟨x, y⟩, d⟩ := a
  obtain ⟨⟨x', y'⟩, d'⟩ := b
  simp only [V2.scale, V2.mk.injEq] at e
  obtain ⟨e1, e2⟩ := e
  simp only [offset]
  have xz : x = 0 ↔ x' = 0 := by
    constructor
    · rintro rfl; simp at e1; exact e1.resolve_right hl
    · rintro rfl; simp at e1; exact e1.resolve_right hk
  by_cases hx : x = 0
  · have hx' := xz.mp hx
    have hy : y ≠ 0 := by rintro rfl; apply ha; rw [hx]
    have hy' : y' ≠ 0 := by rintro rfl; apply hb; rw [hx']
    rw [if_neg (by simpa using hx), if_neg (by simpa using hx'), div_eq_div_int hy hy']
    subst hx hx'
    constructor
    · intro h
      exact ⟨y', y, hy', hy, by ring, by ring, h⟩
    · rintro ⟨k, l, hk, hl, _, h2, h3⟩
      have : l * (d * y') = l * (d' * y) := by linear_combination y * h3 - d * h2
      exact Int.eq_of_mul_eq_mul_left hl this
  · have hx' : x' ≠ 0 := fun h => hx (xz.mpr h)
    rw [if_pos (by simpa using hx), if_pos (by simpa using hx'), div_eq_div_int hx hx']
    constructor
    · intro h
      refine ⟨x', x, hx', hx, by ring, ?_, h⟩
      have : l * (y * x') = l * (y' * x) := by linear_combination x * e2 - y * e1
      exact Int.eq_of_mul_eq_mul_left hl this
    · rintro ⟨k, l, hk, hl, h1, h2, h3⟩
      have : l * (d * x') = l * (d' * x) := by linear_combination x * h3 - d * h1
      exact Int.eq_of_mul_eq_mul_left hl this

/-- C25 (partial): on half-planes whose normal is not straight down the comparison
is by the angle of the boundary line, then by the line's offset. -/
theorem sideless_key (a b : HS2) (ha : a.n ≠ ⟨0, 0⟩) (hb : b.n ≠ ⟨0, 0⟩) (da : NotDown a)
    (db : NotDown b) : a.sidelessCompare b = true ↔
      (a.n.isHalfRotationLessThan b.n = true ∨ (Parallel2 a.n b.n ∧ offset a < offset b)) := by
  obtain ⟨_, _, hasym, hinc⟩ := C18_half_strict_weak_order a.n b.n b.n ha hb hb
  unfold HS2.sidelessCompare
  by_cases h1 : a.n.isHalfRotationLessThan b.n = true
  · simp [h1]
  rw [if_neg h1]
  by_cases h2 : b.n.isHalfRotationLessThan a.n = true
  · rw [if_pos h2]
    have hnp : ¬ Parallel2 a.n b.n := by rw [← hinc, h2]; simp
    simp [h1, hnp]
  rw [if_neg h2]
  have hp : Parallel2 a.n b.n := hinc.mp ⟨by simpa using h1, by simpa using h2⟩
  simp only [h1, hp, true_and, Bool.false_eq_true, false_or]
  obtain ⟨k, l, hk, hl, e⟩ := hp
  obtain ⟨⟨x, y⟩, d⟩ := a
  obtain ⟨⟨x', y'⟩, d'⟩ := b
  simp only [V2.scale, V2.mk.injEq] at e
  obtain ⟨e1, e2⟩ := e
  simp only [NotDown] at da db
  simp only [offset]
  have xz : x = 0 ↔ x' = 0 := by
    constructor
    · rintro rfl; simp at e1; exact e1.resolve_right hl
    · rintro rfl; simp at e1; exact e1.resolve_right hk
  by_cases hx : x = 0
  · have hx' := xz.mp hx
    have hy : 0 < y := da.resolve_left (by simpa using hx)
    have hy' : 0 < y' := db.resolve_left (by simpa using hx')
    have hnd : hasDifferentSign y x' = false := by
      rw [Bool.eq_false_iff, Ne, hasDifferentSign_iff]; simp; omega
    rw [hx'] at hnd
    simp only [hnd, hx, hx', ne_eq, not_true, if_false]
    rw [div_lt_div_signs hy.ne' hy'.ne', if_pos (by omega), lessThan_iff]
    simp
  · have hx' : x' ≠ 0 := fun h => hx (xz.mpr h)
    simp only [hx, hx', ne_eq, not_false_eq_true, if_true]
    rw [div_lt_div_signs hx hx', lessThan_iff]
    have := hasDifferentSign_iff x x'
    by_cases h : (x < 0 ↔ x' < 0)
    · rw [if_pos h, if_neg (by rw [this]; simpa using h)]
    · rw [if_neg h, if_pos (this.mpr h)]

/-- C25 (partial): on half-planes whose normal does not point straight down, the
comparison is a strict weak order whose equivalence is having the same boundary
line.  Missing: normals straight down, see `C25_false`. -/
theorem C25_order_partial (a b c : HS2) (ha : a.n ≠ ⟨0, 0⟩) (hb : b.n ≠ ⟨0, 0⟩)
    (hc : c.n ≠ ⟨0, 0⟩) (da : NotDown a) (db : NotDown b) (dc : NotDown c) :
    a.sidelessCompare a = false ∧
    (a.sidelessCompare b = true → b.sidelessCompare a = false) ∧
    (a.sidelessCompare b = true → b.sidelessCompare c = true → a.sidelessCompare c = true) ∧
    ((a.sidelessCompare b = false ∧ b.sidelessCompare a = false) ↔ SameLine a b) := by
  obtain ⟨r, α, hr, a0, a1, pa⟩ := exists_half_polar a.n ha
  obtain ⟨s, β, hs, b0, b1, pb⟩ := exists_half_polar b.n hb
  obtain ⟨t, γ, ht, c0, c1, pc⟩ := exists_half_polar c.n hc
  have key : ∀ (x y : HS2) (r s α β : ℝ), x.n ≠ ⟨0, 0⟩ → y.n ≠ ⟨0, 0⟩ → NotDown x → NotDown y →
      r ≠ 0 → s ≠ 0 → Polar x.n r α → Polar y.n s β → (0 ≤ α ∧ α < Real.pi) → (0 ≤ β ∧ β < Real.pi) →
      ((x.sidelessCompare y = true ↔ (α < β ∨ (α = β ∧ offset x < offset y))) ∧
       (Parallel2 x.n y.n ↔ α = β)) := by
    intro x y r s α β hx hy dx dy hr hs px py hα hβ
    have h1 := C18_half_rotation x.n y.n r s α β hr hs px py hα hβ
    have h2 := C18_half_rotation y.n x.n s r β α hs hr py px hβ hα
    obtain ⟨_, _, _, hinc⟩ := C18_half_strict_weak_order x.n y.n y.n hx hy hy
    have h3 : Parallel2 x.n y.n ↔ α = β := by
      rw [← hinc, Bool.eq_false_iff, Bool.eq_false_iff, Ne, Ne, h1, h2]
      constructor
      · rintro ⟨u, v⟩; linarith
      · rintro rfl; simp
    exact ⟨by rw [sideless_key x y hx hy dx dy, h1, h3], h3⟩
  have aa := (key a a r r α α ha ha da da hr hr pa pa ⟨a0, a1⟩ ⟨a0, a1⟩).1
  obtain ⟨ab, pab⟩ := key a b r s α β ha hb da db hr hs pa pb ⟨a0, a1⟩ ⟨b0, b1⟩
  have ba := (key b a s r β α hb ha db da hs hr pb pa ⟨b0, b1⟩ ⟨a0, a1⟩).1
  have bc := (key b c s t β γ hb hc db dc hs ht pb pc ⟨b0, b1⟩ ⟨c0, c1⟩).1
  have ac := (key a c r t α γ ha hc da dc hr ht pa pc ⟨a0, a1⟩ ⟨c0, c1⟩).1
  refine ⟨?_, ?_, ?_, ?_⟩
  · rw [Bool.eq_false_iff, Ne, aa]; simp
  · rw [ab, Bool.eq_false_iff, Ne, ba]
    rintro (h | ⟨h, h'⟩) (h2 | ⟨h2, h2'⟩) <;> linarith
  · rw [ab, bc, ac]
    rintro (h | ⟨h, h'⟩) (h2 | ⟨h2, h2'⟩)
    · left; linarith
    · left; linarith
    · left; linarith
    · right; exact ⟨by linarith, by linarith⟩
  · rw [Bool.eq_false_iff, Bool.eq_false_iff, Ne, Ne, ab, ba]
    constructor
    · rintro ⟨h1, h2⟩
      have hab : α = β := by
        rcases lt_trichotomy α β with h | h | h
        · exact absurd (Or.inl h) h1
        · exact h
        · exact absurd (Or.inl h) h2
      rw [← offset_eq_iff ha hb (pab.mpr hab)]
      rcases lt_trichotomy (offset a) (offset b) with h | h | h
      · exact absurd (Or.inr ⟨hab, h⟩) h1
      · exact h
      · exact absurd (Or.inr ⟨hab.symm, h⟩) h2
    · intro h
      have hp : Parallel2 a.n b.n := by
        obtain ⟨k, l, hk, hl, h1, h2, _⟩ := (sameLine_iff ha hb).mp h
        exact ⟨k, l, hk, hl, by simp [V2.scale, h1, h2]⟩
      have e := (offset_eq_iff ha hb hp).mpr h
      rw [e, pab.mp hp]
      simp

/-- C25 is false of the code: different lines with normals of opposite vertical
direction are equivalent, and two half-planes can each be below the other. -/
theorem C25_false :
    (HS2.sidelessCompare ⟨⟨0, 1⟩, 1⟩ ⟨⟨0, -1⟩, -2⟩ = false ∧
     HS2.sidelessCompare ⟨⟨0, -1⟩, -2⟩ ⟨⟨0, 1⟩, 1⟩ = false ∧
     ¬ SameLine ⟨⟨0, 1⟩, 1⟩ ⟨⟨0, -1⟩, -2⟩) ∧
    (HS2.sidelessCompare ⟨⟨0, 1⟩, 2⟩ ⟨⟨0, -1⟩, -1⟩ = true ∧
     HS2.sidelessCompare ⟨⟨0, -1⟩, -1⟩ ⟨⟨0, 1⟩, 2⟩ = true) := by
  refine ⟨⟨by decide, by decide, ?_⟩, by decide, by decide⟩
  intro h
  have := h ![0, 1]
  norm_num [HS2.side] at this

/-- C25: `HasSameLine` is right for all nonzero normals. -/
theorem C25_has_same_line (a b : HS2) (ha : a.n ≠ ⟨0, 0⟩) (hb : b.n ≠ ⟨0, 0⟩) :
    a.hasSameLine b = true ↔ SameLine a b := by
  rw [sameLine_iff ha hb]
  have hg : (![b.n.x, b.n.y, b.d] : Fin 3 → Int) ≠ 0 := by
    intro e
    apply hb
    have h1 := congrFun e 0; have h2 := congrFun e 1
    simp at h1 h2
    obtain ⟨⟨x, y⟩, d⟩ := b
    simp_all
  have key : ∀ {j : Fin 3} {p q : Int}, p ≠ 0 → ![a.n.x, a.n.y, a.d] j = p →
      ![b.n.x, b.n.y, b.d] j = q →
      ((a.n.x * q = b.n.x * p ∧ a.n.y * q = b.n.y * p ∧ a.d * q = b.d * p) ↔
       ∃ k l : Int, k ≠ 0 ∧ l ≠ 0 ∧ a.n.x * k = b.n.x * l ∧ a.n.y * k = b.n.y * l ∧
      a.d * k = b.d * l) := by
    intro j p q hp h1 h2
    have := scaled_eq_signed hp h1 h2 hg
    simp only [forall_fin3] at this
    simpa using this
  unfold HS2.hasSameLine
  by_cases hd : a.d = 0
  · by_cases hx : a.n.x = 0
    · have hy : a.n.y ≠ 0 := by
        intro hy; apply ha; obtain ⟨⟨x, y⟩, d⟩ := a; simp_all
      rw [← key (j := 1) hy rfl rfl, hd, hx]; simp
    · rw [← key (j := 0) hx rfl rfl, hd]; simp [hx]
  · rw [← key (j := 2) hd rfl rfl]; simp [hd]

example : NotDown ⟨⟨0, 2⟩, 3⟩ ∧ HS2.sidelessCompare ⟨⟨0, 2⟩, 3⟩ ⟨⟨0, 1⟩, 3⟩ = true := by
  constructor
  · right; decide
  · decide

end Walnut.Props
