/-
Properties C27 and C28: bounding boxes and the R transformation.
-/
import Verif.Geom.QLemmas

namespace Walnut.Props
open Walnut.Geom

/-! ### C27 -/

/-- The points of the box: each coordinate between `lo / den` and `hi / den`. -/
def InBox (b : AABB) (q : Q3) : Prop :=
  ∀ i, (b.lo.comp i : ℚ) / b.den ≤ q i ∧ q i ≤ (b.hi.comp i : ℚ) / b.den

/-- Some coordinate is one of the box's extremes. -/
def OnBoxBorder (b : AABB) (q : Q3) : Prop :=
  InBox b q ∧ ∃ i, q i = (b.lo.comp i : ℚ) / b.den ∨ q i = (b.hi.comp i : ℚ) / b.den

theorem all_fin3 {f : Fin 3 → Bool} : [0, 1, 2].all f = true ↔ ∀ i, f i = true := by
  simp [Fin.forall_fin_succ]
theorem any_fin3 {f : Fin 3 → Bool} : [0, 1, 2].any f = true ↔ ∃ i, f i = true := by
  simp [Fin.exists_fin_succ]

/-- C27: a box built with a denominator of any sign has a positive one and the
extremes it was built with. -/
theorem C27_make (lo hi : V3) (den : Int) (h : den ≠ 0) :
    0 < (AABB.make lo hi den).den ∧
    (∀ q, InBox (AABB.make lo hi den) q ↔
      ∀ i, (lo.comp i : ℚ) / den ≤ q i ∧ q i ≤ (hi.comp i : ℚ) / den) := by
  unfold AABB.make
  split
  · rename_i hneg
    refine ⟨by show 0 < -den; omega, fun q => ?_⟩
    have e : ∀ (v : V3) (i : Fin 3), ((v.neg.comp i : Int) : ℚ) / ((-den : Int) : ℚ) = (v.comp i : ℚ) / den := by
      intro v i
      have : v.neg.comp i = -v.comp i := by fin_cases i <;> rfl
      rw [this]; push_cast; rw [neg_div_neg_eq]
    simp only [InBox, e]
  · exact ⟨by show 0 < den; omega, fun q => Iff.rfl⟩

/-- C27: `IsInside` of a homogeneous point with denominator of any sign. -/
theorem C27_is_inside (b : AABB) (hb : 0 < b.den) (p : HP3) (hp : p.w ≠ 0) :
    b.isInside p = true ↔ InBox b p.pt := by
  unfold AABB.isInside InBox
  simp only [all_fin3, Bool.and_eq_true, Bool.not_eq_true', Bool.eq_false_iff, Ne, lessThan_iff,
    decide_eq_true_eq]
  refine forall_congr' fun i => ?_
  have h1 := div_lt_div_signs (a := p.v.comp i) (c := b.lo.comp i) hp hb.ne'
  have h2 := div_lt_div_signs (a := b.hi.comp i) (c := p.v.comp i) hb.ne' hp
  rw [← not_lt, ← not_lt]
  simp only [HP3.pt]
  rw [h1, h2]
  have hbn : ¬ b.den < 0 := by omega
  by_cases hw : p.w < 0 <;> simp [hw, hbn]

/-- C27: `IsInside` of a point with integer coordinates. -/
theorem C27_is_inside_point (b : AABB) (hb : 0 < b.den) (p : V3) :
    b.isInsidePoint p = true ↔ InBox b p.q := by
  unfold AABB.isInsidePoint InBox
  have hq : (0 : ℚ) < b.den := by exact_mod_cast hb
  simp only [all_fin3, Bool.not_eq_true', Bool.or_eq_false_iff, decide_eq_false_iff_not, not_lt, gt_iff_lt]
  refine forall_congr' fun i => ?_
  simp only [V3.q]
  rw [div_le_iff₀ hq, le_div_iff₀ hq]
  exact_mod_cast Iff.rfl

/-- C27: `IsOnBorder`. -/
theorem C27_is_on_border (b : AABB) (hb : 0 < b.den) (p : HP3) (hp : p.w ≠ 0) :
    b.isOnBorder p = true ↔ OnBoxBorder b p.pt := by
  unfold AABB.isOnBorder OnBoxBorder
  rw [Bool.and_eq_true, C27_is_inside b hb p hp, any_fin3]
  refine and_congr_right fun _ => exists_congr fun i => ?_
  simp only [Bool.or_eq_true, decide_eq_true_eq, HP3.pt]
  rw [div_eq_div_int hp hb.ne', div_eq_div_int hp hb.ne']

/-- The box has points. -/
def NonemptyBox (b : AABB) : Prop := ∀ i, b.lo.comp i ≤ b.hi.comp i

/-- C27: the default box is empty. -/
theorem C27_empty (q : Q3) : ¬ InBox AABB.empty q := by
  intro h
  have h0 := h 0
  simp only [AABB.empty, V3.comp] at h0
  norm_num at h0
  linarith

theorem extreme_term {n lo hi : Int} {q D : ℚ} (hD : 0 < D) (h1 : (lo : ℚ) / D ≤ q) (h2 : q ≤ (hi : ℚ) / D) :
    (((if 0 < n then lo else hi) * n : Int) : ℚ) ≤ n * q * D ∧
    (n * q * D : ℚ) ≤ (((if 0 < n then hi else lo) * n : Int) : ℚ) := by
  rw [div_le_iff₀ hD] at h1
  rw [le_div_iff₀ hD] at h2
  split
  · rename_i hn
    have : (0 : ℚ) < n := by exact_mod_cast hn
    push_cast
    constructor <;> nlinarith
  · rename_i hn
    have : (n : ℚ) ≤ 0 := by exact_mod_cast not_lt.mp hn
    push_cast
    constructor <;> nlinarith

/-- C27: `GetPlaneSide` of a nonempty box: 1 iff all its points are strictly inside
the half-space, -1 iff all are strictly outside, otherwise 0. -/
theorem C27_plane_side (b : AABB) (hb : 0 < b.den) (hne : NonemptyBox b) (h : HS3) :
    (b.getPlaneSide h = 1 ↔ ∀ q, InBox b q → 0 < h.side q) ∧
    (b.getPlaneSide h = -1 ↔ ∀ q, InBox b q → h.side q < 0) ∧
    (b.getPlaneSide h = 1 ∨ b.getPlaneSide h = -1 ∨ b.getPlaneSide h = 0) := by
  have hD : (0 : ℚ) < b.den := by exact_mod_cast hb
  have ham : absMult b.den = 1 := by unfold absMult; rw [if_neg (by omega)]
  obtain ⟨mn, hmn⟩ : ∃ mn, mn = (if 0 < h.n.x then b.lo.x else b.hi.x) * h.n.x +
    (if 0 < h.n.y then b.lo.y else b.hi.y) * h.n.y + (if 0 < h.n.z then b.lo.z else b.hi.z) * h.n.z :=
    ⟨_, rfl⟩
  obtain ⟨mx, hmx⟩ : ∃ mx, mx = (if 0 < h.n.x then b.hi.x else b.lo.x) * h.n.x +
    (if 0 < h.n.y then b.hi.y else b.lo.y) * h.n.y + (if 0 < h.n.z then b.hi.z else b.lo.z) * h.n.z :=
    ⟨_, rfl⟩
  have hx : b.lo.x ≤ b.hi.x := hne 0
  have hy : b.lo.y ≤ b.hi.y := hne 1
  have hz : b.lo.z ≤ b.hi.z := hne 2
  have hxq : (b.lo.x : ℚ) ≤ b.hi.x := by exact_mod_cast hx
  have hyq : (b.lo.y : ℚ) ≤ b.hi.y := by exact_mod_cast hy
  have hzq : (b.lo.z : ℚ) ≤ b.hi.z := by exact_mod_cast hz
  -- bounds of the plane function on the box
  have bound : ∀ q, InBox b q → (mn : ℚ) - h.d * b.den ≤ h.side q * b.den ∧
      h.side q * b.den ≤ (mx : ℚ) - h.d * b.den := by
    intro q hq
    obtain ⟨x1, x2⟩ := extreme_term (n := h.n.x) hD (hq 0).1 (hq 0).2
    obtain ⟨y1, y2⟩ := extreme_term (n := h.n.y) hD (hq 1).1 (hq 1).2
    obtain ⟨z1, z2⟩ := extreme_term (n := h.n.z) hD (hq 2).1 (hq 2).2
    simp only [V3.comp] at x1 x2 y1 y2 z1 z2
    rw [HS3.side_eq, hmn, hmx]
    push_cast at *
    constructor <;> linarith
  -- and they are attained
  have inb : ∀ c : V3, (c.x = b.lo.x ∨ c.x = b.hi.x) → (c.y = b.lo.y ∨ c.y = b.hi.y) →
      (c.z = b.lo.z ∨ c.z = b.hi.z) → InBox b (fun i => (c.comp i : ℚ) / b.den) := by
    intro c cx cy cz i
    fin_cases i
    · simp only [V3.comp, div_le_div_iff_of_pos_right hD]
      rcases cx with e | e <;> rw [e] <;> constructor <;> first | exact le_refl _ | exact hxq
    · simp only [V3.comp, div_le_div_iff_of_pos_right hD]
      rcases cy with e | e <;> rw [e] <;> constructor <;> first | exact le_refl _ | exact hyq
    · simp only [V3.comp, div_le_div_iff_of_pos_right hD]
      rcases cz with e | e <;> rw [e] <;> constructor <;> first | exact le_refl _ | exact hzq
  have att : ∀ c : V3, h.side (fun i => (c.comp i : ℚ) / b.den) * b.den =
      ((c.x * h.n.x + c.y * h.n.y + c.z * h.n.z : Int) : ℚ) - h.d * b.den := by
    intro c
    rw [HS3.side_eq]
    simp only [V3.comp]
    push_cast
    field_simp
  have amn : ∃ q, InBox b q ∧ h.side q * b.den = mn - h.d * b.den := by
    refine ⟨_, inb ⟨if 0 < h.n.x then b.lo.x else b.hi.x, if 0 < h.n.y then b.lo.y else b.hi.y,
      if 0 < h.n.z then b.lo.z else b.hi.z⟩ ?_ ?_ ?_, by rw [att, hmn]⟩ <;> dsimp only <;> split <;> simp
  have amx : ∃ q, InBox b q ∧ h.side q * b.den = mx - h.d * b.den := by
    refine ⟨_, inb ⟨if 0 < h.n.x then b.hi.x else b.lo.x, if 0 < h.n.y then b.hi.y else b.lo.y,
      if 0 < h.n.z then b.hi.z else b.lo.z⟩ ?_ ?_ ?_, by rw [att, hmx]⟩ <;> dsimp only <;> split <;> simp
  have pos_iff : (∀ q, InBox b q → 0 < h.side q) ↔ h.d * b.den < mn := by
    constructor
    · intro hall
      obtain ⟨q, hq, e⟩ := amn
      have := mul_pos (hall q hq) hD
      rw [e] at this
      have : (h.d : ℚ) * b.den < mn := by linarith
      exact_mod_cast this
    · intro hlt q hq
      have : (h.d : ℚ) * b.den < mn := by exact_mod_cast hlt
      exact (pos_iff_pos_of_mul_pos (by linarith [(bound q hq).1] : 0 < h.side q * b.den)).mpr hD
  have neg_iff : (∀ q, InBox b q → h.side q < 0) ↔ mx < h.d * b.den := by
    constructor
    · intro hall
      obtain ⟨q, hq, e⟩ := amx
      have := mul_neg_of_neg_of_pos (hall q hq) hD
      rw [e] at this
      have : (mx : ℚ) < h.d * b.den := by linarith
      exact_mod_cast this
    · intro hlt q hq
      have : (mx : ℚ) < h.d * b.den := by exact_mod_cast hlt
      by_contra hc
      have := mul_nonneg (not_lt.mp hc) hD.le
      linarith [(bound q hq).2]
  have hle : mn ≤ mx := by
    obtain ⟨q, hq, e⟩ := amn
    have := (bound q hq).2
    rw [e] at this
    have : (mn : ℚ) ≤ mx := by linarith
    exact_mod_cast this
  rw [pos_iff, neg_iff]
  unfold AABB.getPlaneSide
  simp only [← hmn, ← hmx, ham, mul_one, gt_iff_lt, cmp_pos_iff, cmp_neg_iff]
  by_cases c1 : h.d * b.den < mn
  · rw [if_pos c1]
    refine ⟨by simp [c1], ?_, by simp⟩
    constructor
    · intro h; norm_num at h
    · intro h; omega
  · rw [if_neg c1]
    by_cases c2 : mx < h.d * b.den
    · rw [if_pos c2]
      refine ⟨?_, by simp [c2], by simp⟩
      constructor
      · intro h; norm_num at h
      · intro h; exact absurd h c1
    · rw [if_neg c2]
      simp [c1, c2]

/-- C27: `==` of nonempty boxes holds iff they contain the same points. -/
theorem C27_eq (a b : AABB) (ha : 0 < a.den) (hb : 0 < b.den) (na : NonemptyBox a)
    (nb : NonemptyBox b) : a.eq b = true ↔ ∀ q, InBox a q ↔ InBox b q := by
  have haq : (0 : ℚ) < a.den := by exact_mod_cast ha
  have hbq : (0 : ℚ) < b.den := by exact_mod_cast hb
  have h1 : a.eq b = true ↔ ∀ i, (a.lo.comp i : ℚ) / a.den = (b.lo.comp i : ℚ) / b.den ∧
      (a.hi.comp i : ℚ) / a.den = (b.hi.comp i : ℚ) / b.den := by
    unfold AABB.eq
    simp only [Bool.and_eq_true, decide_eq_true_eq, div_eq_div_int ha.ne' hb.ne', V3.ext_iff, V3.scale,
      Fin.forall_fin_succ, V3.comp]
    simp
    constructor
    · rintro ⟨⟨a1, a2, a3⟩, b1, b2, b3⟩; exact ⟨⟨a1, b1⟩, ⟨a2, b2⟩, a3, b3⟩
    · rintro ⟨⟨a1, b1⟩, ⟨a2, b2⟩, a3, b3⟩; exact ⟨⟨a1, a2, a3⟩, b1, b2, b3⟩
  rw [h1]
  have lo_in : ∀ c : AABB, 0 < c.den → NonemptyBox c → InBox c (fun i => (c.lo.comp i : ℚ) / c.den) ∧
      InBox c (fun i => (c.hi.comp i : ℚ) / c.den) := by
    intro c hc nc
    have hcq : (0 : ℚ) < c.den := by exact_mod_cast hc
    have hle : ∀ i, (c.lo.comp i : ℚ) / c.den ≤ (c.hi.comp i : ℚ) / c.den := by
      intro i
      rw [div_le_div_iff_of_pos_right hcq]
      exact_mod_cast nc i
    exact ⟨fun i => ⟨le_refl _, hle i⟩, fun i => ⟨hle i, le_refl _⟩⟩
  constructor
  · intro h q
    simp only [InBox, fun i => (h i).1, fun i => (h i).2]
  · intro h i
    have a1 := (h _).mp (lo_in a ha na).1 i
    have a2 := (h _).mp (lo_in a ha na).2 i
    have b1 := (h _).mpr (lo_in b hb nb).1 i
    have b2 := (h _).mpr (lo_in b hb nb).2 i
    exact ⟨le_antisymm b1.1 a1.1, le_antisymm a2.2 b2.2⟩

example : InBox ⟨⟨0, 0, 0⟩, ⟨1, 2, 3⟩, 2⟩ ![1 / 2, 1, 1] ∧ NonemptyBox ⟨⟨0, 0, 0⟩, ⟨1, 2, 3⟩, 2⟩ ∧
    AABB.getPlaneSide ⟨⟨0, 0, 0⟩, ⟨1, 2, 3⟩, 2⟩ ⟨⟨1, 1, 1⟩, -1⟩ = 1 := by
  refine ⟨?_, ?_, by decide⟩
  · intro i; fin_cases i <;> norm_num [V3.comp]
  · intro i; fin_cases i <;> norm_num [V3.comp]

/-! ### C28 -/

/-- The R transformation of space for a given `ε`. -/
def R (ε : ℚ) (q : Q3) : Q3 := ![q 0, q 1, q 2 + ε * q 1 + ε ^ 2 * q 0]

/-- C28: `RTransform` with argument `1/ε` is this transformation. -/
theorem C28_r_transform (p : HP3) (e : Int) (he : e ≠ 0) (hw : p.w ≠ 0) :
    (rTransform p e).pt = R (1 / e) p.pt := by
  have heq : (e : ℚ) ≠ 0 := by exact_mod_cast he
  have hwq : (p.w : ℚ) ≠ 0 := by exact_mod_cast hw
  apply q3_ext
  · simp [rTransform, R]; field_simp
  · simp [rTransform, R]; field_simp
  · simp [rTransform, R]; field_simp

/-- A quadratic in `ε` takes the sign of its first nonzero coefficient for small
positive `ε`. -/
theorem small_sign (a b c : ℚ) : ∃ δ : ℚ, 0 < δ ∧ ∀ ε, 0 < ε → ε < δ →
    (0 < a → 0 < a + ε * b + ε ^ 2 * c) := by
  by_cases ha : 0 < a
  · refine ⟨min 1 (a / (|b| + |c| + 1)), lt_min one_pos (div_pos ha (by positivity)), ?_⟩
    intro ε h0 h1 _
    have h2 : ε < 1 := lt_of_lt_of_le h1 (min_le_left _ _)
    have h3 : ε < a / (|b| + |c| + 1) := lt_of_lt_of_le h1 (min_le_right _ _)
    have hp : (0 : ℚ) < |b| + |c| + 1 := by positivity
    rw [lt_div_iff₀ hp] at h3
    have hb := neg_abs_le b
    have hc := neg_abs_le c
    have e1 : ε * -|b| ≤ ε * b := mul_le_mul_of_nonneg_left hb h0.le
    have e2 : ε ^ 2 * -|c| ≤ ε ^ 2 * c := mul_le_mul_of_nonneg_left hc (by positivity)
    have e3 : ε ^ 2 * |c| ≤ ε * |c| := by
      have : ε ^ 2 ≤ ε := by nlinarith
      exact mul_le_mul_of_nonneg_right this (abs_nonneg c)
    nlinarith
  · exact ⟨1, one_pos, fun _ _ _ h => absurd h ha⟩

/-- C28: for all small enough positive `ε`, the xy turn from `u` to `v` after the R
transformation has the sign of `RXYCompareBivector(u, v)`; here `u'` and `v'` are the
transformed plane normals: the linear functionals satisfy `u' · R q = u · q`. -/
theorem C28_bivector (u v : V3) : ∃ δ : ℚ, 0 < δ ∧ ∀ ε, 0 < ε → ε < δ → ∀ u' v' : Q3,
    (∀ q, dotQ u' (R ε q) = dotQ u.q q) → (∀ q, dotQ v' (R ε q) = dotQ v.q q) →
    SameSign (rxyCompareBivector u v) (u' 0 * v' 1 - u' 1 * v' 0) := by
  obtain ⟨a, ha⟩ : ∃ a : ℚ, a = (u.x : ℚ) * v.y - u.y * v.x := ⟨_, rfl⟩
  obtain ⟨b, hb⟩ : ∃ b : ℚ, b = (u.z : ℚ) * v.x - u.x * v.z := ⟨_, rfl⟩
  obtain ⟨c, hc⟩ : ∃ c : ℚ, c = (u.y : ℚ) * v.z - u.z * v.y := ⟨_, rfl⟩
  have form : ∀ ε, ∀ u' v' : Q3, (∀ q, dotQ u' (R ε q) = dotQ u.q q) →
      (∀ q, dotQ v' (R ε q) = dotQ v.q q) →
      u' 0 * v' 1 - u' 1 * v' 0 = a + ε * b + ε ^ 2 * c := by
    intro ε u' v' hu hv
    have ux := hu ![1, 0, 0]; have uy := hu ![0, 1, 0]; have uz := hu ![0, 0, 1]
    have vx := hv ![1, 0, 0]; have vy := hv ![0, 1, 0]; have vz := hv ![0, 0, 1]
    simp [dotQ, R] at ux uy uz vx vy vz
    have e1 : u' 0 = u.x - u.z * ε ^ 2 := by rw [← uz]; linarith
    have e2 : u' 1 = u.y - u.z * ε := by rw [← uz]; linarith
    have e3 : v' 0 = v.x - v.z * ε ^ 2 := by rw [← vz]; linarith
    have e4 : v' 1 = v.y - v.z * ε := by rw [← vz]; linarith
    rw [e1, e2, e3, e4, ha, hb, hc]; ring
  have ss : ∀ {s : Int} {t : ℚ}, (0 < s ∧ 0 < t) ∨ (s < 0 ∧ t < 0) ∨ (s = 0 ∧ t = 0) → SameSign s t := by
    rintro s t (⟨h1, h2⟩ | ⟨h1, h2⟩ | ⟨h1, h2⟩)
    · exact ⟨⟨fun h => by omega, fun h => by linarith⟩, ⟨fun h => by omega, fun h => by linarith⟩,
        fun _ => h2, fun _ => h1⟩
    · exact ⟨⟨fun _ => h2, fun _ => h1⟩, ⟨fun h => by omega, fun h => by linarith⟩,
        fun h => by omega, fun h => by linarith⟩
    · subst h1 h2; exact ⟨by simp, by simp, by simp⟩
  have ca := sameSign_cmp (a := u.x * v.y) (b := u.y * v.x) (t := a) (k := 1) one_pos
    (by rw [ha]; push_cast; ring)
  have cb := sameSign_cmp (a := u.z * v.x) (b := u.x * v.z) (t := b) (k := 1) one_pos
    (by rw [hb]; push_cast; ring)
  have cc := sameSign_cmp (a := u.y * v.z) (b := u.z * v.y) (t := c) (k := 1) one_pos
    (by rw [hc]; push_cast; ring)
  unfold rxyCompareBivector
  simp only
  rcases lt_trichotomy a 0 with h | h | h
  · obtain ⟨δ, hδ, hs⟩ := small_sign (-a) (-b) (-c)
    refine ⟨δ, hδ, fun ε h0 h1 u' v' hu hv => ?_⟩
    rw [form ε u' v' hu hv]
    have := ca.1.mpr h
    rw [if_pos (by omega)]
    refine ss (Or.inr (Or.inl ⟨this, ?_⟩))
    have := hs ε h0 h1 (by linarith)
    linarith
  · have ha0 := ca.2.1.mpr h
    simp only [ha0, ne_eq, not_true, if_false]
    rcases lt_trichotomy b 0 with h' | h' | h'
    · obtain ⟨δ, hδ, hs⟩ := small_sign (-b) (-c) 0
      refine ⟨δ, hδ, fun ε h0 h1 u' v' hu hv => ?_⟩
      rw [form ε u' v' hu hv]
      have := cb.1.mpr h'
      rw [if_pos (by omega)]
      refine ss (Or.inr (Or.inl ⟨this, ?_⟩))
      have := hs ε h0 h1 (by linarith)
      rw [h]; nlinarith
    · have hb0 := cb.2.1.mpr h'
      simp only [hb0, not_true, if_false]
      refine ⟨1, one_pos, fun ε h0 h1 u' v' hu hv => ?_⟩
      rw [form ε u' v' hu hv, h, h']
      have hp : 0 < ε ^ 2 := by positivity
      rcases lt_trichotomy c 0 with h2 | h2 | h2
      · exact ss (Or.inr (Or.inl ⟨cc.1.mpr h2, by nlinarith⟩))
      · exact ss (Or.inr (Or.inr ⟨cc.2.1.mpr h2, by rw [h2]; ring⟩))
      · exact ss (Or.inl ⟨cc.2.2.mpr h2, by nlinarith⟩)
    · obtain ⟨δ, hδ, hs⟩ := small_sign b c 0
      refine ⟨δ, hδ, fun ε h0 h1 u' v' hu hv => ?_⟩
      rw [form ε u' v' hu hv]
      have := cb.2.2.mpr h'
      rw [if_pos (by omega)]
      refine ss (Or.inl ⟨this, ?_⟩)
      have := hs ε h0 h1 (by linarith)
      rw [h]; nlinarith
  · obtain ⟨δ, hδ, hs⟩ := small_sign a b c
    refine ⟨δ, hδ, fun ε h0 h1 u' v' hu hv => ?_⟩
    rw [form ε u' v' hu hv]
    have := ca.2.2.mpr h
    rw [if_pos (by omega)]
    exact ss (Or.inl ⟨this, hs ε h0 h1 h⟩)

/-- C28: the comparison is zero iff the vectors are parallel (one may be zero). -/
theorem C28_zero (u v : V3) : rxyCompareBivector u v = 0 ↔ u.cross v = ⟨0, 0, 0⟩ := by
  unfold rxyCompareBivector
  simp only [V3.cross, V3.mk.injEq]
  have ca := cmp_zero_iff (u.x * v.y) (u.y * v.x)
  have cb := cmp_zero_iff (u.z * v.x) (u.x * v.z)
  have cc := cmp_zero_iff (u.y * v.z) (u.z * v.y)
  by_cases h1 : Geom.cmp (u.x * v.y) (u.y * v.x) = 0
  · have e1 := ca.mp h1
    rw [if_neg (by simpa using h1)]
    by_cases h2 : Geom.cmp (u.z * v.x) (u.x * v.z) = 0
    · have e2 := cb.mp h2
      rw [if_neg (by simpa using h2), cc]
      omega
    · rw [if_pos h2]
      have e2 : ¬ u.z * v.x = u.x * v.z := fun h => h2 (cb.mpr h)
      omega
  · rw [if_pos h1]
    have e1 : ¬ u.x * v.y = u.y * v.x := fun h => h1 (ca.mpr h)
    omega

/-- C28: swapping the arguments changes the sign. -/
theorem C28_swap (u v : V3) : rxyCompareBivector v u = -rxyCompareBivector u v := by
  have e : ∀ a b : Int, Geom.cmp b a = -Geom.cmp a b := by
    intro a b; unfold Geom.cmp; rw [← Int.sign_neg]; congr 1; ring
  unfold rxyCompareBivector
  simp only
  rw [show v.x * u.y = u.y * v.x by ring, show v.y * u.x = u.x * v.y by ring, e (u.x * v.y),
    show v.z * u.x = u.x * v.z by ring, show v.x * u.z = u.z * v.x by ring, e (u.z * v.x),
    show v.y * u.z = u.z * v.y by ring, show v.z * u.y = u.y * v.z by ring, e (u.y * v.z)]
  by_cases h1 : Geom.cmp (u.x * v.y) (u.y * v.x) = 0 <;>
  by_cases h2 : Geom.cmp (u.z * v.x) (u.x * v.z) = 0 <;> simp [h1, h2]

/-- C28: the split side version compares with the normal of the side's half-space:
its normal for the negative side, the opposite normal for the positive side. -/
theorem C28_split_side (u : V3) (h : HS3) (pos : Bool) :
    rxyCompareSplitSide u h pos = rxyCompareBivector u (if pos then h.n.neg else h.n) := by
  have e : ∀ v : V3, rxyCompareBivector u v.neg = -rxyCompareBivector u v := by
    intro v
    have e : ∀ a b : Int, Geom.cmp (-a) (-b) = -Geom.cmp a b := by
      intro a b; unfold Geom.cmp; rw [← Int.sign_neg]; congr 1; ring
    unfold rxyCompareBivector V3.neg
    simp only [mul_neg, e]
    by_cases h1 : Geom.cmp (u.x * v.y) (u.y * v.x) = 0 <;>
    by_cases h2 : Geom.cmp (u.z * v.x) (u.x * v.z) = 0 <;> simp [h1, h2]
  unfold rxyCompareSplitSide
  cases pos <;> simp [e]

/-- C28: for small enough `ε`, the z order after the transformation is the reverse
lexicographic order (z, then y, then x). -/
theorem C28_reverse_lexicographic (p q : Q3) (h : TopLt p q) : ∃ δ : ℚ, 0 < δ ∧ ∀ ε, 0 < ε → ε < δ →
    R ε p 2 < R ε q 2 := by
  simp only [R, Matrix.cons_val]
  rcases h with h | ⟨h, h' | ⟨h', h2⟩⟩
  · obtain ⟨δ, hδ, hs⟩ := small_sign (q 2 - p 2) (q 1 - p 1) (q 0 - p 0)
    exact ⟨δ, hδ, fun ε h0 h1 => by linarith [hs ε h0 h1 (by linarith)]⟩
  · obtain ⟨δ, hδ, hs⟩ := small_sign (q 1 - p 1) (q 0 - p 0) 0
    exact ⟨δ, hδ, fun ε h0 h1 => by nlinarith [hs ε h0 h1 (by linarith)]⟩
  · refine ⟨1, one_pos, fun ε h0 h1 => ?_⟩
    rw [h, h']
    have : 0 < ε ^ 2 := by positivity
    nlinarith

example : rxyCompareBivector ⟨1, 0, 2⟩ ⟨2, 0, 5⟩ = -1 ∧ rxyCompareBivector ⟨0, 0, 2⟩ ⟨0, 1, 5⟩ = -1 := by
  decide

end Walnut.Props
