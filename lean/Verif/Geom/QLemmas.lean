/- Helper lemmas about rational points, half-spaces and lines. -/
import Verif.Geom.Lemmas

namespace Walnut.Geom

theorem q3_ext {a b : Q3} (h0 : a 0 = b 0) (h1 : a 1 = b 1) (h2 : a 2 = b 2) : a = b := by
  funext i; fin_cases i <;> assumption

@[simp] theorem V3.q_zero (v : V3) : v.q 0 = (v.x : ℚ) := rfl
@[simp] theorem V3.q_one (v : V3) : v.q 1 = (v.y : ℚ) := rfl
@[simp] theorem V3.q_two (v : V3) : v.q 2 = (v.z : ℚ) := rfl
@[simp] theorem HP3.pt_zero (p : HP3) : p.pt 0 = (p.v.x : ℚ) / p.w := rfl
@[simp] theorem HP3.pt_one (p : HP3) : p.pt 1 = (p.v.y : ℚ) / p.w := rfl
@[simp] theorem HP3.pt_two (p : HP3) : p.pt 2 = (p.v.z : ℚ) / p.w := rfl
@[simp] theorem crossQ_zero (a b : Q3) : crossQ a b 0 = a 1 * b 2 - a 2 * b 1 := rfl
@[simp] theorem crossQ_one (a b : Q3) : crossQ a b 1 = a 2 * b 0 - a 0 * b 2 := rfl
@[simp] theorem crossQ_two (a b : Q3) : crossQ a b 2 = a 0 * b 1 - a 1 * b 0 := rfl

theorem HS3.side_eq (h : HS3) (q : Q3) :
    h.side q = (h.n.x : ℚ) * q 0 + h.n.y * q 1 + h.n.z * q 2 - h.d := rfl

theorem sameSign_cmp {a b : Int} {t : ℚ} {k : ℚ} (hk : 0 < k) (h : ((a - b : Int) : ℚ) = k * t) :
    SameSign (cmp a b) t := by
  have e : t = ((a - b : Int) : ℚ) / k := by rw [h]; field_simp
  refine ⟨?_, ?_, ?_⟩
  · rw [cmp_neg_iff, e, div_neg_iff]
    constructor
    · intro h1; right; exact ⟨by exact_mod_cast (by omega : a - b < 0), hk⟩
    · rintro (⟨_, h1⟩ | ⟨h1, _⟩)
      · linarith
      · have : a - b < 0 := by exact_mod_cast h1
        omega
  · rw [cmp_zero_iff, e, div_eq_zero_iff]
    constructor
    · rintro rfl; left; simp
    · rintro (h1 | h1)
      · have : a - b = 0 := by exact_mod_cast h1
        omega
      · linarith
  · rw [cmp_pos_iff, e, div_pos_iff]
    constructor
    · intro h1; left; exact ⟨by exact_mod_cast (by omega : 0 < a - b), hk⟩
    · rintro (⟨h1, _⟩ | ⟨_, h1⟩)
      · have : 0 < a - b := by exact_mod_cast h1
        omega
      · linarith

theorem SameSign.neg {s : Int} {t : ℚ} (h : SameSign s t) : SameSign (-s) (-t) := by
  obtain ⟨h1, h2, h3⟩ := h
  refine ⟨?_, ?_, ?_⟩
  · rw [neg_lt_zero, neg_lt_zero]; exact h3
  · rw [neg_eq_zero, neg_eq_zero]; exact h2
  · rw [neg_pos, neg_pos]; exact h1

/-- The sign of `a - b` times the sign of the denominator. -/
theorem sameSign_cmp_absMult {a b w : Int} {t : ℚ} (hw : w ≠ 0) (h : ((a - b : Int) : ℚ) = w * t) :
    SameSign (cmp a b * absMult w) t := by
  rcases absMult_cases w with ⟨h1, h2⟩ | ⟨h1, h2⟩ <;> rw [h2]
  · have hw' : (0 : ℚ) < -(w : ℚ) := by
      have : (w : ℚ) < 0 := by exact_mod_cast h1
      linarith
    have := (sameSign_cmp (a := a) (b := b) (t := -t) hw' (by rw [h]; ring)).neg
    simpa using this
  · have hw' : (0 : ℚ) < (w : ℚ) := by
      exact_mod_cast (by omega : 0 < w)
    simpa using sameSign_cmp hw' h

theorem absMult_mul_self (w : Int) : w * absMult w = |w| := by
  rcases absMult_cases w with ⟨h1, h2⟩ | ⟨h1, h2⟩ <;> rw [h2]
  · rw [abs_of_neg h1]; ring
  · rw [abs_of_nonneg h1]; ring

theorem absMult2_mul_self {a b : Int} (ha : a ≠ 0) (hb : b ≠ 0) : a * b * absMult2 a b = |a * b| := by
  rcases absMult2_cases a b with ⟨h1, h2⟩ | ⟨h1, h2⟩ <;> rw [h2]
  · have : 0 < a * b := by
      by_cases h : a < 0
      · exact Int.mul_pos_of_neg_of_neg h (h1.mp h)
      · exact Int.mul_pos (by omega) (by rcases lt_or_gt_of_ne hb with h2 | h2 <;> [exact absurd (h1.mpr h2) h; exact h2])
    rw [abs_of_pos this]; ring
  · have : a * b < 0 := by
      by_cases h : a < 0
      · exact Int.mul_neg_of_neg_of_pos h (by
          rcases lt_or_gt_of_ne hb with h2 | h2
          · exact absurd ⟨fun _ => h2, fun _ => h⟩ h1
          · exact h2)
      · exact Int.mul_neg_of_pos_of_neg (by omega) (by
          by_contra hc; exact h1 ⟨fun h' => absurd h' h, fun h' => absurd h' hc⟩)
    rw [abs_of_neg this]; ring

/-- The 4-tuple of a plane. -/
def HS3.Proportional (a b : HS3) (k l : Int) : Prop :=
  a.n.x * k = b.n.x * l ∧ a.n.y * k = b.n.y * l ∧ a.n.z * k = b.n.z * l ∧ a.d * k = b.d * l

theorem V3.dot_self_pos {v : V3} (h : v ≠ ⟨0, 0, 0⟩) : 0 < v.x * v.x + v.y * v.y + v.z * v.z := by
  have h1 := mul_self_nonneg v.x
  have h2 := mul_self_nonneg v.y
  have h3 := mul_self_nonneg v.z
  by_contra hc
  apply h
  have e1 : v.x * v.x = 0 := by omega
  have e2 : v.y * v.y = 0 := by omega
  have e3 : v.z * v.z = 0 := by omega
  ext
  · exact mul_self_eq_zero.mp e1
  · exact mul_self_eq_zero.mp e2
  · exact mul_self_eq_zero.mp e3

theorem HS3.Proportional.side {a b : HS3} {k l : Int} (h : a.Proportional b k l) (q : Q3) :
    k * a.side q = l * b.side q := by
  obtain ⟨h1, h2, h3, h4⟩ := h
  have e1 : (a.n.x : ℚ) * k = b.n.x * l := by exact_mod_cast h1
  have e2 : (a.n.y : ℚ) * k = b.n.y * l := by exact_mod_cast h2
  have e3 : (a.n.z : ℚ) * k = b.n.z * l := by exact_mod_cast h3
  have e4 : (a.d : ℚ) * k = b.d * l := by exact_mod_cast h4
  rw [HS3.side_eq, HS3.side_eq]
  linear_combination q 0 * e1 + q 1 * e2 + q 2 * e3 - e4

/-- If every point of the plane `b` is on the plane `a`, the tuples are
proportional. -/
theorem proportional_of_plane {a b : HS3} (ha : a.n ≠ ⟨0, 0, 0⟩) (hb : b.n ≠ ⟨0, 0, 0⟩)
    (h : ∀ q, b.side q = 0 → a.side q = 0) :
    a.n.dot b.n ≠ 0 ∧ a.Proportional b (b.n.dot b.n) (a.n.dot b.n) := by
  have pb := V3.dot_self_pos hb
  have pa := V3.dot_self_pos ha
  obtain ⟨⟨a0, a1, a2⟩, d⟩ := a
  obtain ⟨⟨b0, b1, b2⟩, e⟩ := b
  simp only [HS3.side_eq] at h
  simp only [HS3.Proportional, V3.dot] at *
  have pbq : (0 : ℚ) < b0 * b0 + b1 * b1 + b2 * b2 := by exact_mod_cast pb
  obtain ⟨c, hc⟩ : ∃ c : ℚ, c * (b0 * b0 + b1 * b1 + b2 * b2) = 1 := ⟨_, inv_mul_cancel₀ pbq.ne'⟩
  -- the foot of the perpendicular
  have hf := h (fun i => e * c * ![(b0 : ℚ), b1, b2] i) (by
    simp; linear_combination e * hc)
  have hd : (d : ℚ) * (b0 * b0 + b1 * b1 + b2 * b2) = e * (a0 * b0 + a1 * b1 + a2 * b2) := by
    simp at hf
    linear_combination -(b0 * b0 + b1 * b1 + b2 * b2 : ℚ) * hf + e * (a0 * b0 + a1 * b1 + a2 * b2) * hc
  have hv := h (fun i => e * c * ![(b0 : ℚ), b1, b2] i +
      (![(a0 : ℚ), a1, a2] i * (b0 * b0 + b1 * b1 + b2 * b2) -
       ![(b0 : ℚ), b1, b2] i * (a0 * b0 + a1 * b1 + a2 * b2))) (by
    simp; linear_combination e * hc)
  have hz : ((a0 : ℚ) * a0 + a1 * a1 + a2 * a2) * (b0 * b0 + b1 * b1 + b2 * b2) -
      (a0 * b0 + a1 * b1 + a2 * b2) ^ 2 = 0 := by
    simp at hv hf
    linear_combination hv - hf
  have hz' : (a0 * a0 + a1 * a1 + a2 * a2) * (b0 * b0 + b1 * b1 + b2 * b2) -
      (a0 * b0 + a1 * b1 + a2 * b2) ^ 2 = 0 := by exact_mod_cast hz
  have hd' : d * (b0 * b0 + b1 * b1 + b2 * b2) = e * (a0 * b0 + a1 * b1 + a2 * b2) := by
    exact_mod_cast hd
  generalize hs : a0 * b0 + a1 * b1 + a2 * b2 = s at *
  generalize hB : b0 * b0 + b1 * b1 + b2 * b2 = B at *
  generalize hA : a0 * a0 + a1 * a1 + a2 * a2 = A at *
  have sq : (a0 * B - b0 * s) * (a0 * B - b0 * s) + (a1 * B - b1 * s) * (a1 * B - b1 * s) +
      (a2 * B - b2 * s) * (a2 * B - b2 * s) = 0 := by
    subst hB hA hs
    linear_combination (b0 * b0 + b1 * b1 + b2 * b2) * hz'
  have n0 := mul_self_nonneg (a0 * B - b0 * s)
  have n1 := mul_self_nonneg (a1 * B - b1 * s)
  have n2 := mul_self_nonneg (a2 * B - b2 * s)
  have z0 := mul_self_eq_zero.mp (by omega : (a0 * B - b0 * s) * (a0 * B - b0 * s) = 0)
  have z1 := mul_self_eq_zero.mp (by omega : (a1 * B - b1 * s) * (a1 * B - b1 * s) = 0)
  have z2 := mul_self_eq_zero.mp (by omega : (a2 * B - b2 * s) * (a2 * B - b2 * s) = 0)
  refine ⟨?_, by omega, by omega, by omega, hd'⟩
  rintro rfl
  have := Int.mul_pos pa pb
  simp at hz'
  omega

/-- The same for half-spaces. -/
theorem proportional_of_half {a b : HS3} (ha : a.n ≠ ⟨0, 0, 0⟩) (hb : b.n ≠ ⟨0, 0, 0⟩)
    (h : ∀ q, 0 < a.side q ↔ 0 < b.side q) :
    0 < a.n.dot b.n ∧ a.Proportional b (b.n.dot b.n) (a.n.dot b.n) := by
  have pb := V3.dot_self_pos hb
  have pbq : (0 : ℚ) < b.n.x * b.n.x + b.n.y * b.n.y + b.n.z * b.n.z := by exact_mod_cast pb
  -- moving along b from q
  have move : ∀ (c : HS3) (q : Q3) (t : ℚ), c.side (fun i => q i + t * b.n.q i) =
      c.side q + t * (c.n.x * b.n.x + c.n.y * b.n.y + c.n.z * b.n.z) := by
    intro c q t; simp [HS3.side_eq]; ring
  obtain ⟨s, hs⟩ : ∃ s : ℚ, s = a.n.x * b.n.x + a.n.y * b.n.y + a.n.z * b.n.z := ⟨_, rfl⟩
  have hz : ∀ q, b.side q = 0 → a.side q = 0 := by
    intro q hq
    by_contra hne
    have h0 : ¬ 0 < a.side q := by rw [h, hq]; exact lt_irrefl _
    have hneg : a.side q < 0 := lt_of_le_of_ne (not_lt.mp h0) hne
    have hpos : ∀ t : ℚ, 0 < t → 0 < a.side q + t * s := by
      intro t ht
      rw [hs, ← move a, h, move b, hq]
      have := mul_pos ht pbq
      linarith
    have hsp : 0 < s := by
      have := hpos 1 one_pos; linarith
    have := hpos (-(a.side q) / (2 * s)) (div_pos (by linarith) (by linarith))
    have e : -(a.side q) / (2 * s) * s = -(a.side q) / 2 := by field_simp
    rw [e] at this
    linarith
  obtain ⟨h1, h2⟩ := proportional_of_plane ha hb hz
  refine ⟨?_, h2⟩
  -- the foot of the perpendicular, moved along b
  obtain ⟨q, hq⟩ : ∃ q, b.side q = 0 :=
    ⟨fun i => b.d * (b.n.x * b.n.x + b.n.y * b.n.y + b.n.z * b.n.z : ℚ)⁻¹ * b.n.q i, by
      simp [HS3.side_eq]
      linear_combination b.d * inv_mul_cancel₀ pbq.ne'⟩
  have := (h (fun i => q i + 1 * b.n.q i)).mpr (by rw [move b, hq]; linarith)
  rw [move a, hz q hq] at this
  have : (0 : ℚ) < ((a.n.dot b.n : Int) : ℚ) := by
    simp only [V3.dot]; push_cast; linarith
  exact_mod_cast this

end Walnut.Geom
