/-
Properties C61 and C62: `Reduce` and the construction functions; also equality of
lines (C26).
-/
import Verif.Props.Lines
import Verif.Props.Rotation
import Verif.Geom.Bridge
import Mathlib.Algebra.GroupWithZero.Divisibility

namespace Walnut.Props
open Walnut.Geom

/-! ### C61 -/

theorem gcd?_dvd {x y z : Int} (h : gcd? x y = some z) (k : Int) : k ∣ z ↔ k ∣ x ∧ k ∣ y := by
  have := gcd?_natAbs h
  rw [← Int.dvd_natAbs, this, Int.dvd_coe_gcd_iff]

theorem gcd?_small {x y : Int} (hx : x.natAbs < 2 ^ 63) (hy : y.natAbs < 2 ^ 63) :
    ∃ z, gcd? x y = some z ∧ z.natAbs < 2 ^ 63 := by
  induction hn : y.natAbs using Nat.strong_induction_on generalizing x y with
  | _ n ih =>
    by_cases h0 : y = 0
    · subst h0; exact ⟨x, gcd?_zero x, hx⟩
    · have hm : ¬ (x = -2 ^ 63 ∧ y = -1) := by
        rintro ⟨rfl, _⟩; norm_num at hx
      rw [gcd?_step h0 hm]
      have hlt : (x.tmod y).natAbs < y.natAbs := by
        rw [Int.natAbs_tmod]; exact Nat.mod_lt _ (by omega)
      exact ih _ (by omega) hy (by omega) rfl

theorem div?_dvd {a f : Int} (hf : f ≠ 0) (hd : f ∣ a) (hm : ¬ (a = -2 ^ 63 ∧ f = -1)) :
    ∃ k, div? a f = some k ∧ a = f * k := by
  obtain ⟨k, rfl⟩ := hd
  refine ⟨k, ?_, rfl⟩
  unfold div? divRem?
  rw [if_neg (by tauto)]
  simp [Int.mul_tdiv_cancel_left _ hf]

theorem div?_some_dvd {a f k : Int} (hd : f ∣ a) (h : div? a f = some k) : a = f * k ∧ f ≠ 0 := by
  unfold div? divRem? at h
  split at h
  · simp at h
  · rename_i hc
    have hf : f ≠ 0 := fun h0 => hc (Or.inl h0)
    simp at h
    rw [← h]
    exact ⟨(Int.mul_tdiv_cancel' hd).symm, hf⟩

/-- Nothing but 1 and -1 divides all the numbers. -/
def Coprime (l : List Int) : Prop := ∀ k : Int, (∀ a ∈ l, k ∣ a) → k ∣ 1

def V3.toL (v : V3) : List Int := [v.x, v.y, v.z]

theorem v3div_dvd {a : V3} {f : Int} (hf : f ≠ 0) (hx : f ∣ a.x) (hy : f ∣ a.y) (hz : f ∣ a.z)
    (mx : ¬ (a.x = -2 ^ 63 ∧ f = -1)) (my : ¬ (a.y = -2 ^ 63 ∧ f = -1)) (mz : ¬ (a.z = -2 ^ 63 ∧ f = -1)) :
    ∃ r, a.div? f = some r ∧ a = r.scale f := by
  obtain ⟨x, ex, hx⟩ := div?_dvd hf hx mx
  obtain ⟨y, ey, hy⟩ := div?_dvd hf hy my
  obtain ⟨z, ez, hz⟩ := div?_dvd hf hz mz
  refine ⟨⟨x, y, z⟩, by simp [V3.div?, ex, ey, ez], ?_⟩
  ext <;> simp [V3.scale] <;> linarith

theorem v3div_some {a r : V3} {f : Int} (hx : f ∣ a.x) (hy : f ∣ a.y) (hz : f ∣ a.z)
    (h : a.div? f = some r) : a = r.scale f ∧ f ≠ 0 := by
  unfold V3.div? at h
  simp only [Option.bind_eq_bind, Option.pure_def] at h
  obtain ⟨x, ex, h⟩ := Option.bind_eq_some_iff.mp h
  obtain ⟨y, ey, h⟩ := Option.bind_eq_some_iff.mp h
  obtain ⟨z, ez, h⟩ := Option.bind_eq_some_iff.mp h
  cases h
  obtain ⟨e1, hf⟩ := div?_some_dvd hx ex
  have e2 := (div?_some_dvd hy ey).1
  have e3 := (div?_some_dvd hz ez).1
  exact ⟨by ext <;> simp [V3.scale] <;> linarith, hf⟩

/-- C61: whenever `Vector3::Reduce` is defined it divides by a positive number and
leaves no common factor. -/
theorem C61_vector_reduce (a r : V3) (h : a.reduce = some r) :
    (∃ g : Int, 0 < g ∧ a = r.scale g) ∧ Coprime [r.x, r.y, r.z] := by
  unfold V3.reduce at h
  simp only [Option.bind_eq_bind] at h
  obtain ⟨f1, e1, h⟩ := Option.bind_eq_some_iff.mp h
  obtain ⟨f2, e2, h⟩ := Option.bind_eq_some_iff.mp h
  have d : ∀ k, k ∣ f2 ↔ (k ∣ a.x ∧ k ∣ a.y) ∧ k ∣ a.z := fun k => by rw [gcd?_dvd e2, gcd?_dvd e1]
  have da : ∀ k, k ∣ |f2| ↔ (k ∣ a.x ∧ k ∣ a.y) ∧ k ∣ a.z := fun k => by rw [dvd_abs, d]
  obtain ⟨⟨dx, dy⟩, dz⟩ := (da |f2|).mp dvd_rfl
  obtain ⟨e, hf⟩ := v3div_some dx dy dz h
  have hpos : 0 < |f2| := by
    rcases lt_or_eq_of_le (abs_nonneg f2) with h | h
    · exact h
    · exact absurd h.symm hf
  refine ⟨⟨|f2|, hpos, e⟩, ?_⟩
  intro k hk
  have h1 : k * |f2| ∣ |f2| := by
    rw [da, e]
    simp only [V3.scale]
    exact ⟨⟨mul_dvd_mul_right (hk _ (by simp)) _, mul_dvd_mul_right (hk _ (by simp)) _⟩,
      mul_dvd_mul_right (hk _ (by simp)) _⟩
  exact (mul_dvd_mul_iff_right hf).mp (by simpa using h1)

/-- C61: it is defined for every nonzero vector with components of at most one word. -/
theorem C61_vector_reduce_defined (a : V3) (h0 : a ≠ ⟨0, 0, 0⟩) (hx : a.x.natAbs < 2 ^ 63)
    (hy : a.y.natAbs < 2 ^ 63) (hz : a.z.natAbs < 2 ^ 63) : ∃ r, a.reduce = some r := by
  obtain ⟨f1, e1, h1⟩ := gcd?_small hx hy
  obtain ⟨f2, e2, h2⟩ := gcd?_small h1 hz
  have da : ∀ k, k ∣ |f2| ↔ (k ∣ a.x ∧ k ∣ a.y) ∧ k ∣ a.z := fun k => by
    rw [dvd_abs, gcd?_dvd e2, gcd?_dvd e1]
  obtain ⟨⟨dx, dy⟩, dz⟩ := (da |f2|).mp dvd_rfl
  have hf : |f2| ≠ 0 := by
    intro e
    rw [e] at dx dy dz
    apply h0
    ext
    · exact zero_dvd_iff.mp dx
    · exact zero_dvd_iff.mp dy
    · exact zero_dvd_iff.mp dz
  have hn : ∀ x : Int, ¬ (x = -2 ^ 63 ∧ |f2| = -1) := by
    rintro x ⟨_, h⟩; have := abs_nonneg f2; omega
  obtain ⟨r, hr, _⟩ := v3div_dvd hf dx dy dz (hn _) (hn _) (hn _)
  exact ⟨r, by simp [V3.reduce, e1, e2, hr]⟩

/-- C61: the zero vector cannot be reduced (division by zero), nor can some vectors
with a component `-2^63`. -/
theorem C61_vector_undefined : V3.reduce ⟨0, 0, 0⟩ = none ∧ V3.reduce ⟨-2 ^ 63, -1, 0⟩ = none := by
  constructor
  · simp [V3.reduce, gcd?_zero, V3.div?, div?, divRem?]
  · simp only [V3.reduce, gcd?_undefined (show (-2 ^ 63 : Int) = -2 ^ 63 ∧ (-1 : Int) = -1 from ⟨rfl, rfl⟩)]
    rfl

/-- C61: whenever `HomoPoint3::Reduce` is defined, the point stays the same, its
denominator becomes positive and no common factor is left. -/
theorem C61_point_reduce (p r : HP3) (hw : p.w ≠ 0) (h : p.reduce = some r) :
    r.pt = p.pt ∧ 0 < r.w ∧ Coprime [r.v.x, r.v.y, r.v.z, r.w] := by
  unfold HP3.reduce at h
  simp only [Option.bind_eq_bind] at h
  obtain ⟨f1, e1, h⟩ := Option.bind_eq_some_iff.mp h
  obtain ⟨f2, e2, h⟩ := Option.bind_eq_some_iff.mp h
  obtain ⟨f3, e3, h⟩ := Option.bind_eq_some_iff.mp h
  obtain ⟨f, hfe⟩ : ∃ f, f = if (decide (f3 < 0)) ≠ (decide (p.w < 0)) then -f3 else f3 := ⟨_, rfl⟩
  rw [← hfe] at h
  obtain ⟨w, ew, h⟩ := Option.bind_eq_some_iff.mp h
  obtain ⟨v, ev, h⟩ := Option.bind_eq_some_iff.mp h
  cases h
  have d : ∀ k, k ∣ f ↔ (((k ∣ p.w ∧ k ∣ p.v.x) ∧ k ∣ p.v.y) ∧ k ∣ p.v.z) := by
    intro k
    rw [← gcd?_dvd e1, ← gcd?_dvd e2, ← gcd?_dvd e3, hfe]
    split
    · exact dvd_neg
    · rfl
  obtain ⟨⟨⟨dw, dx⟩, dy⟩, dz⟩ := (d f).mp dvd_rfl
  obtain ⟨hwe, hf⟩ := div?_some_dvd dw ew
  obtain ⟨hve, _⟩ := v3div_some dx dy dz ev
  have hsign : (f < 0 ↔ p.w < 0) := by
    have h3 : f3 ≠ 0 := by
      rintro rfl; apply hf; rw [hfe]; simp
    rw [hfe]
    by_cases c1 : f3 < 0 <;> by_cases c2 : p.w < 0 <;> simp [c1, c2] <;> omega
  have hwpos : 0 < w := by
    rcases lt_or_gt_of_ne hf with c | c
    · have hneg := hsign.mp c
      by_contra hc
      have := Int.mul_nonneg_of_nonpos_of_nonpos c.le (not_lt.mp hc)
      omega
    · by_contra hc
      have h1 : f * w ≤ 0 := Int.mul_nonpos_of_nonneg_of_nonpos c.le (not_lt.mp hc)
      have : ¬ p.w < 0 := fun h => by have := hsign.mpr h; omega
      omega
  refine ⟨?_, hwpos, ?_⟩
  · funext i
    have hfq : (f : ℚ) ≠ 0 := by exact_mod_cast hf
    have hwq : (w : ℚ) ≠ 0 := by exact_mod_cast hwpos.ne'
    have hc : p.v.comp i = v.comp i * f := by rw [hve]; fin_cases i <;> rfl
    simp only [HP3.pt]
    rw [hc, hwe]
    push_cast
    field_simp
  · intro k hk
    have h1 : k * f ∣ f := by
      rw [d, hve, hwe]
      simp only [V3.scale]
      refine ⟨⟨⟨?_, mul_dvd_mul_right (hk _ (by simp)) _⟩, mul_dvd_mul_right (hk _ (by simp)) _⟩,
        mul_dvd_mul_right (hk _ (by simp)) _⟩
      rw [mul_comm f w]
      exact mul_dvd_mul_right (hk _ (by simp)) _
    exact (mul_dvd_mul_iff_right hf).mp (by simpa using h1)

/-- C61: it is defined when all components are less than `2^63` in magnitude. -/
theorem C61_point_reduce_defined (p : HP3) (hw : p.w ≠ 0) (bw : p.w.natAbs < 2 ^ 63)
    (bx : p.v.x.natAbs < 2 ^ 63) (by' : p.v.y.natAbs < 2 ^ 63) (bz : p.v.z.natAbs < 2 ^ 63) :
    ∃ r, p.reduce = some r := by
  obtain ⟨f1, e1, h1⟩ := gcd?_small bw bx
  obtain ⟨f2, e2, h2⟩ := gcd?_small h1 by'
  obtain ⟨f3, e3, h3⟩ := gcd?_small h2 bz
  obtain ⟨f, hfe⟩ : ∃ f, f = if (decide (f3 < 0)) ≠ (decide (p.w < 0)) then -f3 else f3 := ⟨_, rfl⟩
  have d : ∀ k, k ∣ f ↔ (((k ∣ p.w ∧ k ∣ p.v.x) ∧ k ∣ p.v.y) ∧ k ∣ p.v.z) := by
    intro k
    rw [← gcd?_dvd e1, ← gcd?_dvd e2, ← gcd?_dvd e3, hfe]
    split
    · exact dvd_neg
    · rfl
  obtain ⟨⟨⟨dw, dx⟩, dy⟩, dz⟩ := (d f).mp dvd_rfl
  have hf : f ≠ 0 := by
    intro e; rw [e] at dw; exact hw (zero_dvd_iff.mp dw)
  have hn : ∀ x : Int, x.natAbs < 2 ^ 63 → ¬ (x = -2 ^ 63 ∧ f = -1) := by
    rintro x hx ⟨rfl, _⟩; norm_num at hx
  obtain ⟨w, ew, _⟩ := div?_dvd hf dw (hn _ bw)
  obtain ⟨v, ev, _⟩ := v3div_dvd hf dx dy dz (hn _ bx) (hn _ by') (hn _ bz)
  refine ⟨⟨v, w⟩, ?_⟩
  unfold HP3.reduce
  simp only [e1, e2, e3, Option.bind_eq_bind, Option.bind_some]
  rw [← hfe]
  simp [ew, ev]

/-- C61: undefined cases: `HomoPoint3(1, 0, 0, -2^63)` divides `-2^63` by -1. -/
theorem C61_point_undefined : HP3.reduce ⟨⟨1, 0, 0⟩, -2 ^ 63⟩ = none := by
  have e1 : gcd? (-2 ^ 63) 1 = some 1 := by
    rw [gcd?_step (by decide) (by norm_num), show Int.tmod (-2 ^ 63) 1 = 0 by decide, gcd?_zero]
  simp only [HP3.reduce, e1, gcd?_zero, Option.bind_eq_bind, Option.bind_some]
  rfl

/-- C61: `HalfSpace3::Reduce`: same half-space, no common factor. -/
theorem C61_plane_reduce (a r : HS3) (h : a.reduce = some r) :
    (∃ g : Int, 0 < g ∧ ∀ q, a.side q = g * r.side q) ∧ Coprime [r.n.x, r.n.y, r.n.z, r.d] := by
  unfold HS3.reduce at h
  simp only [Option.bind_eq_bind] at h
  obtain ⟨f1, e1, h⟩ := Option.bind_eq_some_iff.mp h
  obtain ⟨f2, e2, h⟩ := Option.bind_eq_some_iff.mp h
  obtain ⟨f3, e3, h⟩ := Option.bind_eq_some_iff.mp h
  obtain ⟨w, ew, h⟩ := Option.bind_eq_some_iff.mp h
  obtain ⟨v, ev, h⟩ := Option.bind_eq_some_iff.mp h
  cases h
  have d : ∀ k, k ∣ |f3| ↔ (((k ∣ a.n.x ∧ k ∣ a.n.y) ∧ k ∣ a.n.z) ∧ k ∣ a.d) := by
    intro k
    rw [dvd_abs, ← gcd?_dvd e1, ← gcd?_dvd e2, ← gcd?_dvd e3]
  obtain ⟨⟨⟨dx, dy⟩, dz⟩, dw⟩ := (d |f3|).mp dvd_rfl
  obtain ⟨hwe, hf⟩ := div?_some_dvd dw ew
  obtain ⟨hve, _⟩ := v3div_some dx dy dz ev
  have hpos : 0 < |f3| := by
    rcases lt_or_eq_of_le (abs_nonneg f3) with h | h
    · exact h
    · exact absurd h.symm hf
  refine ⟨⟨|f3|, hpos, fun q => ?_⟩, ?_⟩
  · simp only [HS3.side_eq]
    rw [hve, hwe]
    simp only [V3.scale]
    push_cast
    ring
  · intro k hk
    have h1 : k * |f3| ∣ |f3| := by
      rw [d, hve, hwe]
      simp only [V3.scale]
      refine ⟨⟨⟨mul_dvd_mul_right (hk _ (by simp)) _, mul_dvd_mul_right (hk _ (by simp)) _⟩,
        mul_dvd_mul_right (hk _ (by simp)) _⟩, ?_⟩
      rw [mul_comm |f3| w]
      exact mul_dvd_mul_right (hk _ (by simp)) _
    exact (mul_dvd_mul_iff_right hf).mp (by simpa using h1)

/-- C61: `PluckerLine::Reduce`: the same line in the same direction. -/
theorem C61_line_reduce (l r : PL) (h : l.reduce = some r) :
    (∃ g : Int, 0 < g ∧ l.d = r.d.scale g ∧ l.m = r.m.scale g) ∧
    Coprime [r.d.x, r.d.y, r.d.z, r.m.x, r.m.y, r.m.z] ∧ ∀ p, IsLine l p → IsLine r p := by
  unfold PL.reduce at h
  simp only [Option.bind_eq_bind] at h
  obtain ⟨f1, e1, h⟩ := Option.bind_eq_some_iff.mp h
  obtain ⟨f2, e2, h⟩ := Option.bind_eq_some_iff.mp h
  obtain ⟨f3, e3, h⟩ := Option.bind_eq_some_iff.mp h
  obtain ⟨f4, e4, h⟩ := Option.bind_eq_some_iff.mp h
  obtain ⟨f5, e5, h⟩ := Option.bind_eq_some_iff.mp h
  obtain ⟨v, ev, h⟩ := Option.bind_eq_some_iff.mp h
  obtain ⟨u, eu, h⟩ := Option.bind_eq_some_iff.mp h
  cases h
  have d : ∀ k, k ∣ |f5| ↔ (((((k ∣ l.d.x ∧ k ∣ l.d.y) ∧ k ∣ l.d.z) ∧ k ∣ l.m.x) ∧ k ∣ l.m.y) ∧ k ∣ l.m.z) := by
    intro k
    rw [dvd_abs, ← gcd?_dvd e1, ← gcd?_dvd e2, ← gcd?_dvd e3, ← gcd?_dvd e4, ← gcd?_dvd e5]
  obtain ⟨⟨⟨⟨⟨dx, dy⟩, dz⟩, mx⟩, my⟩, mz⟩ := (d |f5|).mp dvd_rfl
  obtain ⟨hve, hf⟩ := v3div_some dx dy dz ev
  obtain ⟨hue, _⟩ := v3div_some mx my mz eu
  have hpos : 0 < |f5| := by
    rcases lt_or_eq_of_le (abs_nonneg f5) with h | h
    · exact h
    · exact absurd h.symm hf
  have hq : (|f5| : ℚ) ≠ 0 := by exact_mod_cast hf
  refine ⟨⟨|f5|, hpos, hve, hue⟩, ?_, ?_⟩
  · intro k hk
    have h1 : k * |f5| ∣ |f5| := by
      rw [d, hve, hue]
      simp only [V3.scale]
      exact ⟨⟨⟨⟨⟨mul_dvd_mul_right (hk _ (by simp)) _, mul_dvd_mul_right (hk _ (by simp)) _⟩,
        mul_dvd_mul_right (hk _ (by simp)) _⟩, mul_dvd_mul_right (hk _ (by simp)) _⟩,
        mul_dvd_mul_right (hk _ (by simp)) _⟩, mul_dvd_mul_right (hk _ (by simp)) _⟩
    exact (mul_dvd_mul_iff_right hf).mp (by simpa using h1)
  · rintro p ⟨h1, h2⟩
    refine ⟨?_, ?_⟩
    · intro e
      apply h1
      rw [hve]
      simp only at e
      rw [e]; simp [V3.scale]
    · have g0 := congrFun h2 0; have g1 := congrFun h2 1; have g2 := congrFun h2 2
      rw [hve, hue] at g0 g1 g2
      simp [V3.scale] at g0 g1 g2
      apply q3_ext <;> apply mul_left_cancel₀ hq <;>
        simp only [crossQ_zero, crossQ_one, crossQ_two, V3.q_zero, V3.q_one, V3.q_two]
      · linear_combination g0
      · linear_combination g1
      · linear_combination g2

example : V3.reduce ⟨4, -6, 10⟩ = some ⟨2, -3, 5⟩ := by decide +kernel
example : HP3.reduce ⟨⟨4, -6, 10⟩, -8⟩ = some ⟨⟨-2, 3, -5⟩, 4⟩ := by decide +kernel

/-! ### C62 -/

/-- C62: `ProjectOntoPlane` gives the point of the plane above the 2D point. -/
theorem C62_project_onto_plane (h : HS3) (p : HP2) (i : Fin 3) (hc : h.n.comp i ≠ 0) (hw : p.w ≠ 0) :
    (h.projectOntoPlane p i).w ≠ 0 ∧ h.side (h.projectOntoPlane p i).pt = 0 ∧
    ((h.projectOntoPlane p i).dropDimension i).pt = p.pt := by
  have hwq : (p.w : ℚ) ≠ 0 := by exact_mod_cast hw
  have hcq : (h.n.comp i : ℚ) ≠ 0 := by exact_mod_cast hc
  refine ⟨mul_ne_zero hw hc, ?_, ?_⟩
  · fin_cases i <;>
      simp [HS3.side_eq, HS3.projectOntoPlane, V3.set, V3.zero, V3.comp, V3.componentAfterDrop] at hcq ⊢ <;>
      field_simp <;> ring
  · fin_cases i <;>
      simp [HS3.projectOntoPlane, V3.set, V3.zero, V3.comp, HP3.dropDimension, V3.dropDimension, HP2.pt] at hcq ⊢ <;>
      constructor <;> field_simp

/-- C62: a plane built by extruding a 2D half-plane along an axis. -/
theorem C62_extrude (h : HS2) (i : Fin 3) (q : Q3) :
    (HS3.extrude h i).side q = h.side ![q (i + 1), q (i + 2)] := by
  fin_cases i <;> simp [HS3.side_eq, HS2.side, HS3.extrude, V3.set, V3.zero] <;> ring

/-- C62: an axis aligned plane. -/
theorem C62_axis_aligned (i : Fin 3) (num den : Int) (q : Q3) :
    (HS3.axisAligned i num den).side q = den * q i - num := by
  fin_cases i <;> simp [HS3.side_eq, HS3.axisAligned, V3.set, V3.zero]

/-- C62: adding an offset to a point. -/
theorem C62_add_offset (p : HP3) (dir : V3) (den : Int) (hw : p.w ≠ 0) (hd : den ≠ 0) (i : Fin 3) :
    (p.addOffset dir den).pt i = p.pt i + dir.comp i / den := by
  have hwq : (p.w : ℚ) ≠ 0 := by exact_mod_cast hw
  have hdq : (den : ℚ) ≠ 0 := by exact_mod_cast hd
  fin_cases i <;> simp [HP3.addOffset, V3.comp] <;> field_simp

/-- C62: the difference of two points. -/
theorem C62_difference (a b : HP3) (ha : a.w ≠ 0) (hb : b.w ≠ 0) (i : Fin 3) :
    ((a.difference b).1.comp i : ℚ) / (a.difference b).2 = a.pt i - b.pt i := by
  have haq : (a.w : ℚ) ≠ 0 := by exact_mod_cast ha
  have hbq : (b.w : ℚ) ≠ 0 := by exact_mod_cast hb
  fin_cases i <;> simp [HP3.difference, V3.comp, V3.scale, V3.sub] <;> field_simp

/-- C62: a negated plane has the same boundary and the opposite side. -/
theorem C62_negate (h : HS3) (q : Q3) : h.neg.side q = -(h.side q) := by
  simp [HS3.side_eq, HS3.neg, V3.neg]; ring

/-! ### C26: equality of lines -/

/-- C26: `==` of lines holds iff they have the same points and the same direction. -/
theorem C26_eq (a b : PL) (p p' : Q3) (ha : IsLine a p) (hb : IsLine b p') :
    a.eq b = true ↔ (∀ q, lineThrough p a.d.q q ↔ lineThrough p' b.d.q q) ∧
      ∃ k : ℚ, 0 < k ∧ ∀ i, a.d.q i = k * b.d.q i := by
  have hg : (![b.d.x, b.d.y, b.d.z, b.m.x, b.m.y, b.m.z] : Fin 6 → Int) ≠ 0 := by
    intro e
    apply hb.1
    have h1 := congrFun e 0; have h2 := congrFun e 1; have h3 := congrFun e 2
    simp at h1 h2 h3
    ext <;> assumption
  have key : ∀ {j : Fin 6} {s t : Int}, s ≠ 0 → ![a.d.x, a.d.y, a.d.z, a.m.x, a.m.y, a.m.z] j = s →
      ![b.d.x, b.d.y, b.d.z, b.m.x, b.m.y, b.m.z] j = t →
      ((a.d.x * |t| = b.d.x * |s| ∧ a.d.y * |t| = b.d.y * |s| ∧ a.d.z * |t| = b.d.z * |s| ∧
        a.m.x * |t| = b.m.x * |s| ∧ a.m.y * |t| = b.m.y * |s| ∧ a.m.z * |t| = b.m.z * |s|) ↔
       ∃ k l : Int, 0 < k ∧ 0 < l ∧ a.d.scale k = b.d.scale l ∧ a.m.scale k = b.m.scale l) := by
    intro j s t hs h1 h2
    have := scaled_eq hs h1 h2 hg
    simp only [Fin.forall_fin_succ] at this
    simpa [V3.scale, and_assoc] using this
  have rhs : (∃ k l : Int, 0 < k ∧ 0 < l ∧ a.d.scale k = b.d.scale l ∧ a.m.scale k = b.m.scale l) ↔
      ((∀ q, lineThrough p a.d.q q ↔ lineThrough p' b.d.q q) ∧
      ∃ k : ℚ, 0 < k ∧ ∀ i, a.d.q i = k * b.d.q i) := by
    constructor
    · rintro ⟨k, l, hk, hl, e1, e2⟩
      have kq : (0 : ℚ) < k := by exact_mod_cast hk
      have lq : (0 : ℚ) < l := by exact_mod_cast hl
      have f1 : ∀ i, a.d.q i * k = b.d.q i * l := by
        intro i
        have := congrArg (fun v => ((V3.comp v i : Int) : ℚ)) e1
        fin_cases i <;> simpa [V3.scale, V3.comp] using this
      have f2 : ∀ i, a.m.q i * k = b.m.q i * l := by
        intro i
        have := congrArg (fun v => ((V3.comp v i : Int) : ℚ)) e2
        fin_cases i <;> simpa [V3.scale, V3.comp] using this
      refine ⟨fun q => ?_, ⟨l / k, by positivity, fun i => ?_⟩⟩
      · rw [← onLine_iff ha, ← onLine_iff hb]
        unfold OnLine
        have g : ∀ i, (crossQ q a.d.q i) * k = (crossQ q b.d.q i) * l := by
          intro i
          have d0 := f1 0; have d1 := f1 1; have d2 := f1 2
          fin_cases i <;> simp only [Fin.zero_eta, Fin.mk_one, Fin.reduceFinMk, crossQ_zero, crossQ_one, crossQ_two]
          · linear_combination q 1 * d2 - q 2 * d1
          · linear_combination q 2 * d0 - q 0 * d2
          · linear_combination q 0 * d1 - q 1 * d0
        constructor
        · intro h
          funext i
          have := g i
          rw [h, f2] at this
          exact (mul_right_cancel₀ lq.ne' this).symm
        · intro h
          funext i
          have := g i
          rw [h, ← f2] at this
          exact mul_right_cancel₀ kq.ne' this
      · rw [div_mul_eq_mul_div, eq_div_iff kq.ne']
        linear_combination f1 i
    · rintro ⟨h1, k, hk, h2⟩
      -- p' is on both lines
      have hp : OnLine a p' := (onLine_iff ha p').mpr ((h1 p').mpr ⟨0, fun i => by ring⟩)
      have d0 := h2 0; have d1 := h2 1; have d2 := h2 2
      simp only [V3.q_zero, V3.q_one, V3.q_two] at d0 d1 d2
      have m0 : (a.m.x : ℚ) = k * b.m.x := by
        have u := congrFun hp 0; have v := congrFun hb.2 0
        simp only [crossQ_zero, V3.q_zero, V3.q_one, V3.q_two] at u v
        rw [← u, ← v, d1, d2]; ring
      have m1 : (a.m.y : ℚ) = k * b.m.y := by
        have u := congrFun hp 1; have v := congrFun hb.2 1
        simp only [crossQ_one, V3.q_zero, V3.q_one, V3.q_two] at u v
        rw [← u, ← v, d0, d2]; ring
      have m2 : (a.m.z : ℚ) = k * b.m.z := by
        have u := congrFun hp 2; have v := congrFun hb.2 2
        simp only [crossQ_two, V3.q_zero, V3.q_one, V3.q_two] at u v
        rw [← u, ← v, d0, d1]; ring
      have hden : (k.den : ℚ) ≠ 0 := by exact_mod_cast k.den_nz
      have hk' : k * k.den = k.num := Rat.mul_den_eq_num k
      refine ⟨k.den, k.num, by exact_mod_cast k.den_pos, Rat.num_pos.mpr hk, ?_, ?_⟩
      · ext <;> simp only [V3.scale]
        · have : (a.d.x : ℚ) * k.den = b.d.x * k.num := by rw [d0, ← hk']; ring
          exact_mod_cast this
        · have : (a.d.y : ℚ) * k.den = b.d.y * k.num := by rw [d1, ← hk']; ring
          exact_mod_cast this
        · have : (a.d.z : ℚ) * k.den = b.d.z * k.num := by rw [d2, ← hk']; ring
          exact_mod_cast this
      · ext <;> simp only [V3.scale]
        · have : (a.m.x : ℚ) * k.den = b.m.x * k.num := by rw [m0, ← hk']; ring
          exact_mod_cast this
        · have : (a.m.y : ℚ) * k.den = b.m.y * k.num := by rw [m1, ← hk']; ring
          exact_mod_cast this
        · have : (a.m.z : ℚ) * k.den = b.m.z * k.num := by rw [m2, ← hk']; ring
          exact_mod_cast this
  rw [← rhs]
  unfold PL.eq
  by_cases hx : a.d.x = 0
  · by_cases hy : a.d.y = 0
    · have hz : a.d.z ≠ 0 := by
        intro hz; apply ha.1; ext <;> assumption
      rw [← key (j := 2) hz rfl rfl, hx, hy]; simp
    · rw [← key (j := 1) hy rfl rfl, hx]; simp [hy]
  · rw [← key (j := 0) hx rfl rfl]; simp [hx]

end Walnut.Props
