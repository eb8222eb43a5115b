/-
Properties C26-C28: lines, bounding boxes and the R transformation.
-/
import Verif.Geom.QLemmas

namespace Walnut.Props
open Walnut.Geom

/-! ### C26 -/

/-- The line through `p` with direction `d`, as a set of points. -/
def lineThrough (p d : Q3) (q : Q3) : Prop := ∃ t : ℚ, ∀ i, q i = p i + t * d i

/-- `l` is the line through `p` in its direction (which is not zero). -/
def IsLine (l : PL) (p : Q3) : Prop := l.d ≠ ⟨0, 0, 0⟩ ∧ crossQ p l.d.q = l.m.q

/-- The point's incidence with the line as the code tests it. -/
def OnLine (l : PL) (q : Q3) : Prop := crossQ q l.d.q = l.m.q

theorem vec_ne_zero_q {d : V3} (h : d ≠ ⟨0, 0, 0⟩) :
    (0 : ℚ) < d.x * d.x + d.y * d.y + d.z * d.z := by exact_mod_cast V3.dot_self_pos h

theorem onLine_iff {l : PL} {p : Q3} (h : IsLine l p) (q : Q3) : OnLine l q ↔ lineThrough p l.d.q q := by
  obtain ⟨hd, hp⟩ := h
  unfold OnLine
  rw [← hp]
  have hpos := vec_ne_zero_q hd
  constructor
  · intro h
    have e0 := congrFun h 0; have e1 := congrFun h 1; have e2 := congrFun h 2
    simp at e0 e1 e2
    have hc := inv_mul_cancel₀ hpos.ne'
    refine ⟨(l.d.x * l.d.x + l.d.y * l.d.y + l.d.z * l.d.z : ℚ)⁻¹ *
      ((q 0 - p 0) * l.d.x + (q 1 - p 1) * l.d.y + (q 2 - p 2) * l.d.z), fun i => ?_⟩
    generalize (l.d.x * l.d.x + l.d.y * l.d.y + l.d.z * l.d.z : ℚ)⁻¹ = c at hc
    fin_cases i
    · simp; linear_combination (p 0 - q 0) * hc + c * (l.d.y * e2 - l.d.z * e1)
    · simp; linear_combination (p 1 - q 1) * hc + c * (l.d.z * e0 - l.d.x * e2)
    · simp; linear_combination (p 2 - q 2) * hc + c * (l.d.x * e1 - l.d.y * e0)
  · rintro ⟨t, ht⟩
    apply q3_ext <;> simp [ht] <;> ring

theorem isCoincident_iff (l : PL) (p : HP3) (h : p.w ≠ 0) : l.isCoincident p = true ↔ OnLine l p.pt := by
  have hq : (p.w : ℚ) ≠ 0 := by exact_mod_cast h
  unfold PL.isCoincident OnLine
  rw [decide_eq_true_eq, V3.ext_iff]
  simp only [V3.cross, V3.scale]
  constructor
  · rintro ⟨h0, h1, h2⟩
    have f0 : ((p.v.y * l.d.z - p.v.z * l.d.y : Int) : ℚ) = ((l.m.x * p.w : Int) : ℚ) := by exact_mod_cast h0
    have f1 : ((p.v.z * l.d.x - p.v.x * l.d.z : Int) : ℚ) = ((l.m.y * p.w : Int) : ℚ) := by exact_mod_cast h1
    have f2 : ((p.v.x * l.d.y - p.v.y * l.d.x : Int) : ℚ) = ((l.m.z * p.w : Int) : ℚ) := by exact_mod_cast h2
    push_cast at f0 f1 f2
    apply q3_ext
    · simp; field_simp; linear_combination f0
    · simp; field_simp; linear_combination f1
    · simp; field_simp; linear_combination f2
  · intro h
    have e0 := congrFun h 0; have e1 := congrFun h 1; have e2 := congrFun h 2
    simp at e0 e1 e2
    field_simp at e0 e1 e2
    refine ⟨?_, ?_, ?_⟩
    · have : ((p.v.y * l.d.z - p.v.z * l.d.y : Int) : ℚ) = ((l.m.x * p.w : Int) : ℚ) := by
        push_cast; linear_combination e0
      exact_mod_cast this
    · have : ((p.v.z * l.d.x - p.v.x * l.d.z : Int) : ℚ) = ((l.m.y * p.w : Int) : ℚ) := by
        push_cast; linear_combination e1
      exact_mod_cast this
    · have : ((p.v.x * l.d.y - p.v.y * l.d.x : Int) : ℚ) = ((l.m.z * p.w : Int) : ℚ) := by
        push_cast; linear_combination e2
      exact_mod_cast this

/-- C26: `IsCoincident(point)` decides membership in the line. -/
theorem C26_is_coincident (l : PL) (p : Q3) (h : IsLine l p) (r : HP3) (hr : r.w ≠ 0) :
    l.isCoincident r = true ↔ lineThrough p l.d.q r.pt := by
  rw [isCoincident_iff l r hr, onLine_iff h]

/-- C26: the same for points with integer coordinates. -/
theorem C26_is_coincident_point (l : PL) (p : Q3) (h : IsLine l p) (r : V3) :
    l.isCoincidentPoint r = true ↔ lineThrough p l.d.q r.q := by
  have h1 := C26_is_coincident l p h (HP3.ofPoint r) (by simp [HP3.ofPoint])
  have h2 : (HP3.ofPoint r).pt = r.q := by funext i; simp [HP3.pt, HP3.ofPoint, V3.q]
  rw [h2] at h1
  rw [← h1]
  simp [PL.isCoincidentPoint, PL.isCoincident, HP3.ofPoint, V3.scale]

/-- C26: the line through two points. -/
theorem C26_of_points (p1 p2 : HP3) (h1 : p1.w ≠ 0) (h2 : p2.w ≠ 0) (hne : p1.pt ≠ p2.pt) :
    IsLine (PL.ofHomoPoints p1 p2) p1.pt ∧ IsLine (PL.ofHomoPoints p1 p2) p2.pt ∧
    ∃ k : ℚ, 0 < k ∧ ∀ i, (PL.ofHomoPoints p1 p2).d.q i = k * (p2.pt i - p1.pt i) := by
  have q1 : (p1.w : ℚ) ≠ 0 := by exact_mod_cast h1
  have q2 : (p2.w : ℚ) ≠ 0 := by exact_mod_cast h2
  have e : ((p1.w : ℚ) * p2.w * absMult2 p1.w p2.w) = |(p1.w : ℚ) * p2.w| := by
    exact_mod_cast absMult2_mul_self h1 h2
  have dir : ∀ i, (PL.ofHomoPoints p1 p2).d.q i = |(p1.w : ℚ) * p2.w| * (p2.pt i - p1.pt i) := by
    intro i
    rw [← e]
    fin_cases i <;> simp [PL.ofHomoPoints, V3.scale, V3.sub] <;> field_simp
  have hpos : (0 : ℚ) < |(p1.w : ℚ) * p2.w| := by positivity
  have hd : (PL.ofHomoPoints p1 p2).d ≠ ⟨0, 0, 0⟩ := by
    intro h0
    apply hne
    funext i
    have := dir i
    rw [h0] at this
    have hz : (⟨0, 0, 0⟩ : V3).q i = 0 := by fin_cases i <;> rfl
    rw [hz] at this
    have := (mul_eq_zero.mp this.symm).resolve_left hpos.ne'
    linarith
  refine ⟨⟨hd, ?_⟩, ⟨hd, ?_⟩, _, hpos, dir⟩
  · apply q3_ext <;> simp [PL.ofHomoPoints, V3.scale, V3.sub, V3.cross] <;> field_simp <;> ring
  · apply q3_ext <;> simp [PL.ofHomoPoints, V3.scale, V3.sub, V3.cross] <;> field_simp <;> ring

theorem C26_of_int_points (p1 p2 : V3) (hne : p1 ≠ p2) :
    IsLine (PL.ofPoints p1 p2) p1.q ∧ IsLine (PL.ofPoints p1 p2) p2.q ∧
    ∀ i, (PL.ofPoints p1 p2).d.q i = p2.q i - p1.q i := by
  have hd : (PL.ofPoints p1 p2).d ≠ ⟨0, 0, 0⟩ := by
    intro h0
    apply hne
    simp only [PL.ofPoints, V3.sub, V3.mk.injEq] at h0
    ext <;> omega
  refine ⟨⟨hd, ?_⟩, ⟨hd, ?_⟩, ?_⟩
  · apply q3_ext <;> simp [PL.ofPoints, V3.sub, V3.cross] <;> ring
  · apply q3_ext <;> simp [PL.ofPoints, V3.sub, V3.cross] <;> ring
  · intro i; fin_cases i <;> simp [PL.ofPoints, V3.sub]

/-- C26: the line built from two planes that are not parallel contains exactly the
points on both, and it is a line through each of them. -/
theorem C26_of_planes (a b : HS3) (hn : a.n.cross b.n ≠ ⟨0, 0, 0⟩) (q : Q3) :
    (a.side q = 0 ∧ b.side q = 0) ↔ IsLine (PL.ofPlanes a b) q := by
  constructor
  · rintro ⟨h1, h2⟩
    refine ⟨hn, ?_⟩
    rw [HS3.side_eq] at h1 h2
    apply q3_ext <;> simp [PL.ofPlanes, V3.cross]
    · linear_combination a.n.x * h2 - b.n.x * h1
    · linear_combination a.n.y * h2 - b.n.y * h1
    · linear_combination a.n.z * h2 - b.n.z * h1
  · rintro ⟨_, h⟩
    have e0 := congrFun h 0; have e1 := congrFun h 1; have e2 := congrFun h 2
    simp [PL.ofPlanes, V3.cross] at e0 e1 e2
    have hpos := vec_ne_zero_q hn
    simp only [V3.cross] at hpos
    push_cast at hpos
    rw [HS3.side_eq, HS3.side_eq]
    constructor
    · -- a.side times |a × b|² is a combination of the three equations
      refine (mul_eq_zero.mp (?_ : ((a.n.y * b.n.z - a.n.z * b.n.y) * (a.n.y * b.n.z - a.n.z * b.n.y) +
        (a.n.z * b.n.x - a.n.x * b.n.z) * (a.n.z * b.n.x - a.n.x * b.n.z) +
        (a.n.x * b.n.y - a.n.y * b.n.x) * (a.n.x * b.n.y - a.n.y * b.n.x) : ℚ) * _ = 0)).resolve_left hpos.ne'
      linear_combination
        ((a.n.y : ℚ) * b.n.z - a.n.z * b.n.y) * (((a.n.z : ℚ)) * e1 - (a.n.y : ℚ) * e2) +
        ((a.n.z : ℚ) * b.n.x - a.n.x * b.n.z) * (((a.n.x : ℚ)) * e2 - (a.n.z : ℚ) * e0) +
        ((a.n.x : ℚ) * b.n.y - a.n.y * b.n.x) * (((a.n.y : ℚ)) * e0 - (a.n.x : ℚ) * e1)
    · refine (mul_eq_zero.mp (?_ : ((a.n.y * b.n.z - a.n.z * b.n.y) * (a.n.y * b.n.z - a.n.z * b.n.y) +
        (a.n.z * b.n.x - a.n.x * b.n.z) * (a.n.z * b.n.x - a.n.x * b.n.z) +
        (a.n.x * b.n.y - a.n.y * b.n.x) * (a.n.x * b.n.y - a.n.y * b.n.x) : ℚ) * _ = 0)).resolve_left hpos.ne'
      linear_combination
        ((a.n.y : ℚ) * b.n.z - a.n.z * b.n.y) * (((b.n.z : ℚ)) * e1 - (b.n.y : ℚ) * e2) +
        ((a.n.z : ℚ) * b.n.x - a.n.x * b.n.z) * (((b.n.x : ℚ)) * e2 - (b.n.z : ℚ) * e0) +
        ((a.n.x : ℚ) * b.n.y - a.n.y * b.n.x) * (((b.n.y : ℚ)) * e0 - (b.n.x : ℚ) * e1)

/-- C26: the intersection of a line with a plane that is not parallel to it is the
only common point. -/
theorem C26_intersect (l : PL) (p : Q3) (hl : IsLine l p) (h : HS3) (hn : h.n.dot l.d ≠ 0) :
    (l.intersect h).w ≠ 0 ∧ h.side (l.intersect h).pt = 0 ∧
    lineThrough p l.d.q (l.intersect h).pt ∧
    ∀ q, h.side q = 0 → lineThrough p l.d.q q → q = (l.intersect h).pt := by
  have hw : (l.intersect h).w ≠ 0 := hn
  have hq : ((h.n.x : ℚ) * l.d.x + h.n.y * l.d.y + h.n.z * l.d.z) ≠ 0 := by
    have : ((h.n.dot l.d : Int) : ℚ) ≠ 0 := by exact_mod_cast hn
    simpa [V3.dot] using this
  have e := hl.2
  have e0 := congrFun e 0; have e1 := congrFun e 1; have e2 := congrFun e 2
  simp at e0 e1 e2
  obtain ⟨W, hW⟩ : ∃ W : ℚ, W = (h.n.x : ℚ) * l.d.x + h.n.y * l.d.y + h.n.z * l.d.z := ⟨_, rfl⟩
  rw [← hW] at hq
  have p0 : (l.intersect h).pt 0 = (h.n.y * l.m.z - h.n.z * l.m.y + l.d.x * h.d) / W := by
    simp [PL.intersect, V3.cross, V3.add, V3.scale, V3.dot, hW]
  have p1 : (l.intersect h).pt 1 = (h.n.z * l.m.x - h.n.x * l.m.z + l.d.y * h.d) / W := by
    simp [PL.intersect, V3.cross, V3.add, V3.scale, V3.dot, hW]
  have p2 : (l.intersect h).pt 2 = (h.n.x * l.m.y - h.n.y * l.m.x + l.d.z * h.d) / W := by
    simp [PL.intersect, V3.cross, V3.add, V3.scale, V3.dot, hW]
  refine ⟨hw, ?_, ?_, ?_⟩
  · rw [HS3.side_eq, p0, p1, p2]
    field_simp
    rw [hW]; ring
  · refine ⟨-(h.side p) / W, fun i => ?_⟩
    rw [HS3.side_eq]
    fin_cases i
    · simp only [Fin.zero_eta, p0, V3.q_zero]
      field_simp
      rw [hW, ← e1, ← e2]; ring
    · simp only [Fin.mk_one, p1, V3.q_one]
      field_simp
      rw [hW, ← e0, ← e2]; ring
    · simp only [Fin.reduceFinMk, p2, V3.q_two]
      field_simp
      rw [hW, ← e0, ← e1]; ring
  · rintro q hs ⟨t, ht⟩
    rw [HS3.side_eq] at hs
    have h0 := ht 0; have h1 := ht 1; have h2 := ht 2
    simp only [V3.q_zero, V3.q_one, V3.q_two] at h0 h1 h2
    apply q3_ext
    · rw [p0, eq_div_iff hq, hW, ← e1, ← e2]
      linear_combination l.d.x * hs - h.n.y * (l.d.x * h1 - l.d.y * h0) + h.n.z * (l.d.z * h0 - l.d.x * h2)
    · rw [p1, eq_div_iff hq, hW, ← e0, ← e2]
      linear_combination l.d.y * hs - h.n.z * (l.d.y * h2 - l.d.z * h1) + h.n.x * (l.d.x * h1 - l.d.y * h0)
    · rw [p2, eq_div_iff hq, hW, ← e0, ← e1]
      linear_combination l.d.z * hs - h.n.x * (l.d.z * h0 - l.d.x * h2) + h.n.y * (l.d.y * h2 - l.d.z * h1)

/-- C26: `IsCoincident(plane)` holds iff every point of the line is on the plane. -/
theorem C26_is_coincident_plane (l : PL) (p : Q3) (hl : IsLine l p) (h : HS3) :
    l.isCoincidentPlane h = true ↔ ∀ q, lineThrough p l.d.q q → h.side q = 0 := by
  have e := hl.2
  have e0 := congrFun e 0; have e1 := congrFun e 1; have e2 := congrFun e 2
  simp at e0 e1 e2
  have hpos := vec_ne_zero_q hl.1
  have lhs : l.isCoincidentPlane h = true ↔
      ((l.d.x : ℚ) * h.n.x + l.d.y * h.n.y + l.d.z * h.n.z = 0 ∧
       (l.d.x : ℚ) * h.d = l.m.y * h.n.z - l.m.z * h.n.y ∧
       (l.d.y : ℚ) * h.d = l.m.z * h.n.x - l.m.x * h.n.z ∧
       (l.d.z : ℚ) * h.d = l.m.x * h.n.y - l.m.y * h.n.x) := by
    unfold PL.isCoincidentPlane
    rw [decide_eq_true_eq, V3.ext_iff]
    simp only [V3.dot, V3.scale, V3.cross]
    exact_mod_cast Iff.rfl
  rw [lhs]
  constructor
  · rintro ⟨h0, h1, h2, h3⟩ q ⟨t, ht⟩
    have g0 := ht 0; have g1 := ht 1; have g2 := ht 2
    simp only [V3.q_zero, V3.q_one, V3.q_two] at g0 g1 g2
    rw [← e1, ← e2] at h1
    rw [← e0, ← e2] at h2
    rw [← e0, ← e1] at h3
    have hs : h.side p = 0 := by
      rw [HS3.side_eq]
      refine (mul_eq_zero.mp (?_ : (l.d.x * l.d.x + l.d.y * l.d.y + l.d.z * l.d.z : ℚ) * _ = 0)).resolve_left hpos.ne'
      linear_combination (p 0 * l.d.x + p 1 * l.d.y + p 2 * l.d.z) * h0 - l.d.x * h1 - l.d.y * h2 - l.d.z * h3
    rw [HS3.side_eq] at hs ⊢
    rw [g0, g1, g2]
    linear_combination hs + t * h0
  · intro hall
    have hp := hall p ⟨0, fun i => by ring⟩
    have hp1 := hall (fun i => p i + 1 * l.d.q i) ⟨1, fun i => rfl⟩
    rw [HS3.side_eq] at hp hp1
    simp only [V3.q_zero, V3.q_one, V3.q_two] at hp1
    have h0 : (l.d.x : ℚ) * h.n.x + l.d.y * h.n.y + l.d.z * h.n.z = 0 := by
      linear_combination hp1 - hp
    refine ⟨h0, ?_, ?_, ?_⟩
    · rw [← e1, ← e2]; linear_combination p 0 * h0 - l.d.x * hp
    · rw [← e0, ← e2]; linear_combination p 1 * h0 - l.d.y * hp
    · rw [← e0, ← e1]; linear_combination p 2 * h0 - l.d.z * hp

/-- C26: `Project2D`: if the projected direction is not zero, the 2D line contains
exactly the projections of the line's points. -/
theorem C26_project2D (l : PL) (p : Q3) (hl : IsLine l p) (i : Fin 3)
    (hn : l.d.dropDimension i ≠ ⟨0, 0⟩) (u : Q2) :
    (l.project2D i).side u = 0 ↔ ∃ q, lineThrough p l.d.q q ∧ u 0 = q (i + 1) ∧ u 1 = q (i + 2) := by
  have e := hl.2
  have hm : crossQ p l.d.q i = p (i + 1) * l.d.q (i + 2) - p (i + 2) * l.d.q (i + 1) := by
    fin_cases i <;> rfl
  rw [e] at hm
  have key : (l.project2D i).side u = -(l.d.q (i + 2)) * u 0 + l.d.q (i + 1) * u 1 + l.m.q i := by
    simp [HS2.side, PL.project2D, V2.perp, V3.dropDimension, V3.q]
  rw [key, hm]
  constructor
  · intro h
    have hpos : (0 : ℚ) < l.d.q (i + 1) * l.d.q (i + 1) + l.d.q (i + 2) * l.d.q (i + 2) := by
      by_contra hc
      apply hn
      have n1 := mul_self_nonneg (l.d.q (i + 1))
      have n2 := mul_self_nonneg (l.d.q (i + 2))
      have z1 : l.d.q (i + 1) = 0 := mul_self_eq_zero.mp (by linarith)
      have z2 : l.d.q (i + 2) = 0 := mul_self_eq_zero.mp (by linarith)
      simp only [V3.q, Int.cast_eq_zero] at z1 z2
      simp [V3.dropDimension, z1, z2]
    have hc := inv_mul_cancel₀ hpos.ne'
    generalize hcc : (l.d.q (i + 1) * l.d.q (i + 1) + l.d.q (i + 2) * l.d.q (i + 2))⁻¹ = c at hc
    let t := c * ((u 0 - p (i + 1)) * l.d.q (i + 1) + (u 1 - p (i + 2)) * l.d.q (i + 2))
    refine ⟨fun j => p j + t * l.d.q j, ⟨t, fun _ => rfl⟩, ?_, ?_⟩
    · simp only [t]
      linear_combination (p (i + 1) - u 0) * hc - c * l.d.q (i + 2) * h
    · simp only [t]
      linear_combination (p (i + 2) - u 1) * hc + c * l.d.q (i + 1) * h
  · rintro ⟨q, ⟨t, ht⟩, h0, h1⟩
    rw [h0, h1, ht, ht]; ring

/-- C26: a line negated is the same set with opposite direction. -/
theorem C26_neg (l : PL) (p : Q3) (h : IsLine l p) :
    IsLine l.neg p ∧ ∀ i, l.neg.d.q i = -(l.d.q i) := by
  refine ⟨⟨?_, ?_⟩, ?_⟩
  · intro e
    apply h.1
    simp only [PL.neg, V3.neg, V3.mk.injEq] at e
    ext <;> simp <;> omega
  · have e := h.2
    have e0 := congrFun e 0; have e1 := congrFun e 1; have e2 := congrFun e 2
    simp at e0 e1 e2
    apply q3_ext <;> simp [PL.neg, V3.neg]
    · linear_combination -e0
    · linear_combination -e1
    · linear_combination -e2
  · intro i; fin_cases i <;> simp [PL.neg, V3.neg]

example : IsLine (PL.ofHomoPoints ⟨⟨1, 0, 0⟩, -1⟩ ⟨⟨0, 1, 0⟩, 2⟩) (HP3.pt ⟨⟨1, 0, 0⟩, -1⟩) :=
  (C26_of_points _ _ (by decide) (by decide) (by
    intro h; have := congrFun h 0; norm_num at this)).1

end Walnut.Props
