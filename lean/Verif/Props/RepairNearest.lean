/-
C66: where a vertex with one or two planes is moved to; C55: when `HasLargePlane` answers yes.
-/
import Verif.Props.Repair
import Verif.Props.Nudge
import Verif.Geom.Bridge
import Verif.Poly.Plane2

namespace Walnut.Props
open Walnut Walnut.Geom Walnut.Repair Walnut.Poly

/-- The square of the distance of two points. -/
def distSq (p q : Q3) : ℚ := (p 0 - q 0) * (p 0 - q 0) + (p 1 - q 1) * (p 1 - q 1) + (p 2 - q 2) * (p 2 - q 2)

theorem nearest_of_perp {p v q : Q3} (h : (q 0 - p 0) * (p 0 - v 0) + (q 1 - p 1) * (p 1 - v 1) + (q 2 - p 2) * (p 2 - v 2) = 0) :
    distSq p v ≤ distSq q v := by
  have e : distSq q v = distSq p v + distSq q p := by unfold distSq; linear_combination 2 * h
  rw [e]
  unfold distSq
  nlinarith [mul_self_nonneg (q 0 - p 0), mul_self_nonneg (q 1 - p 1), mul_self_nonneg (q 2 - p 2)]

theorem sumSq_ne {v : V3} (h : v ≠ ⟨0, 0, 0⟩) : v.x * v.x + v.y * v.y + v.z * v.z ≠ 0 := by
  intro e
  apply h
  have h1 := mul_self_nonneg v.x; have h2 := mul_self_nonneg v.y; have h3 := mul_self_nonneg v.z
  ext
  · exact mul_self_eq_zero.1 (by omega)
  · exact mul_self_eq_zero.1 (by omega)
  · exact mul_self_eq_zero.1 (by omega)

/-- C66: a vertex that belongs to one plane, or to two planes that are not parallel, is moved to the nearest point of the plane or
of the line where the planes meet; in particular it is not moved to infinity. -/
theorem C66_nearest {v v' : VInfo} (hw : v.point.w ≠ 0) (h : v.finalize = some v')
    (hadj : (∃ a : HS3, v.adjacent = [a] ∧ a.n ≠ ⟨0, 0, 0⟩) ∨ ∃ a b : HS3, v.adjacent = [a, b] ∧ a.n.cross b.n ≠ ⟨0, 0, 0⟩) :
    v'.point.w ≠ 0 ∧ (∀ a ∈ v.adjacent, a.side v'.point.pt = 0) ∧
      ∀ q : Q3, (∀ a ∈ v.adjacent, a.side q = 0) → distSq v'.point.pt v.point.pt ≤ distSq q v.point.pt := by
  have hs := VInfo.finalize_spec h
  unfold VInfo.finalize at h
  by_cases hc : v.adjacent.all (·.isCoincident v.point) = true
  · rw [if_pos hc] at h
    simp only [Option.some.injEq] at h; subst h
    refine ⟨hw, hs.2 hw, fun q _ => ?_⟩
    exact nearest_of_perp (by ring)
  · rw [if_neg hc] at h
    simp only [Option.bind_eq_bind, Option.bind_eq_some_iff] at h
    obtain ⟨p, hp, r, hr, h⟩ := h
    simp at h; subst h
    have hwq : (v.point.w : ℚ) ≠ 0 := by exact_mod_cast hw
    rcases hadj with ⟨a, ha, hn⟩ | ⟨a, b, hab, hn⟩
    · rw [ha] at hp hs ⊢
      simp only [Option.some.injEq] at hp; subst hp
      have hpw : ((PL.ofHomoPoints v.point (v.point.addOffset a.n 1)).intersect a).w ≠ 0 := by
        have e : ((PL.ofHomoPoints v.point (v.point.addOffset a.n 1)).intersect a).w =
            (a.n.x * a.n.x + a.n.y * a.n.y + a.n.z * a.n.z) * (v.point.w * v.point.w * absMult2 v.point.w (1 * v.point.w)) := by
          simp only [PL.intersect, PL.ofHomoPoints, HP3.addOffset, V3.dot, V3.scale, V3.sub]; ring
        rw [e]
        refine mul_ne_zero (sumSq_ne hn) (mul_ne_zero (mul_ne_zero hw hw) ?_)
        unfold absMult2; split_ifs <;> norm_num
      obtain ⟨hpt, hrw, -⟩ := C61_point_reduce _ r hpw hr
      have hon := hs.2 hrw.ne'
      refine ⟨hrw.ne', hon, fun q hq => ?_⟩
      apply nearest_of_perp
      have h1 := hon a (by simp)
      have h2 := hq a (by simp)
      rw [HS3.side_eq] at h1 h2
      -- the displacement is a multiple of the normal
      obtain ⟨c, hcn⟩ : ∃ c : ℚ, ∀ i, r.pt i - v.point.pt i = c * a.n.comp i := by
        rw [hpt]
        have hpw' : (((PL.ofHomoPoints v.point (v.point.addOffset a.n 1)).intersect a).w : ℚ) ≠ 0 := by exact_mod_cast hpw
        refine ⟨((a.d * v.point.w - a.n.dot v.point.v : Int) : ℚ) * v.point.w * absMult2 v.point.w (1 * v.point.w) /
          (((PL.ofHomoPoints v.point (v.point.addOffset a.n 1)).intersect a).w : ℚ), fun i => ?_⟩
        unfold HP3.pt
        rw [div_sub_div _ _ hpw' hwq, div_mul_eq_mul_div, div_eq_div_iff (mul_ne_zero hpw' hwq) hpw']
        obtain rfl | rfl | rfl := fin3 i <;>
          simp only [PL.intersect, PL.ofHomoPoints, HP3.addOffset, V3.dot, V3.scale, V3.sub, V3.cross, V3.add, V3.comp] <;>
          push_cast <;> ring
      have c0 := hcn 0; have c1 := hcn 1; have c2 := hcn 2
      simp only [V3.comp] at c0 c1 c2
      change _ * (r.pt 0 - _) + _ * (r.pt 1 - _) + _ * (r.pt 2 - _) = 0
      rw [c0, c1, c2]
      change ↑a.n.x * r.pt 0 + ↑a.n.y * r.pt 1 + ↑a.n.z * r.pt 2 - ↑a.d = 0 at h1
      change (q 0 - r.pt 0) * _ + (q 1 - r.pt 1) * _ + (q 2 - r.pt 2) * _ = 0
      linear_combination c * (h2 - h1)
    · rw [hab] at hp hs ⊢
      simp only [Option.some.injEq] at hp; subst hp
      generalize hl : PL.ofPlanes a b = l at *
      have hld : l.d = a.n.cross b.n := by rw [← hl]; rfl
      have hpw : (l.intersect (HS3.ofNormalPoint l.d v.point)).w ≠ 0 := by
        have e : (l.intersect (HS3.ofNormalPoint l.d v.point)).w = (l.d.x * l.d.x + l.d.y * l.d.y + l.d.z * l.d.z) * |v.point.w| := by
          simp only [PL.intersect, HS3.ofNormalPoint, V3.dot, V3.scale]; ring
        rw [e]
        exact mul_ne_zero (sumSq_ne (by rw [hld]; exact hn)) (abs_ne_zero.2 hw)
      obtain ⟨hpt, hrw, -⟩ := C61_point_reduce _ r hpw hr
      have hon := hs.2 hrw.ne'
      refine ⟨hrw.ne', hon, fun q hq => ?_⟩
      apply nearest_of_perp
      have a1 := hon a (by simp); have a2 := hq a (by simp)
      have b1 := hon b (by simp); have b2 := hq b (by simp)
      change a.side r.pt = 0 at a1
      change b.side r.pt = 0 at b1
      rw [HS3.side_eq] at a1 a2 b1 b2
      -- the displacement is perpendicular to the line
      have hd : (l.d.x : ℚ) * (r.pt 0 - v.point.pt 0) + l.d.y * (r.pt 1 - v.point.pt 1) + l.d.z * (r.pt 2 - v.point.pt 2) = 0 := by
        rw [hpt]
        have hpw' : ((l.intersect (HS3.ofNormalPoint l.d v.point)).w : ℚ) ≠ 0 := by exact_mod_cast hpw
        have hm : l.d.dot l.m = 0 := by
          rw [← hl]; simp only [PL.ofPlanes, V3.dot, V3.cross]; ring
        have hX : l.d.dot (l.intersect (HS3.ofNormalPoint l.d v.point)).v * v.point.w =
            l.d.dot v.point.v * (l.intersect (HS3.ofNormalPoint l.d v.point)).w := by
          simp only [PL.intersect, HS3.ofNormalPoint, V3.dot, V3.scale, V3.cross, V3.add]
          rcases lt_or_gt_of_ne hw with hw | hw
          · rw [if_pos hw, abs_of_neg hw]; ring
          · rw [if_neg (by omega), abs_of_pos hw]; ring
        have hX' : ((l.d.x : ℚ) * (l.intersect (HS3.ofNormalPoint l.d v.point)).v.x + l.d.y * (l.intersect (HS3.ofNormalPoint l.d v.point)).v.y +
            l.d.z * (l.intersect (HS3.ofNormalPoint l.d v.point)).v.z) * v.point.w =
            (l.d.x * v.point.v.x + l.d.y * v.point.v.y + l.d.z * v.point.v.z) * (l.intersect (HS3.ofNormalPoint l.d v.point)).w := by
          simp only [V3.dot] at hX; exact_mod_cast hX
        simp only [HP3.pt, V3.comp]
        field_simp
        linear_combination hX'
      -- the two points are on the line
      have hx : ∃ c : ℚ, ∀ i, q i - r.pt i = c * l.d.comp i := by
        have e1 : (a.n.x : ℚ) * (q 0 - r.pt 0) + a.n.y * (q 1 - r.pt 1) + a.n.z * (q 2 - r.pt 2) = 0 := by linear_combination a2 - a1
        have e2 : (b.n.x : ℚ) * (q 0 - r.pt 0) + b.n.y * (q 1 - r.pt 1) + b.n.z * (q 2 - r.pt 2) = 0 := by linear_combination b2 - b1
        have s0 : ((l.d.x : ℚ) * l.d.x + l.d.y * l.d.y + l.d.z * l.d.z) ≠ 0 := by
          have := sumSq_ne (v := l.d) (by rw [hld]; exact hn)
          exact_mod_cast this
        refine ⟨((l.d.x : ℚ) * (q 0 - r.pt 0) + l.d.y * (q 1 - r.pt 1) + l.d.z * (q 2 - r.pt 2)) /
          ((l.d.x : ℚ) * l.d.x + l.d.y * l.d.y + l.d.z * l.d.z), fun i => ?_⟩
        rw [div_mul_eq_mul_div, eq_div_iff s0]
        have dx : (l.d.x : ℚ) = a.n.y * b.n.z - a.n.z * b.n.y := by rw [hld]; simp [V3.cross]
        have dy : (l.d.y : ℚ) = a.n.z * b.n.x - a.n.x * b.n.z := by rw [hld]; simp [V3.cross]
        have dz : (l.d.z : ℚ) = a.n.x * b.n.y - a.n.y * b.n.x := by rw [hld]; simp [V3.cross]
        obtain rfl | rfl | rfl := fin3 i <;> simp only [V3.comp, dx, dy, dz]
        · linear_combination ((a.n.z * b.n.x - a.n.x * b.n.z : ℚ) * a.n.z - (a.n.x * b.n.y - a.n.y * b.n.x) * a.n.y) * e2 -
            ((a.n.z * b.n.x - a.n.x * b.n.z : ℚ) * b.n.z - (a.n.x * b.n.y - a.n.y * b.n.x) * b.n.y) * e1
        · linear_combination ((a.n.x * b.n.y - a.n.y * b.n.x : ℚ) * a.n.x - (a.n.y * b.n.z - a.n.z * b.n.y) * a.n.z) * e2 -
            ((a.n.x * b.n.y - a.n.y * b.n.x : ℚ) * b.n.x - (a.n.y * b.n.z - a.n.z * b.n.y) * b.n.z) * e1
        · linear_combination ((a.n.y * b.n.z - a.n.z * b.n.y : ℚ) * a.n.y - (a.n.z * b.n.x - a.n.x * b.n.z) * a.n.x) * e2 -
            ((a.n.y * b.n.z - a.n.z * b.n.y : ℚ) * b.n.y - (a.n.z * b.n.x - a.n.x * b.n.z) * b.n.x) * e1
      obtain ⟨c, hc⟩ := hx
      have c0 := hc 0; have c1 := hc 1; have c2 := hc 2
      simp only [V3.comp] at c0 c1 c2
      change (q 0 - r.pt 0) * (r.pt 0 - _) + (q 1 - r.pt 1) * (r.pt 1 - _) + (q 2 - r.pt 2) * (r.pt 2 - _) = 0
      rw [c0, c1, c2]
      linear_combination c * hd

/-- A corner at the origin that belongs to the planes `x = 1` and `y = 2` moves to `(1, 2, 0)`. -/
example : (⟨[⟨⟨1, 0, 0⟩, 1⟩, ⟨⟨0, 1, 0⟩, 2⟩], ipt 0 0 0⟩ : VInfo).finalize = some ⟨[⟨⟨1, 0, 0⟩, 1⟩, ⟨⟨0, 1, 0⟩, 2⟩], ipt 1 2 0⟩ ∧
    (⟨[⟨⟨0, 0, 3⟩, 6⟩], ipt 1 1 0⟩ : VInfo).finalize = some ⟨[⟨⟨0, 0, 3⟩, 6⟩], ipt 1 1 2⟩ := by decide +kernel

/-! ### `HasLargePlane` -/

theorem wordsOf_small {x : Int} (h : FitsHalf x) : wordsOf x = [BitVec.ofInt 64 x] := by
  symm
  apply bridge_words
  refine ⟨(canon_iff_minimal _).1 (canon_singleton _), ?_⟩
  obtain ⟨h1, h2⟩ := h
  simp only [sint]
  rw [BitVec.toInt_ofInt, Int.bmod_def]
  omega

theorem isHalfWord_iff (x : Int) : BigInt.isHalfWord (wordsOf x) = true ↔ FitsHalf x := by
  constructor
  · intro h
    obtain ⟨w, hw, hf⟩ := isHalfWord_elim h
    have := (rep_wordsOf x).2
    rw [hw] at this
    simp only [sint] at this
    rw [← this]; exact hf
  · intro h
    rw [wordsOf_small h]
    obtain ⟨h1, h2⟩ := h
    simp only [BigInt.isHalfWord, BigInt.canTrimLastHalf, decide_eq_true_eq, BitVec.toInt_setWidth, BitVec.toInt_ofInt, BitVec.toNat_ofInt]
    simp only [Int.bmod_def]
    omega

theorem allHalfWords3_iff (x y z : Int) : BigInt.allHalfWords3 (wordsOf x) (wordsOf y) (wordsOf z) = true ↔ FitsHalf x ∧ FitsHalf y ∧ FitsHalf z := by
  constructor
  · intro h
    obtain ⟨a, b, c, ha, hb, hc, fa, fb, fc⟩ := allHalfWords3_elim h
    have h1 := (rep_wordsOf x).2; have h2 := (rep_wordsOf y).2; have h3 := (rep_wordsOf z).2
    rw [ha] at h1; rw [hb] at h2; rw [hc] at h3
    simp only [sint] at h1 h2 h3
    rw [← h1, ← h2, ← h3]; exact ⟨fa, fb, fc⟩
  · rintro ⟨fx, fy, fz⟩
    rw [wordsOf_small fx, wordsOf_small fy, wordsOf_small fz]
    simp only [BigInt.allHalfWords3, decide_eq_true_eq]
    have key : ∀ {t : Int}, FitsHalf t → (BitVec.ofInt 64 t + (1#64 <<< 31)) >>> 32 = 0 := by
      rintro t ⟨h1, h2⟩
      rw [half_range, BitVec.toInt_ofInt, Int.bmod_def]
      omega
    rw [or_shift_zero, or_shift_zero]
    exact ⟨⟨⟨key fx, key fy⟩, key fz⟩, rfl⟩

/-- C55: `HasLargePlane` answers yes exactly if there are at least three vertices and a component of the plane does not fit into
32 bits. -/
theorem C55_large {b b' : Builder} {r : Bool} (h : b.hasLargePlane = some (b', r)) :
    r = true ↔ 3 ≤ b.info.length ∧ ∃ p, b'.plane = some p ∧
      ∃ x ∈ [p.n.x, p.n.y, p.n.z, p.d], x < -2 ^ 31 ∨ 2 ^ 31 ≤ x := by
  have fit : ∀ x : Int, (x < -2 ^ 31 ∨ 2 ^ 31 ≤ x) ↔ ¬ FitsHalf x := by
    intro x; unfold FitsHalf; omega
  have key : ∀ p : HS3, (!BigInt.allHalfWords3 (wordsOf p.n.x) (wordsOf p.n.y) (wordsOf p.n.z) || !BigInt.isHalfWord (wordsOf p.d)) = true ↔
      ∃ x ∈ [p.n.x, p.n.y, p.n.z, p.d], x < -2 ^ 31 ∨ 2 ^ 31 ≤ x := by
    intro p
    simp only [fit, List.mem_cons, List.not_mem_nil, or_false, exists_eq_or_imp, exists_eq_left, Bool.or_eq_true, Bool.not_eq_true',
      ← Bool.not_eq_true, allHalfWords3_iff, isHalfWord_iff]
    by_cases h1 : FitsHalf p.n.x <;> by_cases h2 : FitsHalf p.n.y <;> by_cases h3 : FitsHalf p.n.z <;> simp [h1, h2, h3]
  unfold Builder.hasLargePlane at h
  by_cases hl : b.info.length < 3
  · rw [if_pos hl] at h
    simp only [Option.some.injEq, Prod.mk.injEq] at h
    rw [← h.2]
    simp only [Bool.false_eq_true, false_iff]
    rintro ⟨h3, -⟩; omega
  · rw [if_neg hl] at h
    simp only [Option.bind_eq_bind, Option.bind_eq_some_iff] at h
    obtain ⟨b1, h1, p, hp, h⟩ := h
    simp only [Option.pure_def, Option.some.injEq, Prod.mk.injEq] at h
    obtain ⟨rfl, rfl⟩ := h
    rw [key]
    constructor
    · intro hx; exact ⟨by omega, p, hp, hx⟩
    · rintro ⟨-, p', hp', hx⟩
      rw [hp] at hp'
      simp only [Option.some.injEq] at hp'
      rw [hp']; exact hx

end Walnut.Props
