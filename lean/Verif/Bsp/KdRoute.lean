/- The place that a k-d split gives to a polygon is the one that `PushContentsToChildren` gives to it. -/
import Verif.Bsp.KdArc
import Verif.Bsp.DiscountProof

namespace Walnut.Bsp
open Walnut.Geom Walnut.Poly Walnut.Props

/-- The plane where component `dim` is `L`, with the lesser ones on its negative side. -/
structure AxisPlane (dim : Fin 3) (L : ℚ) (g : HS3) : Prop where
  zero : ∀ q : Q3, g.side q = 0 ↔ q dim = L
  neg : ∀ q : Q3, g.side q < 0 ↔ q dim < L

namespace AxisPlane
variable {dim : Fin 3} {L : ℚ} {g : HS3}

theorem pos (h : AxisPlane dim L g) (q : Q3) : 0 < g.side q ↔ L < q dim := by
  rw [← not_iff_not, not_lt, not_lt, le_iff_lt_or_eq, le_iff_lt_or_eq, h.zero, h.neg]

theorem normal (h : AxisPlane dim L g) : 0 < g.n.comp dim ∧ ∀ c, c ≠ dim → g.n.comp c = 0 := by
  constructor
  · have h1 := (h.zero (fun j => if j = dim then L else 0)).2 (by simp)
    have h2 := (h.neg (fun j => if j = dim then L - 1 else 0)).2 (by simp)
    rw [HS3.side_eq] at h1 h2
    obtain rfl | rfl | rfl := fin3 dim <;> simp [V3.comp] at h1 h2 ⊢ <;>
      · rw [← Int.cast_pos (R := ℚ)]; linarith
  · intro c hc
    have h1 := (h.zero (fun j => if j = dim then L else 0)).2 (by simp)
    have h2 := (h.zero (fun j => if j = dim then L else if j = c then 1 else 0)).2 (by simp)
    rw [HS3.side_eq] at h1 h2
    rw [← Int.cast_eq_zero (α := ℚ)]
    obtain rfl | rfl | rfl := fin3 dim <;> obtain rfl | rfl | rfl := fin3 c <;> first | exact absurd rfl hc | (simp [V3.comp] at h1 h2 ⊢; rw [← Int.cast_eq_zero (α := ℚ)]; linarith)

theorem ne_zero (h : AxisPlane dim L g) : g.n ≠ ⟨0, 0, 0⟩ := by
  intro e
  have := h.normal.1
  rw [e] at this
  obtain rfl | rfl | rfl := fin3 dim <;> simp [V3.comp] at this

end AxisPlane

theorem touches_iff {p : BPoly} (hc : IsConvexPolygon p.poly) (g : HS3) {i : Nat} (hi : i < p.poly.count) :
    p.touches g i = true ↔ g.side (p.poly.pt i) = 0 := by
  unfold BPoly.touches
  rw [Nat.mod_eq_of_lt hi]
  exact (C23_compare_homo g _ (hc.finite i hi)).2

/-- Nothing changes if all vertices are excluded. -/
theorem setBoundaryExcept_all (p : BPoly) (c : SplitSide) {r : Nat × Nat} (hn : 0 < p.poly.count) (h2 : r.2 ≤ r.1 + p.poly.count)
    (h : ∀ i < p.poly.count, InRange r p.poly.count i) : p.setBoundaryExcept c r = p := by
  have : r.2 = r.1 + p.poly.count := by
    by_contra hne
    obtain ⟨k, k1, k2, k3⟩ := h (r.2 % p.poly.count) (Nat.mod_lt _ hn)
    have h0 : (r.2 - k) % p.poly.count = 0 := Nat.sub_mod_eq_zero_of_mod_eq k3.symm
    rw [Nat.mod_eq_of_lt (by omega)] at h0
    omega
  unfold BPoly.setBoundaryExcept BPoly.setBoundary
  rw [this, if_pos (by omega)]

section
variable {dim : Fin 3} {L : ℚ} {ref : PlaneRef} {anc : Anc} {p : BPoly} {T : Tracker}

theorem kd_on (hg : AxisPlane dim L ref.plane) (h : ContentOK anc p) (hT : p.tracker = some T)
    (h1 : L ≤ p.poly.pt (T.lo dim) dim) (h2 : p.poly.pt (T.hi dim) dim ≤ L) :
    route true ref p = some .on ∧ decide (p.poly.plane.n.comp dim < 0) = onPlanePos p ref.plane := by
  have hn := h.convex.count_pos
  have ht := h.tracker T hT
  have hz : ∀ i, i < p.poly.count → ref.plane.side (p.poly.pt i) = 0 := fun i hi =>
    (hg.zero _).2 (le_antisymm ((ht.hiMax dim i hi).trans h2) (h1.trans (ht.loMin dim i hi)))
  obtain ⟨s, e1, e2, e3, e4⟩ := splitInfo_spec h.toPieceOK ref.plane
  constructor
  · unfold route
    rw [if_neg hn.ne', e1]
    simp only [e2]
    rw [if_neg (by simp), if_neg, if_neg]
    · rw [emitPos_iff hn e3]; rintro ⟨i, hi, hs⟩; rw [hz i hi] at hs; exact lt_irrefl _ hs
    · rw [emitNeg_iff hn e3]; rintro ⟨i, hi, hs⟩; rw [hz i hi] at hs; exact lt_irrefl _ hs
  · have hth : Through ref.plane p.poly.plane := through_of_vertices h.convex _ hz
    obtain ⟨l, hl, _⟩ := hth.parallel h.convex.drop
    have hd : p.poly.drop = dim := by
      by_contra hne
      have h0 := hg.normal.2 _ hne
      have hc : (ref.plane.n.comp p.poly.drop : ℚ) = l * p.poly.plane.n.comp p.poly.drop := by
        obtain e | e | e := fin3 p.poly.drop <;> rw [e]
        · exact hl 0
        · exact hl 1
        · exact hl 2
      have hdrop : (p.poly.plane.n.comp p.poly.drop : ℚ) ≠ 0 := by exact_mod_cast h.convex.drop
      rw [h0] at hc
      have l0 : l = 0 := by
        rcases mul_eq_zero.1 (show l * (p.poly.plane.n.comp p.poly.drop : ℚ) = 0 by rw [← hc]; simp) with h | h
        · exact h
        · exact absurd h hdrop
      apply hg.ne_zero
      have a1 := hl 0
      have a2 := hl 1
      have a3 := hl 2
      simp only [V3.q_zero, V3.q_one, V3.q_two, l0, zero_mul] at a1 a2 a3
      have b1 : ref.plane.n.x = 0 := by exact_mod_cast a1
      have b2 : ref.plane.n.y = 0 := by exact_mod_cast a2
      have b3 : ref.plane.n.z = 0 := by exact_mod_cast a3
      cases hh : ref.plane.n; rw [hh] at b1 b2 b3; simp at b1 b2 b3; rw [b1, b2, b3]
    unfold onPlanePos hasDifferentSign
    rw [hd]
    have := hg.normal.1
    rw [decide_eq_false (p := ref.plane.n.comp dim < 0) (by omega)]
    simp

theorem kd_pos (hg : AxisPlane dim L ref.plane) (h : ContentOK anc p) (hT : p.tracker = some T)
    (h1 : L ≤ p.poly.pt (T.lo dim) dim) (h2 : L < p.poly.pt (T.hi dim) dim) {b : Prop} [Decidable b] (hb : b ↔ p.poly.pt (T.lo dim) dim = L)
    {q : BPoly} (hq : (if b then p.setAdjacent ref true (T.lo dim) else some p) = some q) :
    route true ref p = some (.pos q) := by
  have hn := h.convex.count_pos
  have ht := h.tracker T hT
  have hz : ∀ i, i < p.poly.count → 0 ≤ ref.plane.side (p.poly.pt i) := fun i hi => by
    by_contra hc
    push Not at hc
    have := (hg.neg _).1 hc
    have := ht.loMin dim i hi
    linarith
  obtain ⟨s, e1, e2, e3, e4⟩ := splitInfo_spec h.toPieceOK ref.plane
  have eN : ¬ s.ranges.emitNeg = true := by
    rw [emitNeg_iff hn e3]; rintro ⟨i, hi, hs⟩; have := hz i hi; linarith
  have eP : s.ranges.emitPos = true := (emitPos_iff hn e3).2 ⟨_, ht.hiLt dim, (hg.pos _).2 h2⟩
  have hne : s.ranges.pos.1 ≠ s.ranges.pos.2 := by simpa [Ranges.emitPos] using eP
  have hle := e3.pos_le
  have hq' : q = p.setBoundaryExcept ⟨some ref, true⟩ s.ranges.pos := by
    split_ifs at hq with hb'
    · have key := setAdjacent_eq (p := p) (ref := ref) hn (show s.ranges.pos.1 < s.ranges.pos.2 by omega) hle.2 (fun i hi => by
        rw [← e3.pos i hi, ← Bool.not_eq_true, touches_iff h.convex _ hi]
        have := hz i hi
        exact ⟨fun hh => lt_of_le_of_ne this (Ne.symm hh), fun hh => hh.ne'⟩) (ht.loLt dim)
        (by rw [touches_iff h.convex _ (ht.loLt dim), hg.zero]; exact hb.1 hb') true
      rw [key] at hq
      exact (Option.some.inj hq).symm
    · rw [← Option.some.inj hq]
      refine (setBoundaryExcept_all p _ hn hle.2 fun i hi => ?_).symm
      rw [← e3.pos i hi, hg.pos]
      have : p.poly.pt (T.lo dim) dim ≠ L := fun hh => hb' (hb.2 hh)
      exact (lt_of_le_of_ne h1 this.symm).trans_le (ht.loMin dim i hi)
  unfold route
  rw [if_neg hn.ne', e1]
  simp only [e2]
  rw [if_neg (by simp), if_neg eN, if_pos eP, hq']

theorem kd_neg (hg : AxisPlane dim L ref.plane) (h : ContentOK anc p) (hT : p.tracker = some T)
    (h1 : p.poly.pt (T.lo dim) dim < L) (h2 : p.poly.pt (T.hi dim) dim ≤ L) {b : Prop} [Decidable b] (hb : b ↔ p.poly.pt (T.hi dim) dim = L)
    {q : BPoly} (hq : (if b then p.setAdjacent ref false (T.hi dim) else some p) = some q) :
    route true ref p = some (.neg q) := by
  have hn := h.convex.count_pos
  have ht := h.tracker T hT
  have hz : ∀ i, i < p.poly.count → ref.plane.side (p.poly.pt i) ≤ 0 := fun i hi => by
    by_contra hc
    push Not at hc
    have := (hg.pos _).1 hc
    have := ht.hiMax dim i hi
    linarith
  obtain ⟨s, e1, e2, e3, e4⟩ := splitInfo_spec h.toPieceOK ref.plane
  have eP : ¬ s.ranges.emitPos = true := by
    rw [emitPos_iff hn e3]; rintro ⟨i, hi, hs⟩; have := hz i hi; linarith
  have eN : s.ranges.emitNeg = true := (emitNeg_iff hn e3).2 ⟨_, ht.loLt dim, (hg.neg _).2 h1⟩
  have hne : s.ranges.neg.1 ≠ s.ranges.neg.2 := by simpa [Ranges.emitNeg] using eN
  have hle := e3.neg_le
  have hq' : q = p.setBoundaryExcept ⟨some ref, false⟩ s.ranges.neg := by
    split_ifs at hq with hb'
    · have key := setAdjacent_eq (p := p) (ref := ref) hn (show s.ranges.neg.1 < s.ranges.neg.2 by omega) hle.2 (fun i hi => by
        rw [← e3.neg i hi, ← Bool.not_eq_true, touches_iff h.convex _ hi]
        have := hz i hi
        exact ⟨fun hh => lt_of_le_of_ne this hh, fun hh => hh.ne⟩) (ht.hiLt dim)
        (by rw [touches_iff h.convex _ (ht.hiLt dim), hg.zero]; exact hb.1 hb') false
      rw [key] at hq
      exact (Option.some.inj hq).symm
    · rw [← Option.some.inj hq]
      refine (setBoundaryExcept_all p _ hn hle.2 fun i hi => ?_).symm
      rw [← e3.neg i hi, hg.neg]
      have : p.poly.pt (T.hi dim) dim ≠ L := fun hh => hb' (hb.2 hh)
      exact (ht.hiMax dim i hi).trans_lt (lt_of_le_of_ne h2 this)
  unfold route
  rw [if_neg hn.ne', e1]
  simp only [e2]
  rw [if_neg (by simp), if_pos eN, if_neg eP, hq']

theorem kd_both (h : ContentOK anc p) {s : SplitInfo} (hs : p.splitInfo ref.plane = some s) (e1 : s.ranges.emitNeg = true) (e2 : s.ranges.emitPos = true)
    {c d : BPoly × BPoly} (hc : p.splitChildren s = some c) (hd : setChildBoundary c.1 c.2 ref = some d) : route true ref p = some (.both d.1 d.2) := by
  have hn := h.convex.count_pos
  obtain ⟨s', x1, x2, -⟩ := splitInfo_spec h.toPieceOK ref.plane
  rw [hs] at x1
  obtain rfl := Option.some.inj x1
  unfold route
  rw [if_neg hn.ne', hs]
  simp only [x2]
  rw [if_neg (by simp), if_pos e1, if_pos e2, hc]
  simp only
  rw [hd]; rfl

end

end Walnut.Bsp
