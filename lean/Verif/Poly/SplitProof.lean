/-
`GetSplitInfo` and `FillInSplitChildren` of a convex polygon produce the two parts.
-/
import Verif.Poly.SplitRegion

namespace Walnut.Poly
open Walnut.Geom Walnut.Props

variable {D : Type}

/-- The 2D half-space `GetSplitInfo` passes to the searches. -/
def splitHS2 (P : Polygon D) (g : HS3) : HS2 :=
  ⟨((PL.ofPlanes P.plane g).project2D P.drop).n.scale (-absMult (P.plane.n.comp P.drop)),
   ((PL.ofPlanes P.plane g).project2D P.drop).d * -absMult (P.plane.n.comp P.drop)⟩

theorem split_side (P : Polygon D) (g : HS3) {q : Q3} (hq : P.plane.side q = 0) :
    along2 (splitHS2 P g).n P.drop q - (splitHS2 P g).d = sg P.plane P.drop * P.plane.n.comp P.drop * g.side q := by
  rw [HS3.side_eq] at hq ⊢
  have e : ((absMult (P.plane.n.comp P.drop) : Int) : ℚ) = sg P.plane P.drop := rfl
  simp only [along2, splitHS2, V2.scale, PL.project2D, V3.dropDimension, V2.perp, PL.ofPlanes]
  push_cast
  rw [e]
  generalize sg P.plane P.drop = σ
  obtain e | e | e := fin3 P.drop <;> rw [e] <;> simp [V3.comp, fin3_eqs, V3.cross]
  · linear_combination (-(g.n.x : ℚ) * σ) * hq
  · linear_combination (-(g.n.y : ℚ) * σ) * hq
  · linear_combination (-(g.n.z : ℚ) * σ) * hq

theorem split_zero (P : Polygon D) (g : HS3) (hd : P.plane.n.comp P.drop ≠ 0)
    (hc : P.plane.n.cross g.n ≠ ⟨0, 0, 0⟩) : (splitHS2 P g).n.isZero = false := by
  by_contra hz
  rw [Bool.not_eq_false] at hz
  apply hc
  have hs : -absMult (P.plane.n.comp P.drop) ≠ 0 := by
    rcases absMult_cases (P.plane.n.comp P.drop) with ⟨_, e⟩ | ⟨_, e⟩ <;> rw [e] <;> decide
  simp only [V2.isZero, splitHS2, V2.scale, PL.project2D, V3.dropDimension, V2.perp, PL.ofPlanes, Bool.and_eq_true,
    decide_eq_true_eq, mul_eq_zero, hs, or_false] at hz
  obtain ⟨h1, h2⟩ := hz
  obtain e | e | e := fin3 P.drop <;> rw [e] at h1 h2 hd <;> simp [V3.comp, fin3_eqs, V3.cross] at h1 h2 hd <;>
    ext <;> simp only [V3.cross]
  · apply mul_left_cancel₀ hd; linear_combination (-P.plane.n.y) * h2 + P.plane.n.z * h1
  · linear_combination h2
  · linear_combination -h1
  · linear_combination -h1
  · apply mul_left_cancel₀ hd; linear_combination (-P.plane.n.z) * h2 + P.plane.n.x * h1
  · linear_combination h2
  · linear_combination h2
  · linear_combination -h1
  · apply mul_left_cancel₀ hd; linear_combination (-P.plane.n.x) * h2 + P.plane.n.y * h1

/-- The comparisons of the searches are comparisons with the splitting plane. -/
theorem IsConvexPolygon.split_cmp {P : Polygon D} (h : IsConvexPolygon P) (g : HS3) {i : Nat} (hi : i < P.count) :
    SameSign (P.cmpAt (splitHS2 P g) i) (g.side (P.pt i)) := by
  have h1 := cmpAt_sign P (splitHS2 P g) (h.finite i hi)
  rw [split_side P g (h.onPlane i hi)] at h1
  have hp := sg_mul_pos P.plane h.drop
  obtain ⟨a1, a2, a3⟩ := h1
  refine ⟨a1.trans ?_, a2.trans ?_, a3.trans ?_⟩
  · exact ⟨fun hn => by by_contra hc; push Not at hc; have := mul_nonneg hp.le hc; linarith,
      fun hn => mul_neg_of_pos_of_neg hp hn⟩
  · rw [mul_eq_zero]; exact ⟨fun hn => hn.resolve_left hp.ne', Or.inr⟩
  · exact mul_pos_iff_of_pos_left hp

/-- The sign test of the parallel case. -/
theorem IsConvexPolygon.split_parallel {P : Polygon D} (h : IsConvexPolygon P) (g : HS3)
    (hc : P.plane.n.cross g.n = ⟨0, 0, 0⟩) {i : Nat} (hi : i < P.count) :
    SameSign (Geom.cmp (P.plane.d * g.n.comp P.drop) (g.d * P.plane.n.comp P.drop) * absMult (P.plane.n.comp P.drop))
      (g.side (P.pt i)) := by
  refine sameSign_cmp_absMult h.drop ?_
  have h1 := h.onPlane i hi
  rw [HS3.side_eq] at h1 ⊢
  simp only [V3.cross, V3.mk.injEq] at hc
  obtain ⟨c1, c2, c3⟩ := hc
  have c1 : (P.plane.n.y * g.n.z - P.plane.n.z * g.n.y : ℚ) = 0 := by exact_mod_cast c1
  have c2 : (P.plane.n.z * g.n.x - P.plane.n.x * g.n.z : ℚ) = 0 := by exact_mod_cast c2
  have c3 : (P.plane.n.x * g.n.y - P.plane.n.y * g.n.x : ℚ) = 0 := by exact_mod_cast c3
  push_cast
  generalize P.pt i = q at *
  obtain e | e | e := fin3 P.drop <;> rw [e] <;> simp only [V3.comp]
  · linear_combination (-(g.n.x : ℚ)) * h1 - q 1 * c3 + q 2 * c2
  · linear_combination (-(g.n.y : ℚ)) * h1 + q 0 * c3 - q 2 * c1
  · linear_combination (-(g.n.z : ℚ)) * h1 - q 0 * c2 + q 1 * c1

theorem isValid_iff (P : Polygon D) (g : HS3) :
    (PL.ofPlanes P.plane g).isValid = false ↔ P.plane.n.cross g.n = ⟨0, 0, 0⟩ := by
  have hz : ∀ v : V3, v.isZero = true ↔ v = ⟨0, 0, 0⟩ := by intro v; simp [V3.isZero, V3.ext_iff]
  simp only [PL.isValid, PL.ofPlanes, Bool.not_eq_false', hz]

/-- The ranges describe the two sides of the plane. -/
structure SideRanges (P : Polygon D) (g : HS3) (r : Ranges) : Prop where
  neg_le : r.neg.1 ≤ r.neg.2 ∧ r.neg.2 ≤ r.neg.1 + P.count
  pos_le : r.pos.1 ≤ r.pos.2 ∧ r.pos.2 ≤ r.pos.1 + P.count
  neg : ∀ i, i < P.count → (g.side (P.pt i) < 0 ↔ InRange r.neg P.count i)
  pos : ∀ i, i < P.count → (0 < g.side (P.pt i) ↔ InRange r.pos P.count i)
  valid : r.isValid P.count = true

theorem IsConvexPolygon.sideRanges {P : Polygon D} (h : IsConvexPolygon P) (g : HS3) {r : Ranges}
    (hr : RangesOK P.count (P.cmpAt (splitHS2 P g)) r) : SideRanges P g r :=
  ⟨hr.neg_le, hr.pos_le, fun i hi => (h.split_cmp g hi).1.symm.trans (hr.neg i hi),
    fun i hi => (h.split_cmp g hi).2.2.symm.trans (hr.pos i hi), hr.valid⟩

theorem splitInfo_cross (P : Polygon D) (g : HS3) (hv : (PL.ofPlanes P.plane g).isValid = true) :
    P.splitInfo g = match (if P.count < 10 then P.findLinear (splitHS2 P g) else P.findBisect (splitHS2 P g)) with
    | none => none
    | some r =>
      if r.isValid P.count = false then none
      else if !r.emitPos || !r.emitNeg then some ⟨r, PL.ofPlanes P.plane g, none, none⟩
      else P.splitPoints g (PL.ofPlanes P.plane g) r := by
  unfold Polygon.splitInfo
  simp only [hv]
  rfl

/-- `GetSplitInfo` classifies every vertex. -/
theorem IsConvexPolygon.splitInfo {P : Polygon D} (h : IsConvexPolygon P) (g : HS3) :
    ∃ s, P.splitInfo g = some s ∧ s.isValid P.count = true ∧ s.newLine = PL.ofPlanes P.plane g ∧
      SideRanges P g s.ranges ∧
      (s.ranges.emitNeg = true → s.ranges.emitPos = true →
        P.plane.n.cross g.n ≠ ⟨0, 0, 0⟩ ∧ P.splitPoints g (PL.ofPlanes P.plane g) s.ranges = some s) := by
  by_cases hv : (PL.ofPlanes P.plane g).isValid = false
  · have hc := (isValid_iff P g).mp hv
    have hs := fun i hi => h.split_parallel g hc (i := i) hi
    unfold Polygon.splitInfo
    simp only [hv, if_true]
    generalize Geom.cmp (P.plane.d * g.n.comp P.drop) (g.d * P.plane.n.comp P.drop) * absMult (P.plane.n.comp P.drop) = c at hs
    have all : ∀ i, i < P.count → InRange (0, P.count) P.count i := fun i hi => ⟨i, by simp, hi, Nat.mod_eq_of_lt hi⟩
    have non : ∀ i, ¬ InRange (0, 0) P.count i := by
      rintro i ⟨k, _, h2, _⟩; simp at h2
    by_cases c1 : c < 0
    · rw [if_pos c1]
      refine ⟨_, rfl, ?_, rfl, ⟨by simp, by simp, fun i hi => ?_, fun i hi => ?_, ?_⟩, ?_⟩
      · simp [SplitInfo.isValid, Ranges.isValid, Ranges.emitNeg, Ranges.emitPos]
      · exact ⟨fun _ => all i hi, fun _ => (hs i hi).1.mp c1⟩
      · exact ⟨fun hp => absurd ((hs i hi).2.2.mpr hp) (by omega), fun hp => absurd hp (non i)⟩
      · simp [Ranges.isValid, Ranges.emitNeg, Ranges.emitPos]
      · simp [Ranges.emitPos]
    · rw [if_neg c1]
      by_cases c2 : 0 < c
      · rw [if_pos c2]
        refine ⟨_, rfl, ?_, rfl, ⟨by simp, by simp, fun i hi => ?_, fun i hi => ?_, ?_⟩, ?_⟩
        · simp [SplitInfo.isValid, Ranges.isValid, Ranges.emitNeg, Ranges.emitPos]
        · exact ⟨fun hp => absurd ((hs i hi).1.mpr hp) (by omega), fun hp => absurd hp (non i)⟩
        · exact ⟨fun _ => all i hi, fun _ => (hs i hi).2.2.mp c2⟩
        · simp [Ranges.isValid, Ranges.emitNeg, Ranges.emitPos]
        · simp [Ranges.emitNeg]
      · rw [if_neg c2]
        refine ⟨_, rfl, ?_, rfl, ⟨by simp, by simp, fun i hi => ?_, fun i hi => ?_, ?_⟩, ?_⟩
        · simp [SplitInfo.isValid, Ranges.isValid, Ranges.emitNeg, Ranges.emitPos]
        · exact ⟨fun hp => absurd ((hs i hi).1.mpr hp) (by omega), fun hp => absurd hp (non i)⟩
        · exact ⟨fun hp => absurd ((hs i hi).2.2.mpr hp) (by omega), fun hp => absurd hp (non i)⟩
        · simp [Ranges.isValid, Ranges.emitNeg, Ranges.emitPos]
        · simp [Ranges.emitNeg]
  · have hv' : (PL.ofPlanes P.plane g).isValid = true := by simpa using hv
    have hc := (isValid_iff P g).not.mp hv
    have hz := split_zero P g h.drop hc
    obtain ⟨r, e, hr⟩ : ∃ r, (if P.count < 10 then P.findLinear (splitHS2 P g) else P.findBisect (splitHS2 P g)) = some r ∧
        RangesOK P.count (P.cmpAt (splitHS2 P g)) r := by
      split
      · exact h.findLinear _ hz
      · exact h.findBisect _ hz
    have hr' := h.sideRanges g hr
    rw [splitInfo_cross P g hv', e]
    simp only [hr.valid]
    rw [if_neg (by simp)]
    by_cases hem : r.emitPos = true ∧ r.emitNeg = true
    · rw [if_neg (by simp [hem.1, hem.2])]
      have hsv : ∀ s1 s2, ((decide (r.neg.2 % P.count = r.pos.1 % P.count)) = Option.isSome s2) →
          ((decide (r.pos.2 % P.count = r.neg.1 % P.count)) = Option.isSome s1) →
          (SplitInfo.mk r (PL.ofPlanes P.plane g) s1 s2).isValid P.count = true := by
        intro s1 s2 e1 e2
        simp [SplitInfo.isValid, hr.valid, hem.1, hem.2, e1, e2]
      have key : ∃ s, P.splitPoints g (PL.ofPlanes P.plane g) r = some s ∧ s.isValid P.count = true ∧
          s.newLine = PL.ofPlanes P.plane g ∧ s.ranges = r := by
        unfold Polygon.splitPoints
        refine ⟨_, if_pos (hsv _ _ ?_ ?_), hsv _ _ ?_ ?_, rfl, rfl⟩ <;> split <;> rename_i hh <;> simp [hh]
      obtain ⟨s, k1, k2, k3, k4⟩ := key
      exact ⟨s, k1, k2, k3, k4 ▸ hr', fun _ _ => ⟨hc, k4 ▸ k1⟩⟩
    · rw [if_pos (by by_cases x : r.emitPos <;> by_cases y : r.emitNeg <;> simp_all)]
      refine ⟨_, rfl, ?_, rfl, hr', fun h1 h2 => absurd ⟨h2, h1⟩ hem⟩
      simp only [SplitInfo.isValid, hr.valid, Bool.true_and]
      rw [if_neg (by by_cases x : r.emitPos <;> by_cases y : r.emitNeg <;> simp_all)]
      rfl

/-- The intersection of an edge's line with a plane between the edge's ends. -/
theorem edge_intersect {l : PL} {p q : Q3} (h : EdgeLine l p q) (g : HS3) (hne : g.side p ≠ g.side q) :
    (l.intersect g).w ≠ 0 ∧ (l.intersect g).pt = lerp3 (g.side p / (g.side p - g.side q)) p q := by
  obtain ⟨s, hs, hd⟩ := h.dir
  have hdot : ((g.n.dot l.d : Int) : ℚ) = s * (g.side q - g.side p) := by
    have e0 := hd 0; have e1 := hd 1; have e2 := hd 2
    simp at e0 e1 e2
    simp only [V3.dot, HS3.side_eq]
    push_cast
    linear_combination (g.n.x : ℚ) * e0 + g.n.y * e1 + g.n.z * e2
  have hdot0 : g.n.dot l.d ≠ 0 := by
    intro h0
    rw [h0] at hdot
    have := mul_ne_zero hs.ne' (sub_ne_zero.mpr hne.symm)
    exact this (by rw [← hdot]; norm_num)
  have hl : IsLine l p := by
    refine ⟨?_, h.on⟩
    rintro h0
    rw [h0] at hdot0
    simp [V3.dot] at hdot0
  obtain ⟨h1, h2, h3, h4⟩ := C26_intersect l p hl g hdot0
  have hsub : g.side p - g.side q ≠ 0 := sub_ne_zero.mpr hne
  refine ⟨h1, (h4 _ ?_ ?_).symm⟩
  · rw [side_lerp3]; field_simp; ring
  · refine ⟨g.side p / (g.side p - g.side q) / s, fun i => ?_⟩
    rw [hd]; unfold lerp3; field_simp

theorem mod_window_eq {a x n : Nat} (h : x % n = a % n) (h1 : a < x) (h2 : x ≤ a + n) : x = a + n := by
  have hd : n ∣ x - a := (Nat.modEq_iff_dvd' h1.le).mp h.symm
  have := Nat.le_of_dvd (by omega) hd
  omega

theorem copyEdges_spec (P : Polygon D) (hn : 0 < P.count) (first k : Nat) :
    ∃ l, P.copyEdges first k = some l ∧ l.length = k ∧ ∀ i, i < k → l[i]? = P.edges[(first + i) % P.count]? := by
  induction k generalizing first with
  | zero => exact ⟨[], rfl, rfl, fun i hi => by omega⟩
  | succ k ih =>
    obtain ⟨l, h1, h2, h3⟩ := ih (first + 1)
    have hm : first % P.count < P.edges.length := Nat.mod_lt _ hn
    refine ⟨P.edges[first % P.count] :: l, ?_, by simp [h2], fun i hi => ?_⟩
    · simp only [Polygon.copyEdges]
      rw [List.getElem?_eq_getElem hm, h1]
    · cases i with
      | zero => simp only [Nat.add_zero, List.getElem?_cons_zero, List.getElem?_eq_getElem hm]
      | succ i =>
        rw [List.getElem?_cons_succ, h3 i (by omega), show first + 1 + i = first + (i + 1) by omega]

theorem vertexD_of {P : Polygon D} {i : Nat} {e : Edge D} (h : P.edges[i]? = some e) : P.vertexD i = e.vertex := by
  unfold Polygon.vertexD; rw [h]
theorem lineD_of {P : Polygon D} {i : Nat} {e : Edge D} (h : P.edges[i]? = some e) : P.lineD i = e.line := by
  unfold Polygon.lineD; rw [h]
theorem pt_of {P : Polygon D} {i : Nat} {e : Edge D} (h : P.edges[i]? = some e) : P.pt i = e.vertex.pt := by
  unfold Polygon.pt; rw [vertexD_of h]

theorem edge_at (P : Polygon D) {i : Nat} (h : i < P.count) : ∃ e, P.edges[i]? = some e :=
  ⟨P.edges[i]'h, List.getElem?_eq_getElem h⟩

/-- Positions of the two runs found by `GetSplitInfo`. -/
theorem SideRanges.runs {P : Polygon D} {g : HS3} {r : Ranges} (h : SideRanges P g r) (hn : 0 < P.count)
    (he : r.emitNeg = true) (he' : r.emitPos = true) :
    ∃ b, b % P.count = r.pos.1 % P.count ∧
      (∀ i, r.neg.1 ≤ i → i < r.neg.2 → g.side (P.pt (i % P.count)) < 0) ∧
      (∀ i, b ≤ i → i < b + (r.pos.2 - r.pos.1) → 0 < g.side (P.pt (i % P.count))) ∧
      (if r.neg.2 % P.count = r.pos.1 % P.count then b = r.neg.2 else b = r.neg.2 + 1) ∧
      (if r.pos.2 % P.count = r.neg.1 % P.count then r.neg.1 + P.count = b + (r.pos.2 - r.pos.1)
        else r.neg.1 + P.count = b + (r.pos.2 - r.pos.1) + 1) ∧
      r.neg.1 < r.neg.2 ∧ r.pos.1 < r.pos.2 ∧ r.neg.2 - r.neg.1 < P.count := by
  have hv := h.valid
  have hn1 := h.neg_le
  have hp1 := h.pos_le
  have hne : r.neg.1 < r.neg.2 := by
    have : r.neg.1 ≠ r.neg.2 := by simpa [Ranges.emitNeg] using he
    omega
  have hpe : r.pos.1 < r.pos.2 := by
    have : r.pos.1 ≠ r.pos.2 := by simpa [Ranges.emitPos] using he'
    omega
  simp only [Ranges.isValid, he, he', Bool.and_eq_true, Bool.and_self, Bool.not_true, Bool.false_or, Bool.or_eq_true,
    decide_eq_true_eq] at hv
  obtain ⟨_, v2, v1⟩ := hv
  obtain ⟨b, hb, hb2⟩ : ∃ b, b % P.count = r.pos.1 % P.count ∧
      (if r.neg.2 % P.count = r.pos.1 % P.count then b = r.neg.2 else b = r.neg.2 + 1) := by
    by_cases c : r.neg.2 % P.count = r.pos.1 % P.count
    · exact ⟨r.neg.2, c, by rw [if_pos c]⟩
    · exact ⟨r.neg.2 + 1, v2.resolve_left c, by rw [if_neg c]⟩
  have hneg : ∀ i, r.neg.1 ≤ i → i < r.neg.2 → g.side (P.pt (i % P.count)) < 0 := fun i h1 h2 =>
    (h.neg _ (Nat.mod_lt _ hn)).mpr ⟨i, h1, h2, rfl⟩
  have hpos : ∀ i, b ≤ i → i < b + (r.pos.2 - r.pos.1) → 0 < g.side (P.pt (i % P.count)) := by
    intro i h1 h2
    refine (h.pos _ (Nat.mod_lt _ hn)).mpr ⟨r.pos.1 + (i - b), by omega, by omega, ?_⟩
    rw [Nat.add_mod, ← hb, ← Nat.add_mod, show b + (i - b) = i by omega]
  have hm : r.neg.2 - r.neg.1 < P.count := by
    by_contra hc
    obtain ⟨j, j1, j2, j3⟩ := exists_rep (n := P.count) r.neg.1 (b % P.count) (Nat.mod_lt _ hn)
    have q1 := hneg j j1 (by omega)
    have q2 := hpos b le_rfl (by omega)
    rw [j3] at q1
    linarith
  have hble : b = r.neg.2 ∨ b = r.neg.2 + 1 := by
    split at hb2
    · exact Or.inl hb2
    · exact Or.inr hb2
  have hend : b + (r.pos.2 - r.pos.1) ≤ r.neg.1 + P.count := by
    by_contra hc
    have q1 := hneg r.neg.1 le_rfl hne
    have q2 := hpos (r.neg.1 + P.count) (by omega) (by omega)
    rw [Nat.add_mod_right] at q2
    linarith
  have hp2 : (b + (r.pos.2 - r.pos.1)) % P.count = r.pos.2 % P.count := by
    rw [Nat.add_mod, hb, ← Nat.add_mod, show r.pos.1 + (r.pos.2 - r.pos.1) = r.pos.2 by omega]
  refine ⟨b, hb, hneg, hpos, hb2, ?_, hne, hpe, hm⟩
  by_cases c : r.pos.2 % P.count = r.neg.1 % P.count
  · rw [if_pos c]
    exact (mod_window_eq (hp2.trans c) (by omega) hend).symm
  · rw [if_neg c]
    have c' := v1.resolve_left c
    have e : (b + (r.pos.2 - r.pos.1) + 1) % P.count = r.neg.1 % P.count := by
      rw [← c', Nat.add_mod, hp2, ← Nat.add_mod]
    by_cases c2 : b + (r.pos.2 - r.pos.1) + 1 ≤ r.neg.1 + P.count
    · exact (mod_window_eq e (by omega) c2).symm
    · exfalso
      rw [show b + (r.pos.2 - r.pos.1) + 1 = r.neg.1 + 1 + P.count by omega, Nat.add_mod_right] at e
      have := mod_window_eq e (by omega) (by omega)
      omega

/-- Where the members of the edges' parent class come from at the cut: the new edges are
derived with a new line, the edges at the new vertices are the parent's or are derived
from the parent's with a new source. -/
structure ChildData (ops : EdgeOps D) (P N Q : Polygon D) (a m b k : Nat) : Prop where
  nNew : ∃ e d, N.edges[m]? = some e ∧ ((∃ l, e.data = ops.atLine d l) ∨ ∃ p l, e.data = ops.atBoth d p l)
  nOld : ∃ e f, N.edges[m + 1]? = some e ∧ P.edges[(a + P.count - 1) % P.count]? = some f ∧
    (e.data = f.data ∨ ∃ p, e.data = ops.atVertex f.data p)
  qOld : ∃ e f, Q.edges[0]? = some e ∧ P.edges[(b - 1) % P.count]? = some f ∧
    (e.data = f.data ∨ ∃ p, e.data = ops.atVertex f.data p)
  qNew : ∃ e d, Q.edges[k + 1]? = some e ∧ ((∃ l, e.data = ops.atLine d l) ∨ ∃ p l, e.data = ops.atBoth d p l)

/-- `FillInSplitChildren` after `GetSplitInfo`. -/
theorem IsConvexPolygon.splitChildren {P : Polygon D} (h : IsConvexPolygon P) (ops : EdgeOps D) (g : HS3) {s : SplitInfo}
    (hs : P.splitInfo g = some s) (he : s.ranges.emitNeg = true) (he' : s.ranges.emitPos = true) :
    ∃ N Q a m b k t u, P.splitChildren ops s = some (N, Q) ∧ SplitShape P N Q g a m b k t u ∧
      a = s.ranges.neg.1 ∧ m = s.ranges.neg.2 - s.ranges.neg.1 ∧ b % P.count = s.ranges.pos.1 % P.count ∧
      k = s.ranges.pos.2 - s.ranges.pos.1 ∧ ChildData ops P N Q a m b k := by
  obtain ⟨s', hs', hval, hline, hr, hpts⟩ := h.splitInfo g
  obtain rfl : s = s' := by rw [hs] at hs'; exact Option.some.inj hs'
  obtain ⟨hcross, hpts⟩ := hpts he he'
  have hn := h.count_pos
  obtain ⟨b, hb, hneg, hpos, g2, g1, hne, hpe, hm⟩ := hr.runs hn he he'
  -- the shared points
  have hsh2 : s.shared2 = if s.ranges.neg.2 % P.count = s.ranges.pos.1 % P.count then
      some ((P.lineD ((s.ranges.neg.2 + P.count - 1) % P.count)).intersect g) else none := by
    unfold Polygon.splitPoints at hpts
    simp only [Option.ite_none_right_eq_some] at hpts
    rw [← Option.some.inj hpts.2]
  have hsh1 : s.shared1 = if s.ranges.pos.2 % P.count = s.ranges.neg.1 % P.count then
      some ((P.lineD ((s.ranges.pos.2 + P.count - 1) % P.count)).intersect g) else none := by
    unfold Polygon.splitPoints at hpts
    simp only [Option.ite_none_right_eq_some] at hpts
    rw [← Option.some.inj hpts.2]
  clear hpts
  obtain ⟨r, line, sh1, sh2⟩ := s
  obtain ⟨⟨a, a2⟩, ⟨b1, b2⟩⟩ := r
  simp only at *
  obtain ⟨m, rfl⟩ : ∃ m, a2 = a + m := ⟨a2 - a, by omega⟩
  obtain ⟨k, rfl⟩ : ∃ k, b2 = b1 + k := ⟨b2 - b1, by omega⟩
  rw [show a + m - a = m by omega] at hm
  rw [show b1 + k - b1 = k by omega] at hpos g1
  subst hline
  have side0 : ∀ i, P.plane.side (P.pt (i % P.count)) = 0 := SplitShape.pt_side h
  have hk : b + k ≤ a + P.count := by
    split at g1 <;> omega
  have hzero : ∀ i, a + m ≤ i → i < a + P.count → ¬ (b ≤ i ∧ i < b + k) → g.side (P.pt (i % P.count)) = 0 := by
    intro i h1 h2 h3
    have q1 : ¬ g.side (P.pt (i % P.count)) < 0 := by
      intro hc
      obtain ⟨j, j1, j2, j3⟩ := (hr.neg _ (Nat.mod_lt _ hn)).mp hc
      simp only at j1 j2
      have := mod_window_eq j3.symm (by omega) (by omega)
      omega
    have q2 : ¬ 0 < g.side (P.pt (i % P.count)) := by
      intro hc
      obtain ⟨j, j1, j2, j3⟩ := (hr.pos _ (Nat.mod_lt _ hn)).mp hc
      simp only at j1 j2
      have e : (b + (j - b1)) % P.count = i % P.count := by
        rw [Nat.add_mod, hb, ← Nat.add_mod, show b1 + (j - b1) = j by omega, j3]
      have hb' : b = a + m ∨ b = a + m + 1 := by
        split at g2
        · exact Or.inl g2
        · exact Or.inr g2
      rcases Nat.lt_trichotomy i (b + (j - b1)) with c | c | c
      · have := mod_window_eq e c (by omega); omega
      · omega
      · have := mod_window_eq e.symm c (by omega); omega
    linarith
  -- the fractions
  have hfrac : ∀ e, g.side (P.pt (e % P.count)) ≠ g.side (P.pt ((e + 1) % P.count)) →
      ((P.lineD (e % P.count)).intersect g).w ≠ 0 ∧
      ((P.lineD (e % P.count)).intersect g).pt = cross3 P e (g.side (P.pt (e % P.count)) /
        (g.side (P.pt (e % P.count)) - g.side (P.pt ((e + 1) % P.count)))) ∧
      g.side (cross3 P e (g.side (P.pt (e % P.count)) /
        (g.side (P.pt (e % P.count)) - g.side (P.pt ((e + 1) % P.count))))) = 0 := by
    intro e hne
    obtain ⟨w, hp⟩ := edge_intersect (SplitShape.edge h e) g hne
    refine ⟨w, hp, ?_⟩
    unfold cross3
    rw [side_lerp3]
    have := sub_ne_zero.mpr hne
    field_simp
    ring
  have ht : ∃ t, 0 < t ∧ t ≤ 1 ∧ (b = a + m ∨ (b = a + m + 1 ∧ t = 1)) ∧ g.side (cross3 P (a + m - 1) t) = 0 ∧
      ((∃ p, sh2 = some p ∧ b = a + m ∧ p.w ≠ 0 ∧ p.pt = cross3 P (a + m - 1) t) ∨
        (sh2 = none ∧ b = a + m + 1 ∧ cross3 P (a + m - 1) t = P.pt ((a + m) % P.count))) := by
    by_cases c : (a + m) % P.count = b1 % P.count
    · rw [if_pos c] at g2 hsh2
      have f1 := hneg (a + m - 1) (by omega) (by omega)
      have f2 := hpos (a + m) (by omega) (by omega)
      obtain ⟨w, hp, hz⟩ := hfrac (a + m - 1) (by rw [show a + m - 1 + 1 = a + m by omega]; linarith)
      rw [show a + m - 1 + 1 = a + m by omega] at hp hz
      have hxy : g.side (P.pt ((a + m - 1) % P.count)) - g.side (P.pt ((a + m) % P.count)) < 0 := by linarith
      refine ⟨_, div_pos_of_neg_of_neg f1 hxy, ?_, Or.inl g2, hz, Or.inl ⟨_, hsh2, g2, ?_⟩⟩
      · rw [div_le_one_of_neg hxy]; linarith
      · rw [show a + m + P.count - 1 = a + m - 1 + P.count by omega, Nat.add_mod_right]
        exact ⟨w, hp⟩
    · rw [if_neg c] at g2 hsh2
      have e : cross3 P (a + m - 1) 1 = P.pt ((a + m) % P.count) := by
        unfold cross3; rw [lerp3_one, show a + m - 1 + 1 = a + m by omega]
      refine ⟨1, one_pos, le_rfl, Or.inr ⟨g2, rfl⟩, ?_, Or.inr ⟨hsh2, g2, e⟩⟩
      rw [e]
      exact hzero _ le_rfl (by omega) (by omega)
  have hu : ∃ u, 0 ≤ u ∧ u < 1 ∧ (a + P.count = b + k ∨ (a + P.count = b + k + 1 ∧ u = 0)) ∧
      g.side (cross3 P (a + P.count - 1) u) = 0 ∧
      ((∃ p, sh1 = some p ∧ a + P.count = b + k ∧ p.w ≠ 0 ∧ p.pt = cross3 P (a + P.count - 1) u) ∨
        (sh1 = none ∧ a + P.count = b + k + 1 ∧ cross3 P (a + P.count - 1) u = P.pt ((a + P.count - 1) % P.count))) := by
    by_cases c : (b1 + k) % P.count = a % P.count
    · rw [if_pos c] at g1 hsh1
      have f1 := hneg a (by omega) (by omega)
      have f2 := hpos (a + P.count - 1) (by split at g2 <;> omega) (by omega)
      obtain ⟨w, hp, hz⟩ := hfrac (a + P.count - 1) (by
        rw [show a + P.count - 1 + 1 = a + P.count by omega, Nat.add_mod_right]; linarith)
      rw [show a + P.count - 1 + 1 = a + P.count by omega, Nat.add_mod_right] at hp hz
      have hxy : 0 < g.side (P.pt ((a + P.count - 1) % P.count)) - g.side (P.pt (a % P.count)) := by linarith
      refine ⟨_, (div_pos f2 hxy).le, ?_, Or.inl g1, hz, Or.inl ⟨_, hsh1, g1, ?_⟩⟩
      · rw [div_lt_one hxy]; linarith
      · have e : (b1 + k + P.count - 1) % P.count = (a + P.count - 1) % P.count := by
          rw [show b1 + k + P.count - 1 = (b1 + k) + (P.count - 1) by omega, Nat.add_mod, c, ← Nat.add_mod,
            show a + (P.count - 1) = a + P.count - 1 by omega]
        rw [e]
        exact ⟨w, hp⟩
    · rw [if_neg c] at g1 hsh1
      have e : cross3 P (a + P.count - 1) 0 = P.pt ((a + P.count - 1) % P.count) := by
        unfold cross3; rw [lerp3_zero]
      refine ⟨0, le_rfl, one_pos, Or.inr ⟨g1, rfl⟩, ?_, Or.inr ⟨hsh1, g1, e⟩⟩
      rw [e]
      exact hzero _ (by omega) (by omega) (by omega)
  obtain ⟨t, t0, t1, tg, ts, tc⟩ := ht
  obtain ⟨u, u0, u1, ug, us, uc⟩ := hu
  have cut : Cut P.count (ring2 P) (ca P.plane g P.drop) (cb P.plane g P.drop) (cc P.plane g P.drop) a m b k t u := by
    refine ⟨h.ring, by omega, by omega, tg, ug, fun i h1 h2 => ?_, fun i h1 h2 => ?_, t0, t1, u0, u1, ?_, ?_⟩
    · unfold ring2; rw [SplitShape.aff_pt h (side0 i)]; exact hneg i h1 h2
    · unfold ring2; rw [SplitShape.aff_pt h (side0 i)]; exact hpos i h1 h2
    · rw [← pr_cross3, SplitShape.aff_pt h (SplitShape.cross_side h _ _)]; exact ts
    · rw [← pr_cross3, SplitShape.aff_pt h (SplitShape.cross_side h _ _)]; exact us
  obtain ⟨l1, hl1, len1, el1⟩ := copyEdges_spec P hn a m
  obtain ⟨l2, hl2, len2, el2⟩ := copyEdges_spec P hn b1 k
  have el2' : ∀ i, i < k → l2[i]? = P.edges[(b + i) % P.count]? := by
    intro i hi
    rw [el2 i hi, Nat.add_mod b1, ← hb, ← Nat.add_mod]
  -- the edges at the shared vertices
  have hmid2 : ∃ n2 p2 : Edge D, P.afterNeg ops ⟨⟨(a, a + m), (b1, b1 + k)⟩, PL.ofPlanes P.plane g, sh1, sh2⟩ l1 = some (n2, p2) ∧
      n2.vertex.w ≠ 0 ∧ n2.vertex.pt = cross3 P (a + m - 1) t ∧ n2.line = PL.ofPlanes P.plane g ∧
      p2.vertex = n2.vertex ∧ p2.line = P.lineD ((b - 1) % P.count) ∧
      (∃ d, (∃ l, n2.data = ops.atLine d l) ∨ ∃ p l, n2.data = ops.atBoth d p l) ∧
      ∃ f, P.edges[(b - 1) % P.count]? = some f ∧ (p2.data = f.data ∨ ∃ p, p2.data = ops.atVertex f.data p) := by
    rcases tc with ⟨p, e1, e2, e3, e4⟩ | ⟨e1, e2, e3⟩
    · subst e1
      obtain ⟨e, he⟩ := edge_at P (Nat.mod_lt (a + m - 1) hn)
      have hlast : l1.getLast? = some e := by
        rw [List.getLast?_eq_getElem?, len1, el1 _ (by omega), show a + (m - 1) = a + m - 1 by omega, he]
      refine ⟨⟨p, PL.ofPlanes P.plane g, ops.atBoth e.data p (PL.ofPlanes P.plane g)⟩, ⟨p, e.line, ops.atVertex e.data p⟩,
        by simp only [Polygon.afterNeg, hlast, Option.map_some], e3, e4, rfl, rfl, ?_,
        ⟨e.data, Or.inr ⟨p, _, rfl⟩⟩, e, ?_, Or.inr ⟨p, rfl⟩⟩
      · rw [show b - 1 = a + m - 1 by omega, lineD_of he]
      · rw [show b - 1 = a + m - 1 by omega, he]
    · subst e1
      obtain ⟨e, he⟩ := edge_at P (Nat.mod_lt (a + m) hn)
      refine ⟨⟨e.vertex, PL.ofPlanes P.plane g, ops.atLine e.data (PL.ofPlanes P.plane g)⟩, e,
        by simp only [Polygon.afterNeg, he, Option.map_some], ?_, ?_, rfl, rfl, ?_,
        ⟨e.data, Or.inl ⟨_, rfl⟩⟩, e, by rw [show b - 1 = a + m by omega, he], Or.inl rfl⟩
      · rw [← vertexD_of he]; exact h.finite _ (Nat.mod_lt _ hn)
      · rw [e3, pt_of he]
      · rw [show b - 1 = a + m by omega, lineD_of he]
  obtain ⟨n2, p2, hm2, n2w, n2p, n2l, p2v, p2l, n2d, p2d⟩ := hmid2
  have hmid1 : ∃ n1 p1 : Edge D, P.afterPos ops ⟨⟨(a, a + m), (b1, b1 + k)⟩, PL.ofPlanes P.plane g, sh1, sh2⟩ (p2 :: l2) = some (n1, p1) ∧
      n1.vertex.w ≠ 0 ∧ n1.vertex.pt = cross3 P (a + P.count - 1) u ∧ n1.line = P.lineD ((a + P.count - 1) % P.count) ∧
      p1.vertex = n1.vertex ∧ p1.line = (PL.ofPlanes P.plane g).neg ∧
      (∃ d, (∃ l, p1.data = ops.atLine d l) ∨ ∃ p l, p1.data = ops.atBoth d p l) ∧
      ∃ f, P.edges[(a + P.count - 1) % P.count]? = some f ∧ (n1.data = f.data ∨ ∃ p, n1.data = ops.atVertex f.data p) := by
    rcases uc with ⟨p, e1, e2, e3, e4⟩ | ⟨e1, e2, e3⟩
    · subst e1
      obtain ⟨e, he⟩ := edge_at P (Nat.mod_lt (a + P.count - 1) hn)
      have hlast : (p2 :: l2).getLast? = some e := by
        rw [List.getLast?_eq_getElem?, List.length_cons, len2, show k + 1 - 1 = (k - 1) + 1 by omega,
          List.getElem?_cons_succ, el2' _ (by omega), show b + (k - 1) = a + P.count - 1 by omega, he]
      refine ⟨⟨p, e.line, ops.atVertex e.data p⟩,
        ⟨p, (PL.ofPlanes P.plane g).neg, ops.atBoth e.data p (PL.ofPlanes P.plane g).neg⟩,
        by simp only [Polygon.afterPos, hlast, Option.map_some], e3, e4, ?_, rfl, rfl,
        ⟨e.data, Or.inr ⟨p, _, rfl⟩⟩, e, he, Or.inr ⟨p, rfl⟩⟩
      simp only [lineD_of he]
    · subst e1
      obtain ⟨e, he⟩ := edge_at P (Nat.mod_lt (a + P.count - 1) hn)
      have hi : (b1 + k) % P.count = (a + P.count - 1) % P.count := by
        rw [Nat.add_mod, ← hb, ← Nat.add_mod, show b + k = a + P.count - 1 by omega]
      refine ⟨e, ⟨e.vertex, (PL.ofPlanes P.plane g).neg, ops.atLine e.data (PL.ofPlanes P.plane g).neg⟩,
        by simp only [Polygon.afterPos, hi, he, Option.map_some], ?_, ?_, ?_, rfl, rfl,
        ⟨e.data, Or.inl ⟨_, rfl⟩⟩, e, he, Or.inl rfl⟩
      · rw [← vertexD_of he]; exact h.finite _ (Nat.mod_lt _ hn)
      · rw [e3, pt_of he]
      · rw [lineD_of he]
  obtain ⟨n1, p1, hm1, n1w, n1p, n1l, p1v, p1l, p1d, n1d⟩ := hmid1
  have ed1 : ∀ i, i < m → (l1 ++ [n2] ++ [n1])[i]? = P.edges[(a + i) % P.count]? := by
    intro i hi
    rw [List.append_assoc, List.getElem?_append_left (by omega), el1 i hi]
  have ed2 : (l1 ++ [n2] ++ [n1])[m]? = some n2 := by
    rw [List.append_assoc, List.getElem?_append_right (by omega), len1]; simp
  have ed3 : (l1 ++ [n2] ++ [n1])[m + 1]? = some n1 := by
    rw [List.append_assoc, List.getElem?_append_right (by omega), len1]; simp
  have fd1 : ∀ i, 1 ≤ i → i ≤ k → (p2 :: l2 ++ [p1])[i]? = P.edges[(b + i - 1) % P.count]? := by
    intro i h1 h2
    obtain ⟨i, rfl⟩ : ∃ j, i = j + 1 := ⟨i - 1, by omega⟩
    rw [List.cons_append, List.getElem?_cons_succ, List.getElem?_append_left (by omega), el2' i (by omega),
      show b + (i + 1) - 1 = b + i by omega]
  have fd2 : (p2 :: l2 ++ [p1])[0]? = some p2 := by simp
  have fd3 : (p2 :: l2 ++ [p1])[k + 1]? = some p1 := by
    rw [List.cons_append, List.getElem?_cons_succ, List.getElem?_append_right (by omega), len2]; simp
  refine ⟨⟨P.plane, P.drop, l1 ++ [n2] ++ [n1]⟩, ⟨P.plane, P.drop, p2 :: l2 ++ [p1]⟩, a, m, b, k, t, u, ?_, ?_, rfl,
    by show m = a + m - a; omega, hb, by show k = b1 + k - b1; omega, ?_⟩
  · unfold Polygon.splitChildren
    simp only [he, he', Bool.not_true, Bool.or_self, Bool.false_eq_true, if_false]
    rw [if_neg (by omega), show a + m - a = m by omega, show b1 + k - b1 = k by omega, hl1, hl2]
    simp only
    rw [hm2]
    simp only
    rw [hm1]
  · refine ⟨cut, hcross, rfl, rfl, rfl, rfl, by simp [Polygon.count, len1], by simp [Polygon.count, len2], ?_, ?_, ?_, ?_, ?_, ?_, ed1, fd1⟩
    · intro i hi
      by_cases c1 : i < m
      · obtain ⟨e, he⟩ := edge_at P (Nat.mod_lt (a + i) hn)
        rw [vertexD_of ((ed1 i c1).trans he), ← vertexD_of he]
        exact h.finite _ (Nat.mod_lt _ hn)
      · rcases (show i = m ∨ i = m + 1 by omega) with rfl | rfl
        · rw [vertexD_of ed2]; exact n2w
        · rw [vertexD_of ed3]; exact n1w
    · intro i hi
      by_cases c0 : i = 0
      · subst c0; rw [vertexD_of fd2, p2v]; exact n2w
      by_cases c1 : i ≤ k
      · obtain ⟨e, he⟩ := edge_at P (Nat.mod_lt (b + i - 1) hn)
        rw [vertexD_of ((fd1 i (by omega) c1).trans he), ← vertexD_of he]
        exact h.finite _ (Nat.mod_lt _ hn)
      · obtain rfl : i = k + 1 := by omega
        rw [vertexD_of fd3, p1v]; exact n1w
    · intro i hi
      by_cases c1 : i < m
      · obtain ⟨e, he⟩ := edge_at P (Nat.mod_lt (a + i) hn)
        rw [if_pos c1, pt_of ((ed1 i c1).trans he), ← pt_of he]
      · rcases (show i = m ∨ i = m + 1 by omega) with rfl | rfl
        · rw [if_neg c1, if_pos rfl, pt_of ed2, n2p]
        · rw [if_neg c1, if_neg (by omega), pt_of ed3, n1p]
    · intro i hi
      by_cases c0 : i = 0
      · subst c0; rw [if_pos rfl, pt_of fd2, p2v, n2p]
      by_cases c1 : i ≤ k
      · obtain ⟨e, he⟩ := edge_at P (Nat.mod_lt (b + i - 1) hn)
        rw [if_neg c0, if_pos c1, pt_of ((fd1 i (by omega) c1).trans he), ← pt_of he]
      · obtain rfl : i = k + 1 := by omega
        rw [if_neg c0, if_neg c1, pt_of fd3, p1v, n1p]
    · intro i hi
      by_cases c1 : i < m
      · obtain ⟨e, he⟩ := edge_at P (Nat.mod_lt (a + i) hn)
        rw [if_pos c1, lineD_of ((ed1 i c1).trans he), ← lineD_of he]
      · rcases (show i = m ∨ i = m + 1 by omega) with rfl | rfl
        · rw [if_neg c1, if_pos rfl, lineD_of ed2, n2l]
        · rw [if_neg c1, if_neg (by omega), lineD_of ed3, n1l]
    · intro i hi
      by_cases c0 : i = 0
      · subst c0; rw [if_pos (by omega), lineD_of fd2, p2l, Nat.add_zero]
      by_cases c1 : i ≤ k
      · obtain ⟨e, he⟩ := edge_at P (Nat.mod_lt (b + i - 1) hn)
        rw [if_pos c1, lineD_of ((fd1 i (by omega) c1).trans he), ← lineD_of he]
      · obtain rfl : i = k + 1 := by omega
        rw [if_neg c1, lineD_of fd3, p1l]
  · obtain ⟨d, hd⟩ := n2d
    obtain ⟨d', hd'⟩ := p1d
    obtain ⟨f, hf1, hf2⟩ := n1d
    obtain ⟨f', hf1', hf2'⟩ := p2d
    exact ⟨⟨n2, d, ed2, hd⟩, ⟨n1, f, ed3, hf1, hf2⟩, ⟨p2, f', fd2, hf1', hf2'⟩, ⟨p1, d', fd3, hd'⟩⟩

end Walnut.Poly
