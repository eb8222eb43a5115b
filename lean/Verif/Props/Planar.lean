/-
C52 (planar ranges).

The statements are about `planarRange`, the model of `PlanarRange::Build`.  The input is the part
of the vertex list `vs` from the index `rb` to the index `re`; `r.verts`, `r.size` and `r.plane`
are the result, `r.first` and `r.last` are the two iterators on output.
-/
import Verif.Mono.PlanarProof
import Verif.Props.Ranges

namespace Walnut.Props
open Walnut.Geom Walnut.Mono

/-- All points are on one line. -/
def OneLine (l : List Q3) : Prop := ∃ a d : Q3, ∀ p ∈ l, ∃ t : ℚ, ∀ i, p i = a i + t * d i

theorem onLine_of_oneLine {l : List Q3} (h : OneLine l) {a b v : Q3} (ha : a ∈ l) (hb : b ∈ l) (hv : v ∈ l) :
    Aligned a b v := by
  obtain ⟨p, d, h⟩ := h
  obtain ⟨t1, e1⟩ := h a ha
  obtain ⟨t2, e2⟩ := h b hb
  obtain ⟨t3, e3⟩ := h v hv
  intro i
  fin_cases i <;> simp [subQ, e1, e2, e3] <;> ring

theorem oneLine_of_onLine {l : List Q3} {a b : Q3} (hab : a ≠ b) (h : ∀ v ∈ l, Aligned a b v) : OneLine l := by
  refine ⟨a, subQ b a, fun v hv => ?_⟩
  have e := h v hv
  have e0 := e 0
  have e1 := e 1
  have e2 := e 2
  simp only [crossQ_zero, crossQ_one, crossQ_two] at e0 e1 e2
  by_cases d0 : subQ b a 0 = 0
  · by_cases d1 : subQ b a 1 = 0
    · by_cases d2 : subQ b a 2 = 0
      · exfalso; apply hab; funext i
        fin_cases i
        · simp only [subQ] at d0; show a 0 = b 0; linarith
        · simp only [subQ] at d1; show a 1 = b 1; linarith
        · simp only [subQ] at d2; show a 2 = b 2; linarith
      · refine ⟨subQ v a 2 / subQ b a 2, fun i => ?_⟩
        have : subQ v a i = subQ v a 2 / subQ b a 2 * subQ b a i := by
          fin_cases i
          · show subQ v a 0 = subQ v a 2 / subQ b a 2 * subQ b a 0
            field_simp; linear_combination e1
          · show subQ v a 1 = subQ v a 2 / subQ b a 2 * subQ b a 1
            field_simp; linear_combination -e0
          · show subQ v a 2 = subQ v a 2 / subQ b a 2 * subQ b a 2
            field_simp
        rw [← this]; simp [subQ]
    · refine ⟨subQ v a 1 / subQ b a 1, fun i => ?_⟩
      have : subQ v a i = subQ v a 1 / subQ b a 1 * subQ b a i := by
        fin_cases i
        · show subQ v a 0 = subQ v a 1 / subQ b a 1 * subQ b a 0
          field_simp; linear_combination -e2
        · show subQ v a 1 = subQ v a 1 / subQ b a 1 * subQ b a 1
          field_simp
        · show subQ v a 2 = subQ v a 1 / subQ b a 1 * subQ b a 2
          field_simp; linear_combination e0
      rw [← this]; simp [subQ]
  · refine ⟨subQ v a 0 / subQ b a 0, fun i => ?_⟩
    have : subQ v a i = subQ v a 0 / subQ b a 0 * subQ b a i := by
      fin_cases i
      · show subQ v a 0 = subQ v a 0 / subQ b a 0 * subQ b a 0
        field_simp
      · show subQ v a 1 = subQ v a 0 / subQ b a 0 * subQ b a 1
        field_simp; linear_combination e2
      · show subQ v a 2 = subQ v a 0 / subQ b a 0 * subQ b a 2
        field_simp; linear_combination -e1
    rw [← this]; simp [subQ]

theorem zero_side (q : Q3) : zeroPlane.side q = 0 := by simp [HS3.side_eq, zeroPlane, V3.zero]

theorem planarRange_one {vs : List HP3} {rb : Nat} {x : HP3} (hx : vs[rb]? = some x) :
    planarRange vs rb (rb + 1) = some ⟨[x], 1, zeroPlane, rb, rb⟩ := by
  have hl : rb < vs.length := by
    by_contra hc; rw [List.getElem?_eq_none (by omega)] at hx; simp at hx
  unfold planarRange
  rw [if_neg (by omega), dec?_eq (by omega)]
  simp only [Option.bind_eq_bind, Option.bind_some, Nat.add_sub_cancel, hx, seg?_eq (show rb ≤ rb + 1 by omega) hl,
    seg_one hx]
  simp

/-- C52: for any nonempty range, `Build` returns.  The range left over is a part of the input range,
and shorter than it, so repeated calls come to an end.  The vertices taken are the first
and the last ones of the input, in the order of the input, and all of them are in the plane.
`CutMiddle` says that the polygon taken and the polygon left over have the two vertices at the cut
in common, and share no others.  The function `size` is the number of vertices taken.  If vertices
are left over, the first and the last of them (next to the cut) are not in the plane. -/
theorem C52_range (vs : List HP3) (rb re : Nat) (hw : ∀ v ∈ vs, v.w ≠ 0) (hm : ∀ v ∈ vs, v.w ≠ -2 ^ 63) (h1 : rb < re)
    (h2 : re ≤ vs.length) :
    ∃ r, planarRange vs rb re = some r ∧
      rb ≤ r.first ∧ r.first ≤ r.last ∧ r.last ≤ re ∧ r.last - r.first < re - rb ∧
      r.size = r.verts.length ∧ (∀ v ∈ r.verts, r.plane.side v.pt = 0) ∧
      CutMiddle (slice vs rb re) r.verts (slice vs r.first r.last) ∧
      (r.first < r.last → ∃ u v, vs[r.first + 1]? = some u ∧ vs[r.last - 2]? = some v ∧
        r.plane.side u.pt ≠ 0 ∧ r.plane.side v.pt ≠ 0) := by
  have get : ∀ i, i < vs.length → ∃ v, vs[i]? = some v := fun i hi => ⟨_, List.getElem?_eq_getElem hi⟩
  have nil : ∀ i, i ≤ vs.length → slice vs i i = [] := fun i hi => seg_nil hi
  by_cases h3 : re = rb + 1
  · subst h3
    obtain ⟨x, hx⟩ := get rb (by omega)
    refine ⟨_, planarRange_one hx, le_rfl, le_rfl, by simp, by simp, rfl, fun v _ => zero_side _, ?_, by simp⟩
    exact ⟨[x], [], [], by rw [show slice vs rb (rb + 1) = [x] from seg_one hx]; rfl, rfl,
      Or.inl ⟨rfl, nil rb (by omega)⟩⟩
  · obtain ⟨p1, hp1⟩ := get (re - 1) (by omega)
    obtain ⟨p2, hp2⟩ := get rb (by omega)
    obtain ⟨r, hr, hs⟩ := planarRange_spec hw hm (show rb + 1 < re by omega) h2 hp1 hp2
    refine ⟨r, hr, ?_⟩
    have whole : r.verts = seg vs rb re → r.first = re - 1 → r.last = re - 1 →
        CutMiddle (slice vs rb re) r.verts (slice vs r.first r.last) := by
      intro e1 e2 e3
      exact ⟨seg vs rb re, [], [], by simp [seg], by rw [e1]; simp, Or.inl ⟨rfl, by rw [e2, e3, nil _ (by omega)]⟩⟩
    rcases hs with ⟨hz, e1, e2, e3, e4, -⟩ | ⟨hv, -, hin, hsz, ⟨e1, e2, e3⟩ | ⟨i, j, u, v, i1, i2, i3, e1, e2, e3, hu, hv2, nu, nv⟩⟩
    · exact ⟨by omega, by omega, by omega, by omega, e2, fun v _ => by rw [hz]; exact zero_side _, whole e1 e3 e4, by omega⟩
    · exact ⟨by omega, by omega, by omega, by omega, hsz, hin, whole e1 e2 e3, by omega⟩
    · refine ⟨by omega, by omega, by omega, by omega, hsz, hin, ?_, fun _ => ⟨u, v, ?_, ?_, nu, nv⟩⟩
      · obtain ⟨x, hx⟩ := get (i - 1) (by omega)
        obtain ⟨y, hy⟩ := get j (by omega)
        refine ⟨seg vs rb i, seg vs i j, seg vs j re, ?_, e1, Or.inr ⟨x, y, ?_, ?_, ?_, ?_⟩⟩
        · rw [seg_append (by omega) (by omega) (by omega), seg_append (by omega) (by omega) (by omega)]
          rfl
        · rw [seg_last (by omega) (by omega), hx]
        · rw [seg_head (by omega) (by omega), hy]
        · intro hc
          have := congrArg List.length hc
          rw [seg_length (by omega)] at this; simp at this; omega
        · rw [e2, e3]
          show seg vs (i - 1) (j + 1) = _
          rw [seg_cons hx (by omega) (by omega), show i - 1 + 1 = i by omega,
            seg_snoc hy (by omega) (by omega)]; rfl
      · rw [e2, show i - 1 + 1 = i by omega, hu]
      · rw [e3, show j + 1 - 2 = j - 1 by omega, hv2]

/-- C52: the boundary of the polygon taken and the boundary of the polygon left over add up to
the boundary of the input polygon. -/
theorem C52_boundary (vs : List HP3) (rb re : Nat) (hw : ∀ v ∈ vs, v.w ≠ 0) (hm : ∀ v ∈ vs, v.w ≠ -2 ^ 63)
    (h1 : rb < re) (h2 : re ≤ vs.length) (r : PRange) (hr : planarRange vs rb re = some r) (f : Q3 → Q3 → ℚ)
    (hf : Antisymmetric f) :
    loopSum f ((slice vs rb re).map (·.pt)) =
      loopSum f (r.verts.map (·.pt)) + loopSum f ((slice vs r.first r.last).map (·.pt)) := by
  obtain ⟨r', hr', -, -, -, -, -, -, hc, -⟩ := C52_range vs rb re hw hm h1 h2
  rw [hr] at hr'; simp only [Option.some.injEq] at hr'; subst hr'
  rw [loopSum_map, loopSum_map, loopSum_map]
  exact hc.sum _ fun a b => hf _ _

/-- C52, the plane: if its normal is not zero, it is the plane through the last vertex, the
first one and some other one of the range, seen counter-clockwise from its positive side. -/
theorem C52_plane (vs : List HP3) (rb re : Nat) (hw : ∀ v ∈ vs, v.w ≠ 0) (hm : ∀ v ∈ vs, v.w ≠ -2 ^ 63)
    (h1 : rb < re) (h2 : re ≤ vs.length) (r : PRange) (hr : planarRange vs rb re = some r) (p1 p2 : HP3)
    (hp1 : vs[re - 1]? = some p1) (hp2 : vs[rb]? = some p2) (hn : r.plane.n ≠ ⟨0, 0, 0⟩) :
    ∃ p3 ∈ slice vs rb re, ∃ k : ℚ, 0 < k ∧ ∀ q, r.plane.side q = k * orient p1.pt p2.pt p3.pt q := by
  by_cases h3 : re = rb + 1
  · subst h3
    rw [planarRange_one hp2] at hr
    simp only [Option.some.injEq] at hr; subst hr
    exact absurd rfl hn
  · obtain ⟨r', hr', hs⟩ := planarRange_spec hw hm (show rb + 1 < re by omega) h2 hp1 hp2
    rw [hr] at hr'; simp only [Option.some.injEq] at hr'; subst hr'
    rcases hs with ⟨hz, -⟩ | ⟨-, h, -⟩
    · exact absurd (by rw [hz]; rfl) hn
    · exact h

/-- C52, the part about collinear vertices: if the first vertex and the last one are different
points, the zero plane is returned if and only if all vertices of the range are on one line,
and then the whole range is taken.

Not proved, because it is false (`C52_closed_false`): the same if the first vertex and the last one
coincide. -/
theorem C52_collinear_partial (vs : List HP3) (rb re : Nat) (hw : ∀ v ∈ vs, v.w ≠ 0) (hm : ∀ v ∈ vs, v.w ≠ -2 ^ 63)
    (h1 : rb < re) (h2 : re ≤ vs.length) (r : PRange) (hr : planarRange vs rb re = some r) (p1 p2 : HP3)
    (hp1 : vs[re - 1]? = some p1) (hp2 : vs[rb]? = some p2) (hne : p1.pt ≠ p2.pt) :
    (r.plane.n = ⟨0, 0, 0⟩ ↔ OneLine ((slice vs rb re).map (·.pt))) ∧
    (r.plane.n = ⟨0, 0, 0⟩ → r.verts = slice vs rb re) := by
  by_cases h3 : re = rb + 1
  · subst h3
    rw [Nat.add_sub_cancel, hp2] at hp1
    simp only [Option.some.injEq] at hp1; subst hp1
    exact absurd rfl hne
  · obtain ⟨r', hr', hs⟩ := planarRange_spec hw hm (show rb + 1 < re by omega) h2 hp1 hp2
    rw [hr] at hr'; simp only [Option.some.injEq] at hr'; subst hr'
    rcases hs with ⟨hz, e1, -, -, -, hon⟩ | ⟨hv, ⟨p3, m3, k, hk, hside⟩, -⟩
    · refine ⟨⟨fun _ => oneLine_of_onLine hne ?_, fun _ => by rw [hz]; rfl⟩, fun _ => e1⟩
      intro v hv
      simp only [List.mem_map] at hv
      obtain ⟨u, hu, rfl⟩ := hv
      exact hon u hu
    · have hnz : r.plane.n ≠ ⟨0, 0, 0⟩ := by
        intro hc; simp [planeValid, hc, V3.isZero] at hv
      refine ⟨⟨fun h => absurd h hnz, fun h => ?_⟩, fun h => absurd h hnz⟩
      exfalso
      have m1 : p1 ∈ slice vs rb re := by
        apply List.mem_of_getLast?; rw [show (slice vs rb re).getLast? = vs[re - 1]? from seg_last h1 h2, hp1]
      have m2 : p2 ∈ slice vs rb re := by
        apply List.mem_of_head?; rw [show (slice vs rb re).head? = vs[rb]? from seg_head h1 h2, hp2]
      have hon := onLine_of_oneLine h (List.mem_map_of_mem (f := (·.pt)) m1) (List.mem_map_of_mem (f := (·.pt)) m2)
        (List.mem_map_of_mem (f := (·.pt)) m3)
      obtain ⟨e1, e2, e3⟩ := side_normal hside
      have o0 := hon 0
      have o1 := hon 1
      have o2 := hon 2
      rw [o0, mul_zero] at e1
      rw [o1, mul_zero] at e2
      rw [o2, mul_zero] at e3
      apply hnz
      have : r.plane.n = ⟨r.plane.n.x, r.plane.n.y, r.plane.n.z⟩ := rfl
      rw [this]
      congr 1
      · exact_mod_cast e1
      · exact_mod_cast e2
      · exact_mod_cast e3

/-- C52: with the denominator one, the tests of the model are those of the overloads for `Point3`. -/
theorem C52_points (p1 p2 p3 v : V3) (h : HS3) :
    HS3.ofHomoPoints ⟨p1, 1⟩ ⟨p2, 1⟩ ⟨p3, 1⟩ = some (HS3.ofPoints p1 p2 p3) ∧ h.compareHomo ⟨v, 1⟩ = h.compare v := by
  constructor
  · have e : abs? 1 = some 1 := by decide
    have e1 : absMult2 1 1 = 1 := by decide
    have e2 : absMult 1 = 1 := by decide
    simp [HS3.ofHomoPoints, HS3.ofPoints, e, e1, e2, V3.scale, V3.sub, V3.cross, V3.dot]
  · have e2 : absMult 1 = 1 := by decide
    simp [HS3.compareHomo, HS3.compare, e2]

/-- C52 is false of a polygon whose last vertex repeats the first one: the zero plane is
returned for a triangle, although its vertices are not on one line. -/
def closedTriangle : List HP3 := [⟨⟨0, 0, 0⟩, 1⟩, ⟨⟨2, 0, 0⟩, 1⟩, ⟨⟨0, 2, 0⟩, 1⟩, ⟨⟨0, 0, 0⟩, 1⟩]

theorem C52_closed_false : ∃ r, planarRange closedTriangle 0 4 = some r ∧ r.plane.n = ⟨0, 0, 0⟩ ∧
    ¬ OneLine (closedTriangle.map (·.pt)) := by
  refine ⟨⟨closedTriangle, 4, zeroPlane, 3, 3⟩, by decide +kernel, rfl, ?_⟩
  intro h
  have := onLine_of_oneLine h (a := HP3.pt ⟨⟨0, 0, 0⟩, 1⟩) (b := HP3.pt ⟨⟨2, 0, 0⟩, 1⟩) (v := HP3.pt ⟨⟨0, 2, 0⟩, 1⟩)
    (by simp [closedTriangle]) (by simp [closedTriangle]) (by simp [closedTriangle])
  have := this 2
  simp [subQ, HP3.pt, V3.comp] at this

/-- Seven vertices, one of which is not in the plane of the others: the hypotheses of the theorems
hold, and the triangle with that vertex is left over. -/
def bent : List HP3 := [⟨⟨0, 0, 0⟩, 1⟩, ⟨⟨1, 0, 0⟩, 1⟩, ⟨⟨4, 0, 0⟩, 2⟩, ⟨⟨2, 2, 0⟩, 1⟩, ⟨⟨2, 1, 5⟩, 1⟩, ⟨⟨0, 2, 0⟩, 1⟩,
  ⟨⟨0, 1, 0⟩, 1⟩]

example : (∀ v ∈ bent, v.w ≠ 0) ∧ (∀ v ∈ bent, v.w ≠ -2 ^ 63) ∧ planarRange bent 0 7 = some
    ⟨[⟨⟨0, 0, 0⟩, 1⟩, ⟨⟨1, 0, 0⟩, 1⟩, ⟨⟨4, 0, 0⟩, 2⟩, ⟨⟨2, 2, 0⟩, 1⟩, ⟨⟨0, 2, 0⟩, 1⟩, ⟨⟨0, 1, 0⟩, 1⟩], 6,
      ⟨⟨0, 0, 1⟩, 0⟩, 3, 6⟩ := by
  refine ⟨by decide, by decide, ?_⟩
  decide +kernel

end Walnut.Props
