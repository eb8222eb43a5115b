/-
The two parts of a convex polygon cut by a plane: they are convex polygons, and they
cover the points of the polygon on the two sides of the plane.
-/
import Verif.Poly.FindProof
import Mathlib.Analysis.Convex.Join

namespace Walnut.Poly
open Walnut.Geom Walnut.Props

variable {D : Type}

/-- The point at the fraction `t` of the way from `a` to `b`. -/
def lerp3 (t : ℚ) (a b : Q3) : Q3 := fun j => a j + t * (b j - a j)

theorem lerp3_zero (a b : Q3) : lerp3 0 a b = a := by funext j; simp [lerp3]
theorem lerp3_one (a b : Q3) : lerp3 1 a b = b := by funext j; simp [lerp3]

theorem pr_lerp3 (h : HS3) (i : Fin 3) (t : ℚ) (a b : Q3) :
    pr h i (lerp3 t a b) = lerp t (pr h i a) (pr h i b) := by
  unfold pr lerp lerp3 px py
  refine Prod.ext rfl ?_
  simp only; ring

theorem side_lerp3 (h : HS3) (t : ℚ) (a b : Q3) : h.side (lerp3 t a b) = (1 - t) * h.side a + t * h.side b := by
  simp only [HS3.side_eq, lerp3]; ring

/-- A part of an edge runs along the edge's line. -/
theorem EdgeLine.part {l : PL} {p q : Q3} (h : EdgeLine l p q) {x y : ℚ} (hxy : x < y) :
    EdgeLine l (lerp3 x p q) (lerp3 y p q) := by
  obtain ⟨h1, s, hs, h2⟩ := h
  refine ⟨?_, s / (y - x), div_pos hs (by linarith), fun i => ?_⟩
  · rw [← h1]
    apply q3_ext <;> simp only [crossQ_zero, crossQ_one, crossQ_two, lerp3, h2] <;> ring
  · have : y - x ≠ 0 := by linarith
    rw [h2]; unfold lerp3; field_simp; ring

theorem vec_ext (h : HS3) {i : Fin 3} (hi : h.n.comp i ≠ 0) {a b : Q3}
    (ha : dotQ h.n.q a = 0) (hb : dotQ h.n.q b = 0) (hx : px i a = px i b) (hy : py h i a = py h i b) : a = b := by
  refine plane_ext ⟨h.n, 0⟩ (i := i) hi ?_ ?_ hx hy
  · simp only [HS3.side, ha]; simp
  · simp only [HS3.side, hb]; simp

/-- The vertices with the dropped coordinate removed, with period `count`. -/
def ring2 (P : Polygon D) (k : Nat) : ℚ × ℚ := pr P.plane P.drop (P.pt (k % P.count))

theorem IsConvexPolygon.ring {P : Polygon D} (h : IsConvexPolygon P) : VRing P.count (ring2 P) := h.convex2.ring

theorem Convex2.congr {n : Nat} {X Y X' Y' : Nat → ℚ} (h : Convex2 n X Y) (hX : ∀ i, i < n → X' i = X i)
    (hY : ∀ i, i < n → Y' i = Y i) : Convex2 n X' Y' := by
  refine ⟨fun i j k h1 h2 h3 => ?_, fun i j h1 h2 => ?_, ?_⟩
  · have := h.ccw i j k h1 h2 h3
    unfold area2 at *
    rwa [hX i (by omega), hX j (by omega), hX k h3, hY i (by omega), hY j (by omega), hY k h3]
  · rw [hX i (by omega), hX j h2, hY i (by omega), hY j h2]; exact h.ne i j h1 h2
  · obtain ⟨i, j, k, h1, h2, h3, h4⟩ := h.ex
    refine ⟨i, j, k, h1, h2, h3, ?_⟩
    unfold area2 at *
    rwa [hX i (by omega), hX j (by omega), hX k h3, hY i (by omega), hY j (by omega), hY k h3]

theorem isConvex_of_convex2 {P : Polygon D} (drop : P.plane.n.comp P.drop ≠ 0)
    (finite : ∀ i, i < P.count → (P.vertexD i).w ≠ 0)
    (onPlane : ∀ i, i < P.count → P.plane.side (P.pt i) = 0)
    (line : ∀ i, i < P.count → EdgeLine (P.lineD i) (P.pt i) (P.pt ((i + 1) % P.count)))
    (h : Convex2 P.count (fun i => px P.drop (P.pt i)) (fun i => py P.plane P.drop (P.pt i))) :
    IsConvexPolygon P := by
  refine ⟨drop, finite, onPlane, line, fun i j k h1 h2 h3 => ?_, fun i j h1 h2 he => ?_, ?_⟩
  · rw [turn_nonneg_iff P.plane drop (onPlane i (by omega)) (onPlane j (by omega)) (onPlane k h3)]
    exact h.ccw i j k h1 h2 h3
  · have := h.ne i j h1 h2
    simp only [he] at this
    simp at this
  · obtain ⟨i, j, k, h1, h2, h3, h4⟩ := h.ex
    refine ⟨i, j, k, h1, h2, h3, ?_⟩
    rw [turn_pos_iff P.plane drop (onPlane i (by omega)) (onPlane j (by omega)) (onPlane k h3)]
    exact h4

/-- The crossing point on edge `k` at fraction `t`. -/
def cross3 (P : Polygon D) (k : Nat) (t : ℚ) : Q3 := lerp3 t (P.pt (k % P.count)) (P.pt ((k + 1) % P.count))

theorem pr_cross3 (P : Polygon D) (k : Nat) (t : ℚ) : pr P.plane P.drop (cross3 P k t) = bd (ring2 P) k t := by
  unfold cross3; rw [pr_lerp3]; rfl

/-- `N` and `Q` are put together from the vertices and lines of `P` and the two points
where the plane `g` crosses the boundary of `P`. -/
structure SplitShape (P N Q : Polygon D) (g : HS3) (a m b k : Nat) (t u : ℚ) : Prop where
  cut : Cut P.count (ring2 P) (ca P.plane g P.drop) (cb P.plane g P.drop) (cc P.plane g P.drop) a m b k t u
  cross : P.plane.n.cross g.n ≠ ⟨0, 0, 0⟩
  nplane : N.plane = P.plane
  ndrop : N.drop = P.drop
  qplane : Q.plane = P.plane
  qdrop : Q.drop = P.drop
  ncount : N.count = m + 2
  qcount : Q.count = k + 2
  nfin : ∀ i, i < m + 2 → (N.vertexD i).w ≠ 0
  qfin : ∀ i, i < k + 2 → (Q.vertexD i).w ≠ 0
  npt : ∀ i, i < m + 2 → N.pt i = if i < m then P.pt ((a + i) % P.count)
    else if i = m then cross3 P (a + m - 1) t else cross3 P (a + P.count - 1) u
  qpt : ∀ i, i < k + 2 → Q.pt i = if i = 0 then cross3 P (a + m - 1) t
    else if i ≤ k then P.pt ((b + i - 1) % P.count) else cross3 P (a + P.count - 1) u
  nline : ∀ i, i < m + 2 → N.lineD i = if i < m then P.lineD ((a + i) % P.count)
    else if i = m then PL.ofPlanes P.plane g else P.lineD ((a + P.count - 1) % P.count)
  qline : ∀ i, i < k + 2 → Q.lineD i = if i ≤ k then P.lineD ((b + i - 1) % P.count)
    else (PL.ofPlanes P.plane g).neg
  nedge : ∀ i, i < m → N.edges[i]? = P.edges[(a + i) % P.count]?
  qedge : ∀ i, 1 ≤ i → i ≤ k → Q.edges[i]? = P.edges[(b + i - 1) % P.count]?

namespace SplitShape
variable {P N Q : Polygon D} {g : HS3} {a m b k : Nat} {t u : ℚ}
variable (h : IsConvexPolygon P) (s : SplitShape P N Q g a m b k t u)
include h

omit s in
theorem pt_side (i : Nat) : P.plane.side (P.pt (i % P.count)) = 0 := h.onPlane _ (Nat.mod_lt _ h.count_pos)

omit s in
theorem cross_side (i : Nat) (x : ℚ) : P.plane.side (cross3 P i x) = 0 := by
  unfold cross3; rw [side_lerp3, pt_side h, pt_side h]; ring

omit s in
theorem aff_pt {q : Q3} (hq : P.plane.side q = 0) :
    aff (ca P.plane g P.drop) (cb P.plane g P.drop) (cc P.plane g P.drop) (pr P.plane P.drop q) = g.side q :=
  (side_affine P.plane g h.drop hq).symm

omit s in
theorem edge (i : Nat) : EdgeLine (P.lineD (i % P.count)) (P.pt (i % P.count)) (P.pt ((i + 1) % P.count)) := by
  have := h.line (i % P.count) (Nat.mod_lt _ h.count_pos)
  rwa [Nat.mod_add_mod] at this

include s

theorem s2_side : g.side (cross3 P (a + m - 1) t) = 0 := by
  rw [← aff_pt h (cross_side h _ _), pr_cross3]; exact s.cut.s2

theorem s1_side : g.side (cross3 P (a + P.count - 1) u) = 0 := by
  rw [← aff_pt h (cross_side h _ _), pr_cross3]; exact s.cut.s1

/-- The new edge. -/
theorem new_edge : EdgeLine (PL.ofPlanes P.plane g) (cross3 P (a + m - 1) t) (cross3 P (a + P.count - 1) u) := by
  refine ⟨((C26_of_planes P.plane g s.cross _).mp ⟨cross_side h _ _, s2_side h s⟩).2, ?_⟩
  obtain ⟨ν, ν0, d1, d2⟩ := s.cut.dir
  rw [← pr_cross3, ← pr_cross3] at d1 d2
  have hp := sg_mul_pos P.plane h.drop
  have hs := sg_sq P.plane h.drop
  have hi : (P.plane.n.comp P.drop : ℚ) ≠ 0 := by exact_mod_cast h.drop
  have c1 := cross_side h (a + m - 1) t
  have c2 := cross_side h (a + P.count - 1) u
  refine ⟨sg P.plane P.drop * P.plane.n.comp P.drop / ν, div_pos hp ν0, fun j => ?_⟩
  generalize cross3 P (a + m - 1) t = p at *
  generalize cross3 P (a + P.count - 1) u = q at *
  refine congrFun (?_ : (PL.ofPlanes P.plane g).d.q = fun j =>
    sg P.plane P.drop * P.plane.n.comp P.drop / ν * (q j - p j)) j
  simp only [pr] at d1 d2
  refine vec_ext P.plane h.drop ?_ ?_ ?_ ?_
  · simp [dotQ, PL.ofPlanes, V3.cross]; ring
  · rw [HS3.side_eq] at c1 c2
    simp only [dotQ, V3.q_zero, V3.q_one, V3.q_two]
    linear_combination sg P.plane P.drop * P.plane.n.comp P.drop / ν * (c2 - c1)
  · have : px P.drop (fun j => sg P.plane P.drop * P.plane.n.comp P.drop / ν * (q j - p j)) =
        sg P.plane P.drop * P.plane.n.comp P.drop / ν * (px P.drop q - px P.drop p) := by unfold px; ring
    rw [this, d1]
    unfold cb
    generalize sg P.plane P.drop = σ at hs
    have e : σ * (P.plane.n.comp P.drop : ℚ) / ν * (ν * -(σ * ((g.n.comp (P.drop + 2) * P.plane.n.comp P.drop - g.n.comp P.drop * P.plane.n.comp (P.drop + 2)) / P.plane.n.comp P.drop))) =
      -(g.n.comp (P.drop + 2) * P.plane.n.comp P.drop - g.n.comp P.drop * P.plane.n.comp (P.drop + 2)) := by
      field_simp
      linear_combination (-(g.n.comp (P.drop + 2) * P.plane.n.comp P.drop - g.n.comp P.drop * P.plane.n.comp (P.drop + 2)) : ℚ) * hs
    rw [e]
    obtain e | e | e := fin3 P.drop <;> rw [e] <;> simp [px, PL.ofPlanes, V3.cross, V3.q, V3.comp, fin3_eqs] <;> ring
  · have : py P.plane P.drop (fun j => sg P.plane P.drop * P.plane.n.comp P.drop / ν * (q j - p j)) =
        sg P.plane P.drop * P.plane.n.comp P.drop / ν * (py P.plane P.drop q - py P.plane P.drop p) := by unfold py; ring
    rw [this, d2]
    unfold ca py
    generalize sg P.plane P.drop = σ at hs
    have e : σ * (P.plane.n.comp P.drop : ℚ) / ν * (ν * ((g.n.comp (P.drop + 1) * P.plane.n.comp P.drop - g.n.comp P.drop * P.plane.n.comp (P.drop + 1)) / P.plane.n.comp P.drop)) =
      σ * (g.n.comp (P.drop + 1) * P.plane.n.comp P.drop - g.n.comp P.drop * P.plane.n.comp (P.drop + 1)) := by
      field_simp
    rw [e]
    obtain e | e | e := fin3 P.drop <;> rw [e] <;> simp [PL.ofPlanes, V3.cross, V3.q, V3.comp, fin3_eqs] <;> ring_nf <;> simp

theorem neg_pr (i : Nat) (hi : i < m + 2) :
    pr P.plane P.drop (N.pt i) = negW (ring2 P) P.count a m t u i := by
  rw [s.npt i hi]
  unfold negW
  split
  · rfl
  · split <;> rw [pr_cross3]

theorem pos_pr (i : Nat) (hi : i < k + 2) :
    pr P.plane P.drop (Q.pt i) = posW (ring2 P) P.count a m b k t u i := by
  rw [s.qpt i hi]
  unfold posW
  split
  · rw [pr_cross3]
  · split
    · rfl
    · rw [pr_cross3]

omit h in
theorem t_lt (hb : b = a + m) : t < 1 := by
  refine lt_of_le_of_ne s.cut.t1 ?_
  rintro rfl
  have h1 := s.cut.s2
  have hm := s.cut.m1
  have hk := s.cut.k1
  have h2 := s.cut.pos b le_rfl (by omega)
  unfold bd at h1
  rw [lerp_one, show a + m - 1 + 1 = b by omega] at h1
  linarith

omit h in
theorem u_pos (hb : a + P.count = b + k) : 0 < u := by
  refine lt_of_le_of_ne s.cut.u0 ?_
  rintro rfl
  have h1 := s.cut.s1
  have hm := s.cut.m1
  have hk := s.cut.k1
  have h2 := s.cut.pos (a + P.count - 1) (by omega) (by omega)
  rw [bd_zero] at h1
  linarith

/-- The part on the negative side is a convex polygon. -/
theorem neg_isConvex : IsConvexPolygon N := by
  have hm := s.cut.m1
  obtain ⟨l1, l2, l3⟩ := s.cut.lens
  have hn := h.count_pos
  refine isConvex_of_convex2 ?_ ?_ ?_ ?_ ?_
  · rw [s.nplane, s.ndrop]; exact h.drop
  · rw [s.ncount]; exact s.nfin
  · rw [s.ncount, s.nplane]
    intro i hi
    rw [s.npt i hi]
    split
    · exact pt_side h _
    · split <;> exact cross_side h _ _
  · rw [s.ncount]
    intro i hi
    rw [s.nline i hi, s.npt i hi, s.npt _ (Nat.mod_lt _ (by omega))]
    by_cases c1 : i < m
    · rw [if_pos c1, if_pos c1, Nat.mod_eq_of_lt (show i + 1 < m + 2 by omega)]
      have e := edge h (a + i)
      by_cases c2 : i + 1 < m
      · rw [if_pos c2]; exact e
      · obtain rfl : m = i + 1 := by omega
        rw [if_neg (by omega), if_pos rfl]
        have := e.part s.cut.t0
        rw [lerp3_zero] at this
        exact this
    · by_cases c2 : i = m
      · subst c2
        rw [if_neg c1, if_pos rfl, if_neg c1, if_pos rfl, Nat.mod_eq_of_lt (show i + 1 < i + 2 by omega),
          if_neg (by omega), if_neg (by omega)]
        exact new_edge h s
      · obtain rfl : i = m + 1 := by omega
        rw [if_neg c1, if_neg c2, if_neg c1, if_neg c2, show m + 1 + 1 = m + 2 by omega, Nat.mod_self, if_pos (by omega)]
        have := (edge h (a + P.count - 1)).part s.cut.u1
        rw [lerp3_one, show a + P.count - 1 + 1 = a + P.count by omega, Nat.add_mod_right] at this
        rw [Nat.add_zero]
        have e : cross3 P (a + P.count - 1) u = lerp3 u (P.pt ((a + P.count - 1) % P.count)) (P.pt (a % P.count)) := by
          unfold cross3; rw [show a + P.count - 1 + 1 = a + P.count by omega, Nat.add_mod_right]
        rw [e]; exact this
  · rw [s.ncount, s.nplane, s.ndrop]
    refine s.cut.neg_convex.congr (fun i hi => ?_) (fun i hi => ?_)
    · exact congrArg Prod.fst (neg_pr h s i hi)
    · exact congrArg Prod.snd (neg_pr h s i hi)

/-- The part on the positive side is a convex polygon. -/
theorem pos_isConvex : IsConvexPolygon Q := by
  have hm := s.cut.m1
  have hk := s.cut.k1
  obtain ⟨l1, l2, l3⟩ := s.cut.lens
  have hn := h.count_pos
  refine isConvex_of_convex2 ?_ ?_ ?_ ?_ ?_
  · rw [s.qplane, s.qdrop]; exact h.drop
  · rw [s.qcount]; exact s.qfin
  · rw [s.qcount, s.qplane]
    intro i hi
    rw [s.qpt i hi]
    split
    · exact cross_side h _ _
    · split
      · exact pt_side h _
      · exact cross_side h _ _
  · rw [s.qcount]
    intro i hi
    rw [s.qline i hi, s.qpt i hi, s.qpt _ (Nat.mod_lt _ (by omega))]
    by_cases c0 : i = 0
    · subst c0
      rw [if_pos (by omega), if_pos rfl, Nat.mod_eq_of_lt (show 0 + 1 < k + 2 by omega), if_neg (by omega), if_pos (by omega),
        show b + (0 + 1) - 1 = b by omega, Nat.add_zero]
      rcases s.cut.gap2 with e | ⟨e, ht⟩
      · have := (edge h (a + m - 1)).part (s.t_lt e)
        rw [lerp3_one, show a + m - 1 + 1 = b by omega] at this
        rw [show b - 1 = a + m - 1 by omega]
        have e2 : cross3 P (a + m - 1) t = lerp3 t (P.pt ((a + m - 1) % P.count)) (P.pt (b % P.count)) := by
          unfold cross3; rw [show a + m - 1 + 1 = b by omega]
        rw [e2]; exact this
      · have := edge h (b - 1)
        rw [show b - 1 + 1 = b by omega] at this
        have e2 : cross3 P (a + m - 1) t = P.pt ((b - 1) % P.count) := by
          unfold cross3; rw [ht, lerp3_one, show a + m - 1 + 1 = b - 1 by omega]
        rw [e2]; exact this
    by_cases c1 : i ≤ k
    · rw [if_pos c1, if_neg c0, if_pos c1, Nat.mod_eq_of_lt (show i + 1 < k + 2 by omega), if_neg (by omega)]
      have e := edge h (b + i - 1)
      by_cases c2 : i + 1 ≤ k
      · rw [if_pos c2]
        rw [show b + i - 1 + 1 = b + (i + 1) - 1 by omega] at e
        exact e
      · obtain rfl : i = k := by omega
        rw [if_neg c2]
        rcases s.cut.gap1 with e1 | ⟨e1, hu⟩
        · have := e.part (s.u_pos e1)
          rw [lerp3_zero] at this
          rw [show b + i - 1 = a + P.count - 1 by omega] at this ⊢
          exact this
        · rw [hu]
          unfold cross3
          rw [lerp3_zero]
          rw [show b + i - 1 + 1 = a + P.count - 1 by omega] at e
          exact e
    · obtain rfl : i = k + 1 := by omega
      rw [if_neg c1, if_neg c0, if_neg c1, show k + 1 + 1 = k + 2 by omega, Nat.mod_self, if_pos rfl]
      obtain ⟨h1, x, hx, h2⟩ := new_edge h s
      refine ⟨?_, x, hx, fun i => ?_⟩
      · have := ((C26_of_planes P.plane g s.cross _).mp ⟨cross_side h (a + P.count - 1) u, s1_side h s⟩).2
        have e0 := congrFun this 0; have e1 := congrFun this 1; have e2 := congrFun this 2
        simp at e0 e1 e2
        apply q3_ext <;> simp [PL.neg, V3.neg]
        · linear_combination -e0
        · linear_combination -e1
        · linear_combination -e2
      · have := h2 i
        have e : (PL.ofPlanes P.plane g).neg.d.q i = - (PL.ofPlanes P.plane g).d.q i := by
          obtain rfl | rfl | rfl := fin3 i <;> simp [PL.neg, V3.neg]
        rw [e, this]; ring
  · rw [s.qcount, s.qplane, s.qdrop]
    refine s.cut.pos_convex.congr (fun i hi => ?_) (fun i hi => ?_)
    · exact congrArg Prod.fst (pos_pr h s i hi)
    · exact congrArg Prod.snd (pos_pr h s i hi)

end SplitShape

end Walnut.Poly
