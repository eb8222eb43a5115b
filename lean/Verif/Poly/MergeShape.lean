/-
The union of two convex polygons with a common edge, and leaving out a vertex inside of
a side.
-/
import Verif.Poly.MergeRing
import Verif.Poly.EqualProof

namespace Walnut.Poly
open Walnut.Geom Walnut.Props

variable {D : Type}

/-! ### Another plane with the same points -/

theorem side_scale {g h : HS3} {s t : ℚ} (hn : ∀ j, s * g.n.q j = t * h.n.q j) {p : Q3} (hp : h.side p = 0)
    (hg : g.side p = 0) (q : Q3) : s * g.side q = t * h.side q := by
  rw [HS3.side_eq] at *
  rw [HS3.side_eq]
  have n0 := hn 0; have n1 := hn 1; have n2 := hn 2
  simp only [V3.q_zero, V3.q_one, V3.q_two] at n0 n1 n2
  linear_combination n0 * (q 0 - p 0) + n1 * (q 1 - p 1) + n2 * (q 2 - p 2) + s * hg - t * hp

theorem turn_scale {n n' : Q3} {s t : ℚ} (hn : ∀ j, s * n j = t * n' j) (a b c : Q3) :
    s * turn n a b c = t * turn n' a b c := by
  unfold turn dotQ
  linear_combination crossQ (fun i => b i - a i) (fun i => c i - a i) 0 * hn 0 +
    crossQ (fun i => b i - a i) (fun i => c i - a i) 1 * hn 1 + crossQ (fun i => b i - a i) (fun i => c i - a i) 2 * hn 2

/-- A convex polygon with another description of its plane. -/
theorem IsConvexPolygon.replane {Q : Polygon D} (h : IsConvexPolygon Q) {g : HS3} {i : Fin 3} (hi : g.n.comp i ≠ 0)
    {s t : ℚ} (hs : 0 < s) (ht : 0 < t) (hn : ∀ j, s * g.n.q j = t * Q.plane.n.q j) {p : Q3} (hp : Q.plane.side p = 0)
    (hg : g.side p = 0) : IsConvexPolygon { Q with plane := g, drop := i } := by
  refine ⟨hi, h.finite, fun k hk => ?_, h.line, fun a b c h1 h2 h3 => ?_, h.distinct, ?_⟩
  · have := side_scale hn hp hg (Q.pt k)
    rw [h.onPlane k hk, mul_zero] at this
    exact (mul_eq_zero.1 this).resolve_left hs.ne'
  · have := turn_scale hn (Q.pt a) (Q.pt b) (Q.pt c)
    have := mul_nonneg ht.le (h.ccw a b c h1 h2 h3)
    exact nonneg_of_mul_nonneg_right (a := s) (by rw [turn_scale hn]; exact this) hs
  · obtain ⟨a, b, c, h1, h2, h3, h4⟩ := h.proper
    refine ⟨a, b, c, h1, h2, h3, ?_⟩
    have := mul_pos ht h4
    exact (mul_pos_iff_of_pos_left hs).mp (by rw [turn_scale hn]; exact this)

/-! ### Only vertices and lines matter -/

/-- Vertex and line of an edge. -/
def Edge.geo (e : Edge D) : HP3 × PL := (e.vertex, e.line)

theorem vertexD_geo {P Q : Polygon D} (h : P.edges.map Edge.geo = Q.edges.map Edge.geo) (i : Nat) :
    P.vertexD i = Q.vertexD i ∧ P.lineD i = Q.lineD i := by
  have := congrArg (·[i]?) h
  simp only [List.getElem?_map] at this
  unfold Polygon.vertexD Polygon.lineD
  cases h1 : P.edges[i]? <;> cases h2 : Q.edges[i]? <;> simp [h1, h2, Edge.geo] at this ⊢
  exact this

theorem count_geo {P Q : Polygon D} (h : P.edges.map Edge.geo = Q.edges.map Edge.geo) : P.count = Q.count := by
  have := congrArg List.length h
  simpa [Polygon.count] using this

theorem IsConvexPolygon.congr_geo {P Q : Polygon D} (hP : IsConvexPolygon P) (hp : Q.plane = P.plane) (hd : Q.drop = P.drop)
    (h : Q.edges.map Edge.geo = P.edges.map Edge.geo) : IsConvexPolygon Q := by
  have hc := count_geo h
  have hv : Q.vertexD = P.vertexD := funext fun i => (vertexD_geo h i).1
  have hl : Q.lineD = P.lineD := funext fun i => (vertexD_geo h i).2
  have hpt : Q.pt = P.pt := by funext i; unfold Polygon.pt; rw [hv]
  obtain ⟨a, b, c, d, e, f, g⟩ := hP
  exact ⟨by rw [hp, hd]; exact a, by rw [hc, hv]; exact b, by rw [hc, hp, hpt]; exact c, by rw [hc, hl, hpt]; exact d,
    by rw [hc, hp, hpt]; exact e, by rw [hc, hpt]; exact f, by rw [hc, hp, hpt]; exact g⟩

theorem region_geo {P Q : Polygon D} (h : Q.edges.map Edge.geo = P.edges.map Edge.geo) : Q.region = P.region := by
  have hc := count_geo h
  have hv : Q.vertexD = P.vertexD := funext fun i => (vertexD_geo h i).1
  have hpt : Q.pt = P.pt := by funext i; unfold Polygon.pt; rw [hv]
  unfold Polygon.region
  rw [hc, hpt]

/-! ### The union -/

/-- The edges of `Q` after its first edge, then those of `P` after its first edge. -/
def unite (P Q : Polygon D) : Polygon D := { P with edges := Q.edges.tail ++ P.edges.tail }

/-- The first edges of the two polygons are the same segment, in opposite directions,
and the polygons are described by the same plane. -/
structure Facing (P Q : Polygon D) : Prop where
  p : IsConvexPolygon P
  q : IsConvexPolygon Q
  plane : Q.plane = P.plane
  drop : Q.drop = P.drop
  a : P.pt 0 = Q.pt 1
  b : Q.pt 0 = P.pt 1

namespace Facing
variable {P Q : Polygon D}

theorem symm (h : Facing P Q) : Facing Q P := ⟨h.q, h.p, h.plane.symm, h.drop.symm, h.b, h.a⟩

theorem count (h : Facing P Q) : (unite P Q).count = P.count + Q.count - 2 := by
  have h1 := h.p.three
  have h2 := h.q.three
  unfold Polygon.count at *
  unfold unite
  simp only [List.length_append, List.length_tail]
  omega

theorem get_q (h : Facing P Q) {r : Nat} (h1 : 1 ≤ r) (h2 : r < Q.count) : (unite P Q).edges[r - 1]? = Q.edges[r]? := by
  unfold unite Polygon.count at *
  dsimp only
  rw [List.getElem?_append_left (by simp; omega), List.getElem?_tail, show r - 1 + 1 = r by omega]

theorem get_p (h : Facing P Q) {r : Nat} (h1 : 1 ≤ r) (h2 : r < P.count) :
    (unite P Q).edges[Q.count - 2 + r]? = P.edges[r]? := by
  have := h.q.three
  unfold unite Polygon.count at *
  dsimp only
  rw [List.getElem?_append_right (by simp; omega), List.getElem?_tail]
  congr 1
  simp; omega

theorem pt_q (h : Facing P Q) {r : Nat} (h1 : 1 ≤ r) (h2 : r ≤ Q.count) :
    (unite P Q).pt ((r - 1) % (unite P Q).count) = Q.pt (r % Q.count) := by
  have n3 := h.p.three
  have m3 := h.q.three
  rw [h.count, Nat.mod_eq_of_lt (by omega)]
  by_cases hr : r < Q.count
  · rw [Nat.mod_eq_of_lt hr]
    unfold Polygon.pt Polygon.vertexD
    rw [h.get_q h1 hr]
  · obtain rfl : r = Q.count := by omega
    rw [Nat.mod_self, h.b]
    unfold Polygon.pt Polygon.vertexD
    rw [show Q.count - 1 = Q.count - 2 + 1 by omega, h.get_p (by omega) (by omega)]

theorem pt_p (h : Facing P Q) {r : Nat} (h1 : 1 ≤ r) (h2 : r ≤ P.count) :
    (unite P Q).pt ((Q.count - 2 + r) % (unite P Q).count) = P.pt (r % P.count) := by
  have n3 := h.p.three
  have m3 := h.q.three
  rw [h.count]
  by_cases hr : r < P.count
  · rw [Nat.mod_eq_of_lt hr, Nat.mod_eq_of_lt (by omega)]
    unfold Polygon.pt Polygon.vertexD
    rw [h.get_p h1 hr]
  · obtain rfl : r = P.count := by omega
    rw [Nat.mod_self, h.a, show Q.count - 2 + P.count = P.count + Q.count - 2 by omega, Nat.mod_self]
    unfold Polygon.pt Polygon.vertexD
    rw [h.get_q (r := 1) (by omega) (by omega)]

theorem ring_q (h : Facing P Q) {r : Nat} (h1 : 1 ≤ r) (h2 : r ≤ Q.count) : ring2 (unite P Q) (r - 1) = ring2 Q r := by
  unfold ring2
  rw [h.pt_q h1 h2, h.plane, h.drop]; rfl

theorem ring_p (h : Facing P Q) {r : Nat} (h1 : 1 ≤ r) (h2 : r ≤ P.count) :
    ring2 (unite P Q) (Q.count - 2 + r) = ring2 P r := by
  unfold ring2
  rw [h.pt_p h1 h2]; rfl

/-- The ends of the common edge. -/
theorem ends (h : Facing P Q) : ring2 P 0 = ring2 Q 1 ∧ ring2 Q 0 = ring2 P 1 := by
  have n3 := h.p.three
  have m3 := h.q.three
  unfold ring2
  rw [Nat.zero_mod, Nat.zero_mod, Nat.mod_eq_of_lt (by omega : 1 < Q.count), Nat.mod_eq_of_lt (by omega : 1 < P.count), h.a, h.b,
    h.plane, h.drop]
  exact ⟨rfl, rfl⟩

/-- What the code tests at the ends of the common edge. -/
def Bends (P Q : Polygon D) : Prop :=
  Turns (ring2 P (P.count - 1)) (ring2 Q 1) (ring2 Q 2) ∧ Turns (ring2 Q (Q.count - 1)) (ring2 P 1) (ring2 P 2)

theorem joint (h : Facing P Q) (hb : Bends P Q) :
    Joint P.count Q.count (fun k => ring2 P (k + 1)) (fun k => ring2 Q (k + 1)) := by
  have n3 := h.p.three
  have m3 := h.q.three
  obtain ⟨e1, e2⟩ := h.ends
  refine Joint.of_turns (h.p.ring.shift 1) (h.q.ring.shift 1) n3 m3 ?_ ?_ ?_ ?_
  · rw [show P.count - 1 + 1 = 0 + P.count by omega, h.p.ring.per, e1]
  · rw [show Q.count - 1 + 1 = 0 + Q.count by omega, h.q.ring.per, e2]
  · rw [show P.count - 2 + 1 = P.count - 1 by omega]
    exact hb.1
  · rw [show Q.count - 2 + 1 = Q.count - 1 by omega]
    exact hb.2

theorem pt_joined (h : Facing P Q) {k : Nat} (hk : k < (unite P Q).count) :
    pr P.plane P.drop ((unite P Q).pt k) = Joint.joined Q.count (fun k => ring2 P (k + 1)) (fun k => ring2 Q (k + 1)) k := by
  have n3 := h.p.three
  have m3 := h.q.three
  have hc := h.count
  unfold Joint.joined
  have e0 : pr P.plane P.drop ((unite P Q).pt k) = ring2 (unite P Q) k := by
    unfold ring2; rw [Nat.mod_eq_of_lt hk]; rfl
  rw [e0]
  split
  · have := h.ring_q (r := k + 1) (by omega) (by omega)
    rwa [Nat.add_sub_cancel] at this
  · have := h.ring_p (r := k - (Q.count - 1) + 1) (by omega) (by omega)
    rwa [show Q.count - 2 + (k - (Q.count - 1) + 1) = k by omega] at this

theorem edge_q (h : Facing P Q) {r : Nat} (h1 : 1 ≤ r) (h2 : r < Q.count) :
    EdgeLine ((unite P Q).lineD (r - 1)) ((unite P Q).pt (r - 1)) ((unite P Q).pt (r % (unite P Q).count)) := by
  have n3 := h.p.three
  have hc := h.count
  have a1 := h.pt_q h1 h2.le
  have a2 := h.pt_q (r := r + 1) (by omega) (by omega)
  rw [Nat.mod_eq_of_lt (by omega), Nat.mod_eq_of_lt h2] at a1
  rw [Nat.add_sub_cancel] at a2
  have a3 : (unite P Q).lineD (r - 1) = Q.lineD r := by unfold Polygon.lineD; rw [h.get_q h1 h2]
  rw [a1, a2, a3]
  exact h.q.line r h2

theorem edge_p (h : Facing P Q) {r : Nat} (h1 : 1 ≤ r) (h2 : r < P.count) :
    EdgeLine ((unite P Q).lineD (Q.count - 2 + r)) ((unite P Q).pt (Q.count - 2 + r))
      ((unite P Q).pt ((Q.count - 2 + r + 1) % (unite P Q).count)) := by
  have n3 := h.q.three
  have hc := h.count
  have a1 := h.pt_p h1 h2.le
  have a2 := h.pt_p (r := r + 1) (by omega) (by omega)
  rw [Nat.mod_eq_of_lt (by omega), Nat.mod_eq_of_lt h2] at a1
  rw [← Nat.add_assoc] at a2
  have a3 : (unite P Q).lineD (Q.count - 2 + r) = P.lineD r := by unfold Polygon.lineD; rw [h.get_p h1 h2]
  rw [a1, a2, a3]
  exact h.p.line r h2

/-- The union of the polygons is a convex polygon when it does not turn right at the
ends of the common edge. -/
theorem isConvex (h : Facing P Q) (hb : Bends P Q) : IsConvexPolygon (unite P Q) := by
  have n3 := h.p.three
  have m3 := h.q.three
  have hc := h.count
  have each : ∀ (K : Nat → Prop), (∀ r, 1 ≤ r → r < Q.count → K (r - 1)) → (∀ r, 1 ≤ r → r < P.count → K (Q.count - 2 + r)) →
      ∀ i, i < (unite P Q).count → K i := by
    intro K k1 k2 i hi
    by_cases hi' : i < Q.count - 1
    · have := k1 (i + 1) (by omega) (by omega)
      rwa [Nat.add_sub_cancel] at this
    · have := k2 (i - (Q.count - 1) + 1) (by omega) (by omega)
      rwa [show Q.count - 2 + (i - (Q.count - 1) + 1) = i by omega] at this
  refine isConvex_of_convex2 h.p.drop ?_ ?_ ?_ ?_
  · refine each _ (fun r h1 h2 => ?_) fun r h1 h2 => ?_
    · unfold Polygon.vertexD; rw [h.get_q h1 h2]; exact h.q.finite r h2
    · unfold Polygon.vertexD; rw [h.get_p h1 h2]; exact h.p.finite r h2
  · refine each _ (fun r h1 h2 => ?_) fun r h1 h2 => ?_
    · have := h.q.onPlane r h2
      unfold Polygon.pt Polygon.vertexD at *
      rw [h.get_q h1 h2]
      rw [h.plane] at this
      exact this
    · have := h.p.onPlane r h2
      unfold Polygon.pt Polygon.vertexD at *
      rw [h.get_p h1 h2]
      exact this
  · refine each _ (fun r h1 h2 => ?_) fun r h1 h2 => ?_
    · have := h.edge_q h1 h2
      rwa [show r - 1 + 1 = r by omega]
    · exact h.edge_p h1 h2
  · have := (h.joint hb).convex
    rw [← hc] at this
    refine this.congr (fun i hi => ?_) fun i hi => ?_
    · exact congrArg Prod.fst (h.pt_joined hi)
    · exact congrArg Prod.snd (h.pt_joined hi)

/-- In a convex union the boundary turns left or goes straight on at the ends. -/
theorem bends (h : Facing P Q) (hu : IsConvexPolygon (unite P Q)) : Bends P Q := by
  have n3 := h.p.three
  have m3 := h.q.three
  have hc := h.count
  have ring := hu.ring
  constructor
  · have t := ring.turns hu.three ((unite P Q).count - 1)
    have e1 := h.ring_p (r := P.count - 1) (by omega) (by omega)
    have e2 := h.ring_q (r := 1) (by omega) (by omega)
    have e3 := h.ring_q (r := 2) (by omega) (by omega)
    rw [show (unite P Q).count - 1 + 1 = 0 + (unite P Q).count by omega,
      show (unite P Q).count - 1 + 2 = 1 + (unite P Q).count by omega, ring.per, ring.per] at t
    rw [show Q.count - 2 + (P.count - 1) = (unite P Q).count - 1 by omega] at e1
    rw [← e1, ← e2, ← e3]
    exact t
  · have t := ring.turns hu.three (Q.count - 2)
    have e1 := h.ring_q (r := Q.count - 1) (by omega) (by omega)
    have e2 := h.ring_p (r := 1) (by omega) (by omega)
    have e3 := h.ring_p (r := 2) (by omega) (by omega)
    rw [show Q.count - 1 - 1 = Q.count - 2 by omega] at e1
    rw [← e1, ← e2, ← e3]
    exact t

theorem mem_vertex {P : Polygon D} {i : Nat} (hi : i < P.count) : P.pt i ∈ P.region :=
  subset_convexHull ℚ _ ⟨i, hi, rfl⟩

/-- The points of the union. -/
theorem region (h : Facing P Q) (hb : Bends P Q) : (unite P Q).region = P.region ∪ Q.region := by
  have n3 := h.p.three
  have m3 := h.q.three
  have hc := h.count
  have hu := h.isConvex hb
  have hJ : (unite P Q).plane = P.plane := rfl
  have hD : (unite P Q).drop = P.drop := rfl
  apply Set.Subset.antisymm
  · intro z hz
    have hs := SplitShape.region_plane hu hz
    have he := fun e => SplitShape.region_edge hu hz e
    rw [hJ] at hs
    rw [hJ, hD] at he
    rcases le_total 0 (ar (ring2 P 0) (ring2 P 1) (pr P.plane P.drop z)) with hg | hg
    · left
      refine h.p.mem_of_edges hs fun i => ?_
      have red : ∀ r, r < P.count → 0 ≤ ar (ring2 P r) (ring2 P (r + 1)) (pr P.plane P.drop z) := by
        intro r hr
        by_cases h0 : r = 0
        · subst h0; exact hg
        · have := he (Q.count - 2 + r)
          rwa [h.ring_p (by omega) (by omega), Nat.add_assoc, h.ring_p (by omega) (by omega)] at this
      have := red (i % P.count) (Nat.mod_lt _ (by omega))
      have e1 : ring2 P (i % P.count) = ring2 P i := by unfold ring2; rw [Nat.mod_mod]
      have e2 : ring2 P (i % P.count + 1) = ring2 P (i + 1) := by unfold ring2; rw [Nat.mod_add_mod]
      rwa [e1, e2] at this
    · right
      have hs' : Q.plane.side z = 0 := by rw [h.plane]; exact hs
      refine h.q.mem_of_edges hs' fun i => ?_
      rw [h.plane, h.drop]
      have red : ∀ r, r < Q.count → 0 ≤ ar (ring2 Q r) (ring2 Q (r + 1)) (pr P.plane P.drop z) := by
        intro r hr
        by_cases h0 : r = 0
        · subst h0
          obtain ⟨e1, e2⟩ := h.ends
          rw [e2, ← e1, Joint.ar_swap]; linarith
        · have := he (r - 1)
          rwa [h.ring_q (by omega) (by omega), show r - 1 + 1 = (r + 1) - 1 by omega, h.ring_q (by omega) (by omega)] at this
      have := red (i % Q.count) (Nat.mod_lt _ (by omega))
      have e1 : ring2 Q (i % Q.count) = ring2 Q i := by unfold ring2; rw [Nat.mod_mod]
      have e2 : ring2 Q (i % Q.count + 1) = ring2 Q (i + 1) := by unfold ring2; rw [Nat.mod_add_mod]
      rwa [e1, e2] at this
  · have hconv : Convex ℚ (unite P Q).region := convex_convexHull ℚ _
    refine Set.union_subset (convexHull_min ?_ hconv) (convexHull_min ?_ hconv)
    · rintro z ⟨i, hi, rfl⟩
      by_cases h0 : i = 0
      · have := h.pt_p (r := P.count) (by omega) le_rfl
        rw [Nat.mod_self] at this
        rw [h0, ← this]
        exact mem_vertex (Nat.mod_lt _ (by omega))
      · have := h.pt_p (r := i) (by omega) hi.le
        rw [Nat.mod_eq_of_lt hi] at this
        rw [← this]
        exact mem_vertex (Nat.mod_lt _ (by omega))
    · rintro z ⟨i, hi, rfl⟩
      by_cases h0 : i = 0
      · have := h.pt_q (r := Q.count) (by omega) le_rfl
        rw [Nat.mod_self] at this
        rw [h0, ← this]
        exact mem_vertex (Nat.mod_lt _ (by omega))
      · have := h.pt_q (r := i) (by omega) hi.le
        rw [Nat.mod_eq_of_lt hi] at this
        rw [← this]
        exact mem_vertex (Nat.mod_lt _ (by omega))

end Facing

/-! ### Leaving out a vertex inside of a side -/

/-- A convex polygon without a vertex (its second one) at which it goes straight on. -/
theorem IsConvexPolygon.straighten {P : Polygon D} (h : IsConvexPolygon P) {e f : Edge D} {t : List (Edge D)}
    (he : P.edges = e :: f :: t) (hz : ar (ring2 P 0) (ring2 P 1) (ring2 P 2) = 0) :
    IsConvexPolygon { P with edges := e :: t } ∧ Polygon.region { P with edges := e :: t } = P.region ∧
      ∃ s : ℚ, P.pt 1 = lerp3 s (P.pt 0) (P.pt 2) := by
  have n3 := h.three
  have n4 : 4 ≤ P.count := by
    by_contra hc
    obtain ⟨i, j, k, h1, h2, h3, h4⟩ := h.convex2.ex
    obtain ⟨rfl, rfl, rfl⟩ : i = 0 ∧ j = 1 ∧ k = 2 := by omega
    have e0 : ring2 P 0 = pr P.plane P.drop (P.pt 0) := by unfold ring2; rw [Nat.zero_mod]
    have e1 : ring2 P 1 = pr P.plane P.drop (P.pt 1) := by unfold ring2; rw [Nat.mod_eq_of_lt (by omega)]
    have e2 : ring2 P 2 = pr P.plane P.drop (P.pt 2) := by unfold ring2; rw [Nat.mod_eq_of_lt (by omega)]
    rw [e0, e1, e2] at hz
    have h4 : 0 < ar (pr P.plane P.drop (P.pt 0)) (pr P.plane P.drop (P.pt 1)) (pr P.plane P.drop (P.pt 2)) := h4
    linarith
  set R : Polygon D := { P with edges := e :: t } with hR
  have hc : R.count = P.count - 1 := by unfold Polygon.count; rw [hR, he]; simp
  have get : ∀ k, R.edges[k]? = P.edges[omit1 1 k]? := by
    intro k
    rw [hR, he]
    unfold omit1
    cases k with
    | zero => simp
    | succ k => simp
  have hpt : ∀ k, R.pt k = P.pt (omit1 1 k) := by intro k; unfold Polygon.pt Polygon.vertexD; rw [get]
  have hline : ∀ k, R.lineD k = P.lineD (omit1 1 k) := by intro k; unfold Polygon.lineD; rw [get]
  have ob : ∀ {k}, k < P.count - 1 → omit1 1 k < P.count := by intro k hk; unfold omit1; split <;> omega
  -- the left out vertex is between its neighbours
  obtain ⟨μ, μ0, hμ⟩ : ∃ μ : ℚ, 0 < μ ∧ P.pt 2 = lerp3 (1 + μ) (P.pt 0) (P.pt 1) := by
    rcases h.ring.turns n3 0 with ht | ⟨μ, μ0, e1, e2⟩
    · rw [Nat.zero_add, Nat.zero_add] at ht; linarith
    · refine ⟨μ, μ0, plane_ext P.plane h.drop (h.onPlane 2 (by omega)) ?_ ?_ ?_⟩
      · rw [side_lerp3, h.onPlane 0 (by omega), h.onPlane 1 (by omega)]; ring
      · unfold ring2 at e1
        rw [Nat.zero_add, Nat.zero_add, Nat.zero_mod, Nat.mod_eq_of_lt (by omega : 1 < P.count), Nat.mod_eq_of_lt (by omega : 2 < P.count)] at e1
        simp only [pr, px, lerp3] at *
        linear_combination e1
      · unfold ring2 at e2
        rw [Nat.zero_add, Nat.zero_add, Nat.zero_mod, Nat.mod_eq_of_lt (by omega : 1 < P.count), Nat.mod_eq_of_lt (by omega : 2 < P.count)] at e2
        simp only [pr, py, lerp3] at *
        linear_combination e2
  have h1μ : (1 + μ) ≠ 0 := by positivity
  have hmid : P.pt 1 = lerp3 (1 / (1 + μ)) (P.pt 0) (P.pt 2) := by
    rw [hμ]; funext j; unfold lerp3; field_simp; ring
  have t0 : 0 ≤ 1 / (1 + μ) := by positivity
  have t1 : 1 / (1 + μ) ≤ 1 := by rw [div_le_one (by positivity)]; linarith
  refine ⟨?_, ?_, _, hmid⟩
  · refine isConvex_of_convex2 h.drop ?_ ?_ ?_ ?_
    · intro i hi
      rw [hc] at hi
      unfold Polygon.vertexD; rw [get]; exact h.finite _ (ob hi)
    · intro i hi
      rw [hc] at hi
      rw [hpt]; exact h.onPlane _ (ob hi)
    · intro i hi
      rw [hc] at hi ⊢
      rw [hline, hpt, hpt]
      by_cases i0 : i = 0
      · subst i0
        rw [Nat.mod_eq_of_lt (by omega)]
        have e1 : omit1 1 0 = 0 := rfl
        have e2 : omit1 1 (0 + 1) = 2 := rfl
        rw [e1, e2, hμ]
        have := (h.line 0 (by omega)).part (x := 0) (y := 1 + μ) (by positivity)
        rw [lerp3_zero, Nat.mod_eq_of_lt (by omega)] at this
        exact this
      · have e1 : omit1 1 i = i + 1 := by unfold omit1; rw [if_neg (by omega)]
        rw [e1]
        have := h.line (i + 1) (by omega)
        by_cases i1 : i + 1 < P.count - 1
        · rw [Nat.mod_eq_of_lt i1]
          rw [Nat.mod_eq_of_lt (by omega)] at this
          have e2 : omit1 1 (i + 1) = i + 1 + 1 := by unfold omit1; rw [if_neg (by omega)]
          rw [e2]; exact this
        · rw [show i + 1 = P.count - 1 by omega, Nat.mod_self]
          rw [show i + 1 + 1 = P.count by omega, Nat.mod_self, show i + 1 = P.count - 1 by omega] at this
          exact this
    · have hP2 := h.convex2
      have := Convex2.leave_out (V := fun i => pr P.plane P.drop (P.pt i)) hP2 (c := 1) (p := 0) (s := 2) (by omega) (by omega)
        (by omega) (by omega) t0 t1 (by
          show pr P.plane P.drop (P.pt 1) = lerp _ (pr P.plane P.drop (P.pt 0)) (pr P.plane P.drop (P.pt 2))
          rw [← pr_lerp3, ← hmid]) (by omega)
      rw [hc]
      refine this.congr (fun i hi => ?_) fun i hi => ?_
      · rw [hpt]; rfl
      · rw [hpt]; rfl
  · have c1 : Convex ℚ R.region := convex_convexHull ℚ _
    apply Set.Subset.antisymm
    · refine convexHull_min ?_ (convex_convexHull ℚ _)
      rintro z ⟨i, hi, rfl⟩
      rw [hc] at hi
      rw [hpt]; exact Facing.mem_vertex (ob hi)
    · refine convexHull_min ?_ c1
      rintro z ⟨i, hi, rfl⟩
      have m0 : P.pt 0 ∈ R.region := by
        have := Facing.mem_vertex (P := R) (i := 0) (by omega)
        rwa [hpt] at this
      by_cases i1 : i = 1
      · have m2 : P.pt 2 ∈ R.region := by
          have := Facing.mem_vertex (P := R) (i := 1) (by omega)
          rwa [hpt] at this
        rw [i1, hmid]
        exact c1.segment_subset m0 m2 (SplitShape.lerp3_mem h t0 t1)
      · by_cases i0 : i = 0
        · rw [i0]; exact m0
        · have := Facing.mem_vertex (P := R) (i := i - 1) (by omega)
          rw [hpt] at this
          have e2 : omit1 1 (i - 1) = i := by unfold omit1; rw [if_neg (by omega)]; omega
          rwa [e2] at this

end Walnut.Poly
