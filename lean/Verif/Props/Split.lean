/-
Properties C29, C30 and C63: splitting a convex polygon by a plane, the range
searches, and the search for the farthest vertex.
-/
import Verif.Poly.SplitProof

namespace Walnut.Props
open Walnut.Geom Walnut.Poly

variable {D : Type}

/-! ### Example polygon -/

/-- The square with corners (0,0), (2,0), (2,2), (0,2) in the plane z = 0. -/
def square : Polygon Unit where
  plane := ⟨⟨0, 0, 1⟩, 0⟩
  drop := 2
  edges := [⟨⟨⟨0, 0, 0⟩, 1⟩, ⟨⟨2, 0, 0⟩, ⟨0, 0, 0⟩⟩, ()⟩, ⟨⟨⟨2, 0, 0⟩, 1⟩, ⟨⟨0, 2, 0⟩, ⟨0, 0, 4⟩⟩, ()⟩,
    ⟨⟨⟨4, 4, 0⟩, 2⟩, ⟨⟨-2, 0, 0⟩, ⟨0, 0, 4⟩⟩, ()⟩, ⟨⟨⟨0, 2, 0⟩, 1⟩, ⟨⟨0, -2, 0⟩, ⟨0, 0, 0⟩⟩, ()⟩]

theorem square_pt : square.pt 0 = ![0, 0, 0] ∧ square.pt 1 = ![2, 0, 0] ∧ square.pt 2 = ![2, 2, 0] ∧
    square.pt 3 = ![0, 2, 0] := by
  refine ⟨?_, ?_, ?_, ?_⟩ <;> apply q3_ext <;>
    simp [Polygon.pt, square, Polygon.vertexD, HP3.pt, V3.comp] <;> norm_num

theorem square_convex : IsConvexPolygon square := by
  obtain ⟨p0, p1, p2, p3⟩ := square_pt
  have hc : square.count = 4 := rfl
  have hpl : square.plane = ⟨⟨0, 0, 1⟩, 0⟩ := rfl
  have four : ∀ i, i < 4 → i = 0 ∨ i = 1 ∨ i = 2 ∨ i = 3 := by omega
  refine ⟨by decide, ?_, ?_, ?_, ?_, ?_, ⟨0, 1, 2, by decide, by decide, by decide, ?_⟩⟩
  · intro i hi
    rw [hc] at hi
    rcases four i hi with rfl | rfl | rfl | rfl <;> decide
  · intro i hi
    rw [hc] at hi
    rcases four i hi with rfl | rfl | rfl | rfl <;> simp [p0, p1, p2, p3, HS3.side_eq, hpl]
  · intro i hi
    rw [hc] at hi ⊢
    rcases four i hi with rfl | rfl | rfl | rfl <;> norm_num [p0, p1, p2, p3] <;>
      refine ⟨by apply q3_ext <;> simp [square, Polygon.lineD, V3.comp] <;> norm_num, 1, one_pos, fun j => ?_⟩ <;>
      obtain rfl | rfl | rfl := fin3 j <;> simp [square, Polygon.lineD, V3.comp]
  · intro i j k h1 h2 h3
    rw [hc] at h3
    rcases four i (by omega) with rfl | rfl | rfl | rfl <;> rcases four j (by omega) with rfl | rfl | rfl | rfl <;>
      rcases four k (by omega) with rfl | rfl | rfl | rfl <;> first
      | omega
      | (simp [p0, p1, p2, p3, turn, dotQ, hpl]; try norm_num)
  · intro i j h1 h2
    rw [hc] at h2
    rcases four i (by omega) with rfl | rfl | rfl | rfl <;> rcases four j (by omega) with rfl | rfl | rfl | rfl <;> first
      | omega
      | (simp [p0, p1, p2, p3])
  · simp [p0, p1, p2, turn, dotQ, hpl]; try norm_num

/-! ### C30 -/

/-- C30: on every cyclic sign sequence a line can cut from a convex polygon (`Pattern`,
see `C30_convex_pattern`), the linear search succeeds and its ranges contain exactly the
vertices on the two sides. -/
theorem C30_linear {n : Nat} {c : Nat → Int} (h : Pattern n c) :
    ∃ r, linear n c = some r ∧ RangesOK n c r := linear_spec h

/-- C30: the vertices of a convex polygon of the plane see such a sequence for every
line. -/
theorem C30_convex_pattern {n : Nat} {X Y : Nat → ℚ} (h : Convex2 n X Y) {α β : ℚ} (γ : ℚ) (hαβ : α ≠ 0 ∨ β ≠ 0) :
    Pattern n fun i => α * X i + β * Y i + γ := h.pattern γ hαβ

/-- C30: for a convex polygon in space, both searches return ranges that contain
exactly the vertices on the two sides of the 2D half-space, in the polygon's order. -/
theorem C30_polygon (P : Polygon D) (h : IsConvexPolygon P) (g : HS2) (hg : g.n.isZero = false) :
    (∃ r, P.findLinear g = some r ∧ ∀ i, i < P.count →
      (g.side ((P.vertexD i).dropDimension P.drop).pt < 0 ↔ InRange r.neg P.count i) ∧
      (0 < g.side ((P.vertexD i).dropDimension P.drop).pt ↔ InRange r.pos P.count i)) ∧
    (∃ r, P.findBisect g = some r ∧ ∀ i, i < P.count →
      (g.side ((P.vertexD i).dropDimension P.drop).pt < 0 ↔ InRange r.neg P.count i) ∧
      (0 < g.side ((P.vertexD i).dropDimension P.drop).pt ↔ InRange r.pos P.count i)) := by
  have hs : ∀ i, i < P.count → SameSign (P.cmpAt g i) (g.side ((P.vertexD i).dropDimension P.drop).pt) :=
    fun i hi => C23_compare_homo2 g _ (h.finite i hi)
  obtain ⟨r1, e1, h1⟩ := h.findLinear g hg
  obtain ⟨r2, e2, h2⟩ := h.findBisect g hg
  exact ⟨⟨r1, e1, fun i hi => ⟨(hs i hi).1.symm.trans (h1.neg i hi), (hs i hi).2.2.symm.trans (h1.pos i hi)⟩⟩,
    ⟨r2, e2, fun i hi => ⟨(hs i hi).1.symm.trans (h2.neg i hi), (hs i hi).2.2.symm.trans (h2.pos i hi)⟩⟩⟩

example : ∃ r, square.findBisect ⟨⟨1, 1⟩, 2⟩ = some r :=
  (C30_polygon square square_convex ⟨⟨1, 1⟩, 2⟩ rfl).2.imp fun _ h => h.1

example : square.findLinear ⟨⟨1, 1⟩, 2⟩ = some ⟨(0, 1), (2, 3)⟩ := by decide +kernel

/-! ### C29 -/

/-- C29: `GetSplitInfo` succeeds on every convex polygon and plane, passes its own
validity check, and its ranges contain exactly the vertices on the two sides. -/
theorem C29_split_info (P : Polygon D) (h : IsConvexPolygon P) (g : HS3) :
    ∃ s, P.splitInfo g = some s ∧ s.isValid P.count = true ∧
      (∀ i, i < P.count → (g.side (P.pt i) < 0 ↔ InRange s.ranges.neg P.count i) ∧
        (0 < g.side (P.pt i) ↔ InRange s.ranges.pos P.count i)) ∧
      (s.ranges.emitNeg = true ↔ ∃ i, i < P.count ∧ g.side (P.pt i) < 0) ∧
      (s.ranges.emitPos = true ↔ ∃ i, i < P.count ∧ 0 < g.side (P.pt i)) ∧
      (s.emitOn = true ↔ ∀ i, i < P.count → g.side (P.pt i) = 0) := by
  obtain ⟨s, h1, h2, _, h4, _⟩ := h.splitInfo g
  have hn := h.count_pos
  have e1 : s.ranges.emitNeg = true ↔ ∃ i, i < P.count ∧ g.side (P.pt i) < 0 := by
    constructor
    · intro he
      have hne : s.ranges.neg.1 ≠ s.ranges.neg.2 := by simpa [Ranges.emitNeg] using he
      have := h4.neg_le
      exact ⟨s.ranges.neg.1 % P.count, Nat.mod_lt _ hn,
        (h4.neg _ (Nat.mod_lt _ hn)).mpr ⟨s.ranges.neg.1, le_rfl, by omega, rfl⟩⟩
    · rintro ⟨i, hi, hs⟩
      obtain ⟨k, k1, k2, _⟩ := (h4.neg i hi).mp hs
      have : s.ranges.neg.1 ≠ s.ranges.neg.2 := by omega
      simpa [Ranges.emitNeg] using this
  have e2 : s.ranges.emitPos = true ↔ ∃ i, i < P.count ∧ 0 < g.side (P.pt i) := by
    constructor
    · intro he
      have hne : s.ranges.pos.1 ≠ s.ranges.pos.2 := by simpa [Ranges.emitPos] using he
      have := h4.pos_le
      exact ⟨s.ranges.pos.1 % P.count, Nat.mod_lt _ hn,
        (h4.pos _ (Nat.mod_lt _ hn)).mpr ⟨s.ranges.pos.1, le_rfl, by omega, rfl⟩⟩
    · rintro ⟨i, hi, hs⟩
      obtain ⟨k, k1, k2, _⟩ := (h4.pos i hi).mp hs
      have : s.ranges.pos.1 ≠ s.ranges.pos.2 := by omega
      simpa [Ranges.emitPos] using this
  refine ⟨s, h1, h2, fun i hi => ⟨h4.neg i hi, h4.pos i hi⟩, e1, e2, ?_⟩
  have e3 : s.emitOn = true ↔ ¬ s.ranges.emitNeg = true ∧ ¬ s.ranges.emitPos = true := by
    simp [SplitInfo.emitOn]
  rw [e3, e1, e2]
  push Not
  constructor
  · rintro ⟨a1, a2⟩ i hi
    exact le_antisymm (a2 i hi) (a1 i hi)
  · intro a
    exact ⟨fun i hi => (a i hi).ge, fun i hi => (a i hi).le⟩

/-- The polygon `C` lists a run of consecutive edges of `P` starting with edge `a`,
from its own edge `off` on. -/
def CopiesRun (P C : Polygon D) (off a m : Nat) : Prop :=
  ∀ i, i < m → C.edges[off + i]? = P.edges[(a + i) % P.count]?

/-- C29: splitting a convex polygon by a plane with vertices on both sides succeeds.
The children are convex polygons in the parent's plane and orientation; they cover
exactly the points of the parent on the two closed sides; the negative child lists
exactly the parent's vertices on the negative side, in the parent's order, followed by
two vertices on the splitting plane; the positive child lists exactly those on the
positive side between two vertices on the splitting plane. -/
theorem C29_children (ops : EdgeOps D) (P : Polygon D) (h : IsConvexPolygon P) (g : HS3)
    (hneg : ∃ i, i < P.count ∧ g.side (P.pt i) < 0) (hpos : ∃ i, i < P.count ∧ 0 < g.side (P.pt i)) :
    ∃ s N Q, P.splitInfo g = some s ∧ P.splitChildren ops s = some (N, Q) ∧
      IsConvexPolygon N ∧ IsConvexPolygon Q ∧ N.plane = P.plane ∧ Q.plane = P.plane ∧
      N.region = P.region ∩ {q | g.side q ≤ 0} ∧ Q.region = P.region ∩ {q | 0 ≤ g.side q} ∧
      (∃ a m, N.count = m + 2 ∧ CopiesRun P N 0 a m ∧
        (∀ i, i < P.count → (g.side (P.pt i) < 0 ↔ InRange (a, a + m) P.count i)) ∧
        g.side (N.pt m) = 0 ∧ g.side (N.pt (m + 1)) = 0) ∧
      (∃ b k, Q.count = k + 2 ∧ CopiesRun P Q 1 b k ∧
        (∀ i, i < P.count → (0 < g.side (P.pt i) ↔ InRange (b, b + k) P.count i)) ∧
        g.side (Q.pt 0) = 0 ∧ g.side (Q.pt (k + 1)) = 0) := by
  obtain ⟨s, h1, _, h3, h4, h5, _⟩ := C29_split_info P h g
  obtain ⟨N, Q, a, m, b, k, t, u, e, sh, _⟩ := h.splitChildren ops g h1 (h4.mpr hneg) (h5.mpr hpos)
  have hn := h.count_pos
  obtain ⟨l1, l2, l3⟩ := sh.cut.lens
  have hm := sh.cut.m1
  have hk := sh.cut.k1
  have side0 := SplitShape.pt_side h
  have fneg : ∀ i, a ≤ i → i < a + m → g.side (P.pt (i % P.count)) < 0 := by
    intro i a1 a2
    rw [← SplitShape.aff_pt h (side0 i)]; exact sh.cut.neg i a1 a2
  have fpos : ∀ i, b ≤ i → i < b + k → 0 < g.side (P.pt (i % P.count)) := by
    intro i a1 a2
    rw [← SplitShape.aff_pt h (side0 i)]; exact sh.cut.pos i a1 a2
  have s2 := SplitShape.s2_side h sh
  have s1 := SplitShape.s1_side h sh
  have other : ∀ i, a + m ≤ i → i < a + P.count → (b ≤ i ∧ i < b + k) ∨ g.side (P.pt (i % P.count)) = 0 := by
    intro i a1 a2
    rcases sh.cut.between (by omega) a2 with c | c | ⟨c1, c2, c3⟩ | ⟨c1, c2, c3⟩
    · omega
    · exact Or.inl c
    · right
      rw [c3] at s2
      unfold cross3 at s2
      rwa [lerp3_one, show a + m - 1 + 1 = i by omega] at s2
    · right
      rw [c3] at s1
      unfold cross3 at s1
      rwa [lerp3_zero, ← c1] at s1
  have rep : ∀ i, i < P.count → ∃ j, a ≤ j ∧ j < a + P.count ∧ j % P.count = i := fun i hi => Poly.exists_rep a i hi
  refine ⟨s, N, Q, h1, e, SplitShape.neg_isConvex h sh, SplitShape.pos_isConvex h sh, sh.nplane, sh.qplane,
    SplitShape.neg_region h sh, SplitShape.pos_region h sh,
    ⟨a, m, sh.ncount, fun i hi => by rw [Nat.zero_add]; exact sh.nedge i hi, fun i hi => ⟨fun hs => ?_, ?_⟩, ?_, ?_⟩,
    ⟨b, k, sh.qcount, fun i hi => ?_, fun i hi => ⟨fun hs => ?_, ?_⟩, ?_, ?_⟩⟩
  · obtain ⟨j, j1, j2, rfl⟩ := rep i hi
    by_cases c : j < a + m
    · exact ⟨j, j1, c, rfl⟩
    · rcases other j (by omega) j2 with c | c
      · have := fpos j c.1 c.2; linarith
      · linarith
  · rintro ⟨j, j1, j2, rfl⟩; exact fneg j j1 j2
  · rw [sh.npt m (by omega), if_neg (by omega), if_pos rfl]; exact s2
  · rw [sh.npt (m + 1) (by omega), if_neg (by omega), if_neg (by omega)]; exact s1
  · rw [sh.qedge (1 + i) (by omega) (by omega), show b + (1 + i) - 1 = b + i by omega]
  · obtain ⟨j, j1, j2, rfl⟩ := rep i hi
    by_cases c : j < a + m
    · have := fneg j j1 c; linarith
    · rcases other j (by omega) j2 with c | c
      · exact ⟨j, c.1, c.2, rfl⟩
      · linarith
  · rintro ⟨j, j1, j2, rfl⟩; exact fpos j j1 j2
  · rw [sh.qpt 0 (by omega), if_pos rfl]; exact s2
  · rw [sh.qpt (k + 1) (by omega), if_neg (by omega), if_neg (by omega)]; exact s1

/-- The parent class without members. -/
def unitOps : EdgeOps Unit := ⟨fun _ _ => (), fun _ _ => (), fun _ _ _ => ()⟩

/-- The square split by x = 1: the negative child starts with the corner (0,2), the
parent's edge 3. -/
example : ((square.splitInfo ⟨⟨1, 0, 0⟩, 1⟩).bind fun s =>
      (square.splitChildren unitOps s).map fun c =>
        (c.1.edges.map fun e => (e.vertex.v.x, e.vertex.v.y, e.vertex.w),
         c.2.edges.map fun e => (e.vertex.v.x, e.vertex.v.y, e.vertex.w))) =
    some ([(0, 2, 1), (0, 0, 1), (2, 0, 2), (-2, -4, -2)], [(2, 0, 2), (2, 0, 1), (4, 4, 2), (-2, -4, -2)]) := by decide +kernel

example : ∃ s N Q, square.splitInfo ⟨⟨1, 0, 0⟩, 1⟩ = some s ∧ square.splitChildren unitOps s = some (N, Q) ∧
    IsConvexPolygon N ∧ IsConvexPolygon Q := by
  obtain ⟨p0, p1, p2, p3⟩ := square_pt
  obtain ⟨s, N, Q, h1, h2, h3, h4, _⟩ := C29_children unitOps square square_convex ⟨⟨1, 0, 0⟩, 1⟩
    ⟨0, by decide, by simp [p0, HS3.side_eq]⟩ ⟨1, by decide, by simp [p1, HS3.side_eq]⟩
  exact ⟨s, N, Q, h1, h2, h3, h4⟩

/-- One step of repeated splitting: the polygon is replaced by its child on the chosen
side (`true` for the positive side). -/
def SplitStep (ops : EdgeOps D) (P : Polygon D) (g : HS3) (side : Bool) (C : Polygon D) : Prop :=
  ∃ s N Q, P.splitInfo g = some s ∧ s.ranges.emitNeg = true ∧ s.ranges.emitPos = true ∧
    P.splitChildren ops s = some (N, Q) ∧ C = if side then Q else N

/-- Repeated splitting by a list of planes. -/
inductive SplitSteps (ops : EdgeOps D) : Polygon D → List (HS3 × Bool) → Polygon D → Prop
  | nil (P) : SplitSteps ops P [] P
  | cons {P C E} {g side gs} : SplitStep ops P g side C → SplitSteps ops C gs E → SplitSteps ops P ((g, side) :: gs) E

/-- C29: after any number of splits the piece is a convex polygon and covers exactly
the points of the first polygon on the chosen sides of all planes. -/
theorem C29_repeated (ops : EdgeOps D) (P E : Polygon D) (gs : List (HS3 × Bool)) (h : IsConvexPolygon P)
    (hs : SplitSteps ops P gs E) : IsConvexPolygon E ∧ E.plane = P.plane ∧
      E.region = P.region ∩ {q | ∀ p ∈ gs, if p.2 then 0 ≤ p.1.side q else p.1.side q ≤ 0} := by
  induction hs with
  | nil P => exact ⟨h, rfl, by simp⟩
  | @cons P C E g side gs step _ ih =>
    obtain ⟨s, N, Q, h1, h2, h3, h4, rfl⟩ := step
    obtain ⟨s', h1', _, _, e1, e2, _⟩ := C29_split_info P h g
    obtain rfl : s = s' := by rw [h1] at h1'; exact Option.some.inj h1'
    obtain ⟨s'', N', Q', k1, k2, k3, k4, k5, k6, k7, k8, _⟩ := C29_children ops P h g (e1.mp h2) (e2.mp h3)
    obtain rfl : s = s'' := by rw [h1] at k1; exact Option.some.inj k1
    obtain ⟨rfl, rfl⟩ : N = N' ∧ Q = Q' := by
      rw [h4] at k2
      exact Prod.mk.inj (Option.some.inj k2)
    have hset : ∀ (R : Set Q3) (T : Set Q3), T = R ∩ {q | if side then 0 ≤ g.side q else g.side q ≤ 0} →
        T ∩ {q | ∀ p ∈ gs, if p.2 then 0 ≤ p.1.side q else p.1.side q ≤ 0} =
        R ∩ {q | ∀ p ∈ (g, side) :: gs, if p.2 then 0 ≤ p.1.side q else p.1.side q ≤ 0} := by
      rintro R T rfl
      ext q
      simp only [Set.mem_inter_iff, Set.mem_ofPred_eq, List.mem_cons, forall_eq_or_imp, and_assoc]
    cases side with
    | true =>
      obtain ⟨i1, i2, i3⟩ := ih k4
      exact ⟨i1, i2.trans k6, i3.trans (hset _ _ (by simpa using k8))⟩
    | false =>
      obtain ⟨i1, i2, i3⟩ := ih k3
      exact ⟨i1, i2.trans k5, i3.trans (hset _ _ (by simpa using k7))⟩

/-! ### C63 -/

/-- C63: `GetExtremeIndexBisect` with a 3D direction that is not parallel to the
polygon's normal returns a vertex that no vertex exceeds in that direction, and its
predecessor is strictly behind it. -/
theorem C63_extreme (P : Polygon D) (h : IsConvexPolygon P) (v : V3) (hv : v.cross P.plane.n ≠ ⟨0, 0, 0⟩) :
    ∃ t, P.extreme v = some (.inr t) ∧ t < P.count ∧
      (∀ i, i < P.count → dotQ v.q (P.pt i) ≤ dotQ v.q (P.pt t)) ∧
      dotQ v.q (P.pt ((t + P.count - 1) % P.count)) < dotQ v.q (P.pt t) := h.extreme v hv

/-- C63: for a direction parallel to the normal all vertices are equally far, and the
search says so by returning the index -1. -/
theorem C63_extreme_parallel (P : Polygon D) (h : IsConvexPolygon P) (v : V3) (hv : v.cross P.plane.n = ⟨0, 0, 0⟩) :
    P.extreme v = some (.inl ()) ∧ ∀ i j, i < P.count → j < P.count → dotQ v.q (P.pt i) = dotQ v.q (P.pt j) := by
  constructor
  · unfold Polygon.extreme Polygon.extreme2
    exact if_pos ((extreme_zero P.plane h.drop v).mpr hv)
  · intro i j hi hj
    have hz := (extreme_zero P.plane h.drop v).mpr hv
    have e1 := extreme_dir P.plane h.drop v (h.onPlane i hi)
    have e2 := extreme_dir P.plane h.drop v (h.onPlane j hj)
    have hz0 : ∀ (w : V2) (d : Fin 3) (q : Q3), w.isZero = true → along2 w d q = 0 := by
      intro w d q hw
      simp only [V2.isZero, decide_eq_true_eq] at hw
      simp [along2, hw.1, hw.2]
    rw [hz0 _ _ _ hz] at e1 e2
    have hp := sg_mul_pos P.plane h.drop
    have : sg P.plane P.drop * (P.plane.n.comp P.drop : ℚ) * (dotQ v.q (P.pt i) - dotQ v.q (P.pt j)) = 0 := by
      linear_combination e2 - e1
    have := (mul_eq_zero.mp this).resolve_left hp.ne'
    linarith

example : square.extreme ⟨1, 1, 5⟩ = some (.inr 2) := by decide +kernel
example : ∃ t, square.extreme ⟨1, 0, 5⟩ = some (.inr t) ∧ t < 4 :=
  (C63_extreme square square_convex ⟨1, 0, 5⟩ (by decide)).imp fun _ h => ⟨h.1, h.2.1⟩

end Walnut.Props
