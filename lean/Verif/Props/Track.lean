/-
Property C31: the extreme vertices and the bounding box kept with a polygon.
-/
import Verif.Poly.TrackSplit

namespace Walnut.Props
open Walnut.Geom Walnut.Poly

variable {D : Type}

/-- C31: what `TrackerOK` means for the box: it contains every point of the polygon. -/
theorem C31_contains (P : Polygon D) (T : Tracker) (hf : ∀ i, i < P.count → (P.vertexD i).w ≠ 0) (h : TrackerOK P T) :
    0 < T.box.den ∧ ∀ q ∈ P.region, InBox T.box q := by
  have hd : 0 < T.box.den := lt_of_lt_of_le (abs_pos.2 (hf _ (h.loLt 0))) (h.denLe 0).1
  have hdq : (0 : ℚ) < T.box.den := by exact_mod_cast hd
  refine ⟨hd, fun q hq c => ⟨?_, ?_⟩⟩
  · rw [div_le_iff₀ hdq, h.low c]
    have h1 := Int.floor_le (P.pt (T.lo c) c * T.box.den)
    have h2 := hull_le (n := P.count) (v := P.pt) (c := c) (σ := -1) (M := -P.pt (T.lo c) c)
      (fun i hi => by linarith [h.loMin c i hi]) hq
    have h3 : P.pt (T.lo c) c ≤ q c := by linarith
    linarith [mul_le_mul_of_nonneg_right h3 hdq.le]
  · rw [le_div_iff₀ hdq, h.high c]
    have h1 := Int.le_ceil (P.pt (T.hi c) c * T.box.den)
    have h2 := hull_le (n := P.count) (v := P.pt) (c := c) (σ := 1) (M := P.pt (T.hi c) c)
      (fun i hi => by linarith [h.hiMax c i hi]) hq
    have h3 : q c ≤ P.pt (T.hi c) c := by linarith
    linarith [mul_le_mul_of_nonneg_right h3 hdq.le]

/-- C31: the constructor finds the extreme vertices and their box.  It is defined
unless a division of the minimum integer by a denominator of -1 occurs. -/
theorem C31_build (P : Polygon D) (hn : 0 < P.count) (hf : ∀ i, i < P.count → (P.vertexD i).w ≠ 0) :
    (∀ T, Tracker.build P = some T → TrackerOK P T) ∧
    ((∀ i, i < P.count → (P.vertexD i).w ≠ -1) → ∃ T, Tracker.build P = some T) := by
  have mn := minSearch_spec P hn hf
  have mx := maxSearch_spec P hn hf
  have h1 : ∀ c, (P.vertexD (minSearch P c)).w ≠ 0 := fun c => hf _ (mn c).1
  have h2 : ∀ c, (P.vertexD (maxSearch P c)).w ≠ 0 := fun c => hf _ (mx c).1
  have hd := maxDenominator_pos P (lo := minSearch P) (hi := maxSearch P) (h1 0)
  obtain ⟨s1, s2⟩ := approximateExtremes_spec P hd h1 h2
  unfold Tracker.build
  rw [if_neg hn.ne']
  constructor
  · intro T hT
    obtain ⟨B, hB, rfl⟩ := Option.map_eq_some_iff.1 hT
    obtain ⟨e, lo, hi⟩ := s1 B hB
    obtain ⟨d1, d2⟩ := maxDenominator_spec P (minSearch P) (maxSearch P)
    rw [← e] at d1 d2 lo hi
    exact ⟨fun c => (mn c).1, fun c => (mx c).1, fun c => (mn c).2, fun c => (mx c).2, d1, d2, lo, hi⟩
  · intro h
    obtain ⟨B, hB⟩ := s2 fun c => ⟨h _ (mn c).1, h _ (mx c).1⟩
    exact ⟨_, by rw [hB]; rfl⟩

/-- C31: splitting a convex polygon: the children's trackers, derived from the parent's
by `CreateSplitChildren` without looking at all vertices, are again exact.  All
assertions hold.  The result is defined unless a division of the minimum integer by a
denominator of -1 occurs. -/
theorem C31_split (ops : EdgeOps D) (P : Polygon D) (h : IsConvexPolygon P) (T : Tracker) (hT : TrackerOK P T) (g : HS3)
    {s : SplitInfo} (hs : P.splitInfo g = some s) (he : s.ranges.emitNeg = true) (he' : s.ranges.emitPos = true)
    {N Q : Polygon D} (hc : P.splitChildren ops s = some (N, Q)) :
    (∀ TN TQ, T.split P.count N Q s.ranges = some (TN, TQ) → TrackerOK N TN ∧ TrackerOK Q TQ) ∧
    ((∀ i, i < N.count → (N.vertexD i).w ≠ -1) → (∀ i, i < Q.count → (Q.vertexD i).w ≠ -1) →
      ∃ TN TQ, T.split P.count N Q s.ranges = some (TN, TQ)) := by
  obtain ⟨s', h1', _, _, e1, e2, _⟩ := C29_split_info P h g
  obtain rfl : s = s' := by rw [hs] at h1'; exact Option.some.inj h1'
  obtain ⟨s'', N', Q', k1, k2, cN, cQ, _, _, rN, rQ, _⟩ := C29_children ops P h g (e1.mp he) (e2.mp he')
  obtain rfl : s = s'' := by rw [hs] at k1; exact Option.some.inj k1
  obtain ⟨rfl, rfl⟩ : N = N' ∧ Q = Q' := by
    rw [hc] at k2
    exact Prod.mk.inj (Option.some.inj k2)
  obtain ⟨N', Q', a, m, b, k, t, u, k2', sh, ra, rm, rb, rk, _⟩ := h.splitChildren ops g hs he he'
  obtain ⟨rfl, rfl⟩ : N = N' ∧ Q = Q' := by
    rw [hc] at k2'
    exact Prod.mk.inj (Option.some.inj k2')
  have ha : a ≤ P.count := by rw [ra]; exact splitInfo_first hs he he'
  have hn := h.count_pos
  obtain ⟨lo, el, pl⟩ := three_spec (f := splitIndices T.lo (-1) P.count N Q s.ranges) (P := fun c x =>
      x.neg < N.count ∧ x.pos < Q.count ∧ (∀ j, j < N.count → N.pt x.neg c ≤ N.pt j c) ∧
      (∀ j, j < Q.count → Q.pt x.pos c ≤ Q.pt j c) ∧ (x.negModified = false → N.pt x.neg = P.pt (T.lo c)) ∧
      (x.posModified = false → Q.pt x.pos = P.pt (T.lo c))) (fun c => by
    obtain ⟨x, x1, x2, x3, x4, x5, x6, x7⟩ := splitIndices_spec h sh ra rm rb rk ha rN rQ T.lo (-1) (Or.inr rfl) c (hT.loLt c)
      (fun j hj => by have := hT.loMin c j hj; push_cast; linarith)
    push_cast at x4 x5
    exact ⟨x, x1, x2, x3, fun j hj => by linarith [x4 j hj], fun j hj => by linarith [x5 j hj], x6, x7⟩)
  obtain ⟨hi, eh, ph⟩ := three_spec (f := splitIndices T.hi 1 P.count N Q s.ranges) (P := fun c x =>
      x.neg < N.count ∧ x.pos < Q.count ∧ (∀ j, j < N.count → N.pt j c ≤ N.pt x.neg c) ∧
      (∀ j, j < Q.count → Q.pt j c ≤ Q.pt x.pos c) ∧ (x.negModified = false → N.pt x.neg = P.pt (T.hi c)) ∧
      (x.posModified = false → Q.pt x.pos = P.pt (T.hi c))) (fun c => by
    obtain ⟨x, x1, x2, x3, x4, x5, x6, x7⟩ := splitIndices_spec h sh ra rm rb rk ha rN rQ T.hi 1 (Or.inl rfl) c (hT.hiLt c)
      (fun j hj => by have := hT.hiMax c j hj; push_cast; linarith)
    push_cast at x4 x5
    exact ⟨x, x1, x2, x3, fun j hj => by linarith [x4 j hj], fun j hj => by linarith [x5 j hj], x6, x7⟩)
  obtain ⟨un, dn⟩ := updateExtremes_spec hT N (lo := fun c => (lo c).neg) (hi := fun c => (hi c).neg)
    (loMod := fun c => (lo c).negModified) (hiMod := fun c => (hi c).negModified)
    (fun c => cN.finite _ (pl c).1) (fun c => cN.finite _ (ph c).1)
    (fun c hm => by rw [(pl c).2.2.2.2.1 hm]) (fun c hm => by rw [(ph c).2.2.2.2.1 hm])
  obtain ⟨uq, dq⟩ := updateExtremes_spec hT Q (lo := fun c => (lo c).pos) (hi := fun c => (hi c).pos)
    (loMod := fun c => (lo c).posModified) (hiMod := fun c => (hi c).posModified)
    (fun c => cQ.finite _ (pl c).2.1) (fun c => cQ.finite _ (ph c).2.1)
    (fun c hm => by rw [(pl c).2.2.2.2.2 hm]) (fun c hm => by rw [(ph c).2.2.2.2.2 hm])
  unfold Tracker.split
  rw [if_neg (by rw [he, he']; simp), if_neg (by omega), el, eh]
  simp only
  constructor
  · intro TN TQ hres
    split at hres
    · rename_i b1 b2 hb1 hb2
      obtain ⟨rfl, rfl⟩ := Prod.mk.inj (Option.some.inj hres)
      obtain ⟨n0, n1, n2⟩ := un _ hb1
      obtain ⟨q0, q1, q2⟩ := uq _ hb2
      obtain ⟨m1, m2⟩ := maxDenominator_spec N (fun c => (lo c).neg) (fun c => (hi c).neg)
      obtain ⟨o1, o2⟩ := maxDenominator_spec Q (fun c => (lo c).pos) (fun c => (hi c).pos)
      rw [← n0] at m1 m2
      rw [← q0] at o1 o2
      exact ⟨⟨fun c => (pl c).1, fun c => (ph c).1, fun c => (pl c).2.2.1, fun c => (ph c).2.2.1, m1, m2, n1, n2⟩,
        ⟨fun c => (pl c).2.1, fun c => (ph c).2.1, fun c => (pl c).2.2.2.1, fun c => (ph c).2.2.2.1, o1, o2, q1, q2⟩⟩
    · simp at hres
  · intro w1 w2
    obtain ⟨b1, hb1⟩ := dn fun c => ⟨w1 _ (pl c).1, w1 _ (ph c).1⟩
    obtain ⟨b2, hb2⟩ := dq fun c => ⟨w2 _ (pl c).2.1, w2 _ (ph c).2.1⟩
    rw [hb1, hb2]
    exact ⟨_, _, rfl⟩

/-- C31: rotating the vertices together with the tracker. -/
theorem C31_rotate (P : Polygon D) (T : Tracker) (hT : TrackerOK P T) {k : Nat} (hk : k < P.count) :
    ∃ T', T.rotateIndices k P.count = some T' ∧ TrackerOK (P.rotateEdges k) T' ∧ T'.box = T.box := by
  have hn : 0 < P.count := by omega
  have hc := rotate_count P hk
  have key : ∀ i, i < P.count → ((i + P.count - k) % P.count + k) % P.count = i := by
    intro i hi
    rw [Nat.mod_add_mod, show i + P.count - k + k = i + P.count by omega, Nat.add_mod_right, Nat.mod_eq_of_lt hi]
  have pt : ∀ i, i < P.count → (P.rotateEdges k).pt ((i + P.count - k) % P.count) = P.pt i := by
    intro i hi
    rw [rotate_pt P hk (Nat.mod_lt _ hn), key i hi]
  have vt : ∀ i, i < P.count → (P.rotateEdges k).vertexD ((i + P.count - k) % P.count) = P.vertexD i := by
    intro i hi
    rw [rotate_vertexD P hk (Nat.mod_lt _ hn), key i hi]
  refine ⟨⟨fun c => (T.lo c + P.count - k) % P.count, fun c => (T.hi c + P.count - k) % P.count, T.box⟩,
    by unfold Tracker.rotateIndices; rw [if_neg hn.ne'], ?_, rfl⟩
  refine ⟨fun c => ?_, fun c => ?_, fun c j hj => ?_, fun c j hj => ?_, fun c => ?_, ?_, fun c => ?_, fun c => ?_⟩
  · rw [hc]; exact Nat.mod_lt _ hn
  · rw [hc]; exact Nat.mod_lt _ hn
  · rw [hc] at hj
    simp only
    rw [pt _ (hT.loLt c), rotate_pt P hk hj]; exact hT.loMin c _ (Nat.mod_lt _ hn)
  · rw [hc] at hj
    simp only
    rw [pt _ (hT.hiLt c), rotate_pt P hk hj]; exact hT.hiMax c _ (Nat.mod_lt _ hn)
  · simp only
    rw [vt _ (hT.loLt c), vt _ (hT.hiLt c)]; exact hT.denLe c
  · obtain ⟨c, h⟩ := hT.denEq
    refine ⟨c, ?_⟩
    simp only
    rw [vt _ (hT.loLt c), vt _ (hT.hiLt c)]; exact h
  · simp only
    rw [pt _ (hT.loLt c)]; exact hT.low c
  · simp only
    rw [pt _ (hT.hiLt c)]; exact hT.high c

/-- C31: `GetSplitInfo` with the bounding box shortcut classifies every vertex, like
the one without. -/
theorem C31_split_info (P : Polygon D) (h : IsConvexPolygon P) (T : Tracker) (hT : TrackerOK P T) (g : HS3) :
    ∃ s, splitInfoBox P T g = some s ∧
      (∀ i, i < P.count → (g.side (P.pt i) < 0 ↔ InRange s.ranges.neg P.count i) ∧
        (0 < g.side (P.pt i) ↔ InRange s.ranges.pos P.count i)) ∧
      (s.ranges.emitNeg = true → s.ranges.emitPos = true → P.splitInfo g = some s) := by
  obtain ⟨hd, hin⟩ := C31_contains P T h.finite hT
  have hdq : (0 : ℚ) < T.box.den := by exact_mod_cast hd
  have hne : NonemptyBox T.box := by
    intro c
    have h1 := (hin _ (subset_convexHull _ _ ⟨0, h.count_pos, rfl⟩)) c
    have h2 := h1.1.trans h1.2
    rw [div_le_div_iff_of_pos_right hdq] at h2
    exact_mod_cast h2
  obtain ⟨c1, c2, c3⟩ := C27_plane_side T.box hd hne g
  have vin : ∀ i, i < P.count → InBox T.box (P.pt i) := fun i hi => hin _ (subset_convexHull _ _ ⟨i, hi, rfl⟩)
  have full : ∀ i, i < P.count → InRange (0, P.count) P.count i := fun i hi => ⟨i, Nat.zero_le _, hi, Nat.mod_eq_of_lt hi⟩
  have empty : ∀ i, ¬ InRange (0, 0) P.count i := by rintro i ⟨j, h1, h2, _⟩; simp at h2
  unfold splitInfoBox
  rcases c3 with e | e | e
  · rw [e]
    refine ⟨_, rfl, fun i hi => ?_, by simp [Ranges.emitNeg]⟩
    have := c1.1 e _ (vin i hi)
    exact ⟨⟨fun h' => by linarith, fun h' => absurd h' (empty i)⟩, ⟨fun _ => full i hi, fun _ => this⟩⟩
  · rw [e]
    refine ⟨_, rfl, fun i hi => ?_, by simp [Ranges.emitPos]⟩
    have := c2.1 e _ (vin i hi)
    exact ⟨⟨fun _ => full i hi, fun _ => this⟩, ⟨fun h' => by linarith, fun h' => absurd h' (empty i)⟩⟩
  · rw [e]
    obtain ⟨s, hs, _, hcl, _⟩ := C29_split_info P h g
    exact ⟨s, hs, hcl, fun _ _ => hs⟩

/-- C31 along any sequence of splits: starting with a freshly built tracker, the
tracker that belongs to the polygon at the end is exact. -/
inductive TrackedSteps (ops : EdgeOps D) : Polygon D → Tracker → Polygon D → Tracker → Prop
  | nil (P T) : TrackedSteps ops P T P T
  | neg {P T g s N Q TN TQ E TE} (h1 : splitInfoBox P T g = some s) (h2 : s.ranges.emitNeg = true) (h3 : s.ranges.emitPos = true)
      (h4 : P.splitChildren ops s = some (N, Q)) (h5 : T.split P.count N Q s.ranges = some (TN, TQ))
      (rest : TrackedSteps ops N TN E TE) : TrackedSteps ops P T E TE
  | pos {P T g s N Q TN TQ E TE} (h1 : splitInfoBox P T g = some s) (h2 : s.ranges.emitNeg = true) (h3 : s.ranges.emitPos = true)
      (h4 : P.splitChildren ops s = some (N, Q)) (h5 : T.split P.count N Q s.ranges = some (TN, TQ))
      (rest : TrackedSteps ops Q TQ E TE) : TrackedSteps ops P T E TE

theorem C31_repeated (ops : EdgeOps D) {P E : Polygon D} {T TE : Tracker} (hs : TrackedSteps ops P T E TE)
    (h : IsConvexPolygon P) (hT : TrackerOK P T) : IsConvexPolygon E ∧ TrackerOK E TE := by
  have conv : ∀ {P : Polygon D} {g s N Q}, IsConvexPolygon P → P.splitInfo g = some s → s.ranges.emitNeg = true →
      s.ranges.emitPos = true → P.splitChildren ops s = some (N, Q) → IsConvexPolygon N ∧ IsConvexPolygon Q := by
    intro P g s N Q h hs he he' hc
    obtain ⟨N', Q', a, m, b, k, t, u, k2', sh, _⟩ := h.splitChildren ops g hs he he'
    obtain ⟨rfl, rfl⟩ : N = N' ∧ Q = Q' := by
      rw [hc] at k2'
      exact Prod.mk.inj (Option.some.inj k2')
    exact ⟨SplitShape.neg_isConvex h sh, SplitShape.pos_isConvex h sh⟩
  induction hs with
  | nil P T => exact ⟨h, hT⟩
  | @neg P T g s N Q TN TQ E TE h1 h2 h3 h4 h5 rest ih =>
    obtain ⟨s', e, _, e'⟩ := C31_split_info P h T hT g
    obtain rfl : s = s' := by rw [h1] at e; exact Option.some.inj e
    have hs := e' h2 h3
    exact ih (conv h hs h2 h3 h4).1 ((C31_split ops P h T hT g hs h2 h3 h4).1 _ _ h5).1
  | @pos P T g s N Q TN TQ E TE h1 h2 h3 h4 h5 rest ih =>
    obtain ⟨s', e, _, e'⟩ := C31_split_info P h T hT g
    obtain rfl : s = s' := by rw [h1] at e; exact Option.some.inj e
    have hs := e' h2 h3
    exact ih (conv h hs h2 h3 h4).2 ((C31_split ops P h T hT g hs h2 h3 h4).1 _ _ h5).2

/-! ### Where the tracker is not kept up to date -/

/-- C31 (disagreement): `Invert` reorders the vertices but `AABBConvexPolygon` does not
override it, so the stored indices no longer name the extreme vertices. -/
theorem C31_invert_false : ∃ T, Tracker.build square = some T ∧ TrackerOK square T ∧ ¬ TrackerOK square.invert T := by
  obtain ⟨T, hT⟩ := (C31_build square (by decide) square_convex.finite).2 (by decide)
  have h0 : T.hi 0 = 1 := by
    have : (Tracker.build square).map (fun T => T.hi 0) = some 1 := by decide +kernel
    rw [hT] at this; simpa using this
  refine ⟨T, hT, (C31_build square (by decide) square_convex.finite).1 T hT, fun h => ?_⟩
  have h2 := h.hiMax 0 2 (by decide +kernel)
  rw [h0] at h2
  have c : square.count = 4 := rfl
  rw [invert_pt square (by decide), invert_pt square (by decide), c] at h2
  norm_num [square_pt.2.2.1, square_pt.2.2.2] at h2

/-- C31 (disagreement): neither is `SplitEdge`, which shifts the indices of all later
vertices. -/
theorem C31_split_edge_false : ∃ T P', Tracker.build square = some T ∧
    square.splitEdge unitOps 0 ⟨⟨1, 0, 0⟩, 1⟩ = some P' ∧ ¬ TrackerOK P' T := by
  obtain ⟨T, hT⟩ := (C31_build square (by decide) square_convex.finite).2 (by decide)
  have h0 : T.hi 0 = 1 := by
    have : (Tracker.build square).map (fun T => T.hi 0) = some 1 := by decide +kernel
    rw [hT] at this; simpa using this
  refine ⟨T, _, hT, rfl, fun h => ?_⟩
  have h2 := h.hiMax 0 2 (by decide)
  rw [h0] at h2
  simp only [Polygon.pt] at h2
  norm_num [Polygon.vertexD, HP3.pt, V3.comp, square] at h2

/-- C31 (disagreement): sorting the vertices of an empty polygon takes a remainder
modulo zero. -/
theorem C31_sort_empty_undefined (T : Tracker) : T.rotateIndices 0 0 = none := rfl

/-! ### The hypotheses are met -/

example : (Tracker.build square).map (fun T => [T.lo 0, T.lo 1, T.lo 2, T.hi 0, T.hi 1, T.hi 2]) =
    some [0, 0, 0, 1, 2, 0] := by decide +kernel

/-- A split with both children, ending with an exact tracker. -/
example : ∃ T s N Q TN TQ, Tracker.build square = some T ∧ splitInfoBox square T ⟨⟨2, 0, 0⟩, 1⟩ = some s ∧
    s.ranges.emitNeg = true ∧ s.ranges.emitPos = true ∧ square.splitChildren unitOps s = some (N, Q) ∧
    T.split square.count N Q s.ranges = some (TN, TQ) ∧ TrackerOK N TN ∧ TrackerOK Q TQ := by
  obtain ⟨T, hT⟩ := (C31_build square (by decide) square_convex.finite).2 (by decide)
  have hok := (C31_build square (by decide) square_convex.finite).1 T hT
  have hside : splitInfoBox square T ⟨⟨2, 0, 0⟩, 1⟩ = square.splitInfo ⟨⟨2, 0, 0⟩, 1⟩ := by
    have h : (Tracker.build square).map (fun T => T.box.getPlaneSide ⟨⟨2, 0, 0⟩, 1⟩) = some 0 := by decide +kernel
    rw [hT] at h
    simp only [Option.map_some, Option.some.injEq] at h
    unfold splitInfoBox
    simp [h]
  obtain ⟨s, hs, -⟩ := C29_split_info square square_convex ⟨⟨2, 0, 0⟩, 1⟩
  have h1 : (square.splitInfo ⟨⟨2, 0, 0⟩, 1⟩).map (fun s => (s.ranges.emitNeg, s.ranges.emitPos)) = some (true, true) := by
    decide +kernel
  rw [hs] at h1
  simp only [Option.map_some, Option.some.injEq, Prod.mk.injEq] at h1
  obtain ⟨N, Q, a, m, b, k, t, u, hc, -⟩ := square_convex.splitChildren unitOps _ hs h1.1 h1.2
  have hw : ((square.splitInfo ⟨⟨2, 0, 0⟩, 1⟩).bind (square.splitChildren unitOps)).map (fun c =>
      (c.1.edges.all fun e => decide (e.vertex.w ≠ -1)) && (c.2.edges.all fun e => decide (e.vertex.w ≠ -1))) = some true := by
    decide +kernel
  rw [hs] at hw
  simp only [Option.bind_some, hc, Option.map_some, Option.some.injEq, Bool.and_eq_true, List.all_eq_true, decide_eq_true_eq] at hw
  have cv : ∀ (R : Polygon Unit), (∀ e ∈ R.edges, e.vertex.w ≠ -1) → ∀ i, i < R.count → (R.vertexD i).w ≠ -1 := by
    intro R h i hi
    unfold Polygon.vertexD
    rw [List.getElem?_eq_getElem (show i < R.edges.length from hi)]
    exact h _ (List.getElem_mem _)
  obtain ⟨TN, TQ, ht⟩ := (C31_split unitOps square square_convex T hok _ hs h1.1 h1.2 hc).2 (cv N hw.1) (cv Q hw.2)
  obtain ⟨o1, o2⟩ := (C31_split unitOps square square_convex T hok _ hs h1.1 h1.2 hc).1 TN TQ ht
  exact ⟨T, s, N, Q, TN, TQ, hT, hside.trans hs, h1.1, h1.2, hc, ht, o1, o2⟩

end Walnut.Props
