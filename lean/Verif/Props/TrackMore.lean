/-
Property C31, continued: the extreme vertices and the bounding box after merging
polygons, and what is left of them after `SplitEdge` and `Invert`.
-/
import Verif.Props.Track
import Verif.Props.Merge
import Verif.Poly.TrackMerge
import Verif.Conn.MeshShape

namespace Walnut.Props
open Walnut.Geom Walnut.Poly

variable {D : Type}

/-- C31: merging two polygons: the kept polygon has exact indices and an exact box,
whether or not the polygons were merged.  The result is defined whenever merging the
polygons is, unless a vertex of the result has a denominator of -1. -/
theorem C31_merge (ops : MergeOps D) (dim : Fin 3) {P Q : Polygon D} {T : Tracker} {a b : Nat} (hP : IsConvexPolygon P)
    (hQ : IsConvexPolygon Q) (hT : TrackerOK P T) :
    (∀ r R TR S, tryMergeTracked ops dim P T a Q b = some (r, R, TR, S) →
      tryMergePolygon ops dim P a Q b = some (r, R, S) ∧ IsConvexPolygon R ∧ TrackerOK R TR) ∧
    (∀ r R S, tryMergePolygon ops dim P a Q b = some (r, R, S) → (∀ i, i < R.count → (R.vertexD i).w ≠ -1) →
      ∃ TR, tryMergeTracked ops dim P T a Q b = some (r, R, TR, S)) := by
  refine ⟨fun r R TR S h => ?_, fun r R S h hw => ?_⟩
  · unfold tryMergeTracked at h
    split at h
    · cases h
    · rename_i R' S' hm
      obtain ⟨rfl, rfl, rfl, rfl⟩ : false = r ∧ R' = R ∧ T = TR ∧ S' = S := by simpa using h
      obtain ⟨_, _, _, _, _, _, _, _, _, _, _, _, _, h2, _⟩ := C57 hP hQ hm
      obtain ⟨rfl, -⟩ := h2 rfl
      exact ⟨hm, hP, hT⟩
    · rename_i R' S' hm
      obtain ⟨T', hT', e⟩ := Option.map_eq_some_iff.1 h
      obtain ⟨rfl, rfl, rfl, rfl⟩ : true = r ∧ R' = R ∧ T' = TR ∧ S' = S := by simpa using e
      obtain ⟨_, _, _, _, _, _, _, _, _, _, _, _, _, _, h3⟩ := C57 hP hQ hm
      obtain ⟨_, _, _, hR, _⟩ := h3 rfl
      exact ⟨hm, hR, (C31_build R' hR.count_pos hR.finite).1 _ hT'⟩
  · unfold tryMergeTracked
    rw [h]
    cases r with
    | false => exact ⟨T, rfl⟩
    | true =>
      obtain ⟨_, _, _, _, _, _, _, _, _, _, _, _, _, _, h3⟩ := C57 hP hQ h
      obtain ⟨_, _, _, hR, _⟩ := h3 rfl
      obtain ⟨T', hT'⟩ := (C31_build R hR.count_pos hR.finite).2 hw
      exact ⟨T', by dsimp only; rw [hT']; rfl⟩

/-- Any sequence of splits, rotations and merges with other convex polygons, applied to
a polygon with its tracker. -/
inductive TrackedHistory (ops : EdgeOps D) (mops : MergeOps D) : Polygon D → Tracker → Polygon D → Tracker → Prop
  | nil (P T) : TrackedHistory ops mops P T P T
  | split {P T P' T' E TE} (h : TrackedSteps ops P T P' T') (rest : TrackedHistory ops mops P' T' E TE) : TrackedHistory ops mops P T E TE
  | rotate {P T k T' E TE} (hk : k < P.count) (h : T.rotateIndices k P.count = some T')
      (rest : TrackedHistory ops mops (P.rotateEdges k) T' E TE) : TrackedHistory ops mops P T E TE
  | merge {P T dim a Q b r R TR S E TE} (hQ : IsConvexPolygon Q) (h : tryMergeTracked mops dim P T a Q b = some (r, R, TR, S))
      (rest : TrackedHistory ops mops R TR E TE) : TrackedHistory ops mops P T E TE

/-- C31 along any history of splits, rotations and merges: the polygon stays convex, the
indices name extreme vertices and the box contains every point of the polygon. -/
theorem C31_history (ops : EdgeOps D) (mops : MergeOps D) {P E : Polygon D} {T TE : Tracker} (hs : TrackedHistory ops mops P T E TE)
    (h : IsConvexPolygon P) (hT : TrackerOK P T) : IsConvexPolygon E ∧ TrackerOK E TE ∧ ∀ q ∈ E.region, InBox TE.box q := by
  induction hs with
  | nil P T => exact ⟨h, hT, (C31_contains P T h.finite hT).2⟩
  | split hs rest ih =>
    obtain ⟨h1, h2⟩ := C31_repeated ops hs h hT
    exact ih h1 h2
  | rotate hk hr rest ih =>
    obtain ⟨T', e, ok, -⟩ := C31_rotate _ _ hT hk
    rw [hr] at e
    cases Option.some.inj e
    refine ih ?_ ok
    exact (h.isRotated (l := (Polygon.rotateEdges _ _).edges) (by
      unfold Polygon.rotateEdges
      exact ⟨_, List.rotate_eq_drop_append_take hk.le⟩)).1
  | merge hQ hm rest ih =>
    obtain ⟨-, h1, h2⟩ := (C31_merge mops _ h hQ hT).1 _ _ _ _ hm
    exact ih h1 h2

/-! ### `SplitEdge` and `Invert`

The indices are not kept (`C31_split_edge_false`, `C31_invert_false`), the box is. -/

/-- C31: splitting an edge gives a convex polygon with the same points, so that the old
box still contains them.  Missing: the indices (`C31_split_edge_false`). -/
theorem C31_split_edge_partial (ops : EdgeOps D) {P P' : Polygon D} {i : Nat} {mid : HP3} (h : IsConvexPolygon P) (hw : mid.w ≠ 0)
    (hs : P.splitEdge ops i mid = some P') :
    IsConvexPolygon P' ∧ P'.count = P.count + 1 ∧ P'.region = P.region ∧
      ∀ T, TrackerOK P T → ∀ q ∈ P'.region, InBox T.box q := by
  unfold Polygon.splitEdge at hs
  split at hs
  swap
  · cases hs
  rename_i e f he hf
  split_ifs at hs with hc
  have hs := (Option.some.inj hs).symm
  have n3 := h.three
  have hi : i < P.edges.length := (List.getElem?_eq_some_iff.1 he).1
  have hei : P.edges[i] = e := (List.getElem?_eq_some_iff.1 he).2
  -- the polygon that starts with the edge
  have hrot : P.edges ~r e :: (P.edges.drop (i + 1) ++ P.edges.take i) := by
    refine ⟨i, ?_⟩
    rw [List.rotate_eq_drop_append_take hi.le, List.drop_eq_getElem_cons hi, hei]
    rfl
  have hrot' : P'.edges ~r e :: ⟨mid, e.line, ops.atVertex e.data mid⟩ :: (P.edges.drop (i + 1) ++ P.edges.take i) := by
    refine ⟨i, ?_⟩
    have ht : P.edges.take (i + 1) = P.edges.take i ++ [e] := by rw [List.take_succ_eq_append_getElem hi]; rw [hei]
    have hl : (P.edges.take i).length = i := List.length_take_of_le hi.le
    rw [hs]
    dsimp only
    rw [ht, List.append_assoc]
    conv_lhs => arg 2; rw [← hl]
    rw [List.rotate_append_length_eq]
    simp
  obtain ⟨c1, g1⟩ := h.isRotated hrot
  have hp0 : P.pt i = e.vertex.pt := (pt_get he).1
  have hp1 : P.pt ((i + 1) % P.count) = f.vertex.pt := (pt_get hf).1
  have hline := h.line i hi
  have hli : P.lineD i = e.line := by unfold Polygon.lineD; rw [he]
  rw [hli, hp0, hp1] at hline
  have hne : e.vertex.pt ≠ f.vertex.pt := by
    rw [← hp0, ← hp1]
    have hi' : i < P.count := hi
    by_cases hl : i + 1 < P.count
    · rw [Nat.mod_eq_of_lt hl]; exact h.distinct i (i + 1) (by omega) hl
    · have : i + 1 = P.count := by omega
      rw [this, Nat.mod_self]
      exact (h.distinct 0 i (by omega) hi').symm
  have w1 : e.vertex.w ≠ 0 := by
    have := h.finite i hi
    unfold Polygon.vertexD at this; rw [he] at this; exact this
  have w2 : f.vertex.w ≠ 0 := by
    have := h.finite _ (Nat.mod_lt (i + 1) (show 0 < P.count by omega))
    unfold Polygon.vertexD at this; rw [hf] at this; exact this
  -- the new vertex is between the ends of the edge
  let N : Conn.Net := ⟨2, fun k => if k = 0 then e.vertex else f.vertex, fun _ => e.line, fun _ => 0, fun _ => none, fun _ => [0, 1], fun _ => ⟨0, 0, 0⟩⟩
  have ht : N.target 0 = f.vertex := rfl
  obtain ⟨s, s0, s1, hm⟩ := Conn.splitOk_between (N := N) (e := 0) (mid := mid) hline hne w1 w2 hw hc
  rw [ht] at hm
  have hR0 : Polygon.pt { P with edges := e :: (P.edges.drop (i + 1) ++ P.edges.take i) } 0 = e.vertex.pt := (pt_get (e := e) rfl).1
  have hR1 : Polygon.pt { P with edges := e :: (P.edges.drop (i + 1) ++ P.edges.take i) } 1 = f.vertex.pt := by
    refine (pt_get (e := f) ?_).1
    rw [← hf]
    change (P.edges.drop (i + 1) ++ P.edges.take i)[0]? = _
    by_cases hl : i + 1 < P.edges.length
    · rw [List.getElem?_append_left (by simp; omega), List.getElem?_drop, Nat.mod_eq_of_lt (show i + 1 < P.count from hl)]
    · have e1 : i + 1 = P.count := by unfold Polygon.count; omega
      have n3' : 3 ≤ P.edges.length := n3
      rw [List.drop_eq_nil_of_le (by omega), e1, Nat.mod_self, List.nil_append, List.getElem?_take_of_lt (by omega)]
  obtain ⟨c2, g2⟩ := c1.insert_first (m := ⟨mid, e.line, ops.atVertex e.data mid⟩) rfl rfl hw s0 s1 (by rw [hR0, hR1]; exact hm)
  obtain ⟨c3, g3⟩ := c2.isRotated (l := P'.edges) hrot'.symm
  have hP' : ({ P with edges := P'.edges } : Polygon D) = P' := by rw [hs]
  have hreg : P'.region = P.region := by
    rw [← hP']
    exact g3.trans (g2.trans g1)
  refine ⟨by rw [← hP']; exact c3, ?_, hreg, fun T hT q hq => (C31_contains P T h.finite hT).2 q (hreg ▸ hq)⟩
  have := hrot'.perm.length_eq
  have h2 := hrot.perm.length_eq
  unfold Polygon.count
  rw [this, h2]
  rfl

/-- C31: the old box still contains the inverted polygon.  Missing: the indices
(`C31_invert_false`). -/
theorem C31_invert_partial {P : Polygon D} (h : IsConvexPolygon P) {T : Tracker} (hT : TrackerOK P T) :
    IsConvexPolygon P.invert ∧ ∀ q ∈ P.invert.region, InBox T.box q :=
  ⟨h.invert, fun q hq => (C31_contains P T h.finite hT).2 q (invert_region P ▸ hq)⟩

/-- Splitting the inverted square with the tracker of the square. -/
def splitInverted (g : HS3) : Option (Polygon Unit × Tracker × Polygon Unit × Tracker) := do
  let T ← Tracker.build square
  let s ← splitInfoBox square.invert T g
  let (N, Q) ← square.invert.splitChildren unitOps s
  let (TN, TQ) ← T.split square.invert.count N Q s.ranges
  some (N, TN, Q, TQ)

/-- C31 (disagreement): a wrong box after `Invert`.  The inverted square [0,2]² is split
by x = 1/2.  The box of the child with 1/2 ≤ x ≤ 2 does not contain its vertex (2,2).  If
this child is then compared with the plane x = 1, all its vertices are claimed to be on
the negative side. -/
theorem C31_invert_split_false : ∃ N TN Q TQ s, splitInverted ⟨⟨2, 0, 0⟩, 1⟩ = some (N, TN, Q, TQ) ∧
    1 < Q.count ∧ Q.pt 1 = ![2, 2, 0] ∧ ¬ InBox TQ.box (Q.pt 1) ∧
    splitInfoBox Q TQ ⟨⟨1, 0, 0⟩, 1⟩ = some s ∧ s.ranges.emitPos = false ∧ 0 < (⟨⟨1, 0, 0⟩, 1⟩ : HS3).side (Q.pt 1) := by
  have h : (splitInverted ⟨⟨2, 0, 0⟩, 1⟩).map (fun r => (r.2.2.1.count, r.2.2.1.vertexD 1, r.2.2.2.box.hi.x, r.2.2.2.box.den,
      (splitInfoBox r.2.2.1 r.2.2.2 ⟨⟨1, 0, 0⟩, 1⟩).map fun s => s.ranges.emitPos)) =
      some (4, ⟨⟨4, 4, 0⟩, 2⟩, 2, 4, some false) := by decide +kernel
  obtain ⟨⟨N, TN, Q, TQ⟩, h1, h2⟩ := Option.map_eq_some_iff.1 h
  simp only [Prod.mk.injEq] at h2
  obtain ⟨e1, e2, e3, e4, e5⟩ := h2
  obtain ⟨s, e6, e7⟩ := Option.map_eq_some_iff.1 e5
  have hp : Q.pt 1 = ![2, 2, 0] := by
    unfold Polygon.pt
    rw [e2]
    apply q3_ext <;> norm_num [HP3.pt, V3.comp, Matrix.cons_val_two]
  refine ⟨N, TN, Q, TQ, s, h1, by omega, hp, fun hb => ?_, e6, e7, ?_⟩
  · have := (hb 0).2
    rw [hp, e4] at this
    have e3' : TQ.box.hi.comp 0 = 2 := e3
    rw [e3'] at this
    norm_num at this
  · rw [hp]
    norm_num [HS3.side, dotQ, V3.q, V3.comp]

/-! ### The hypotheses are met -/

/-- The two squares are merged; the new tracker's indices are those of the rectangle. -/
example : ((Tracker.build leftSquare).bind fun T => tryMergeTracked addOps 1 leftSquare T 1 rightSquare 3).map
    (fun r => (r.1, r.2.1.count, [r.2.2.1.lo 0, r.2.2.1.lo 1, r.2.2.1.hi 0, r.2.2.1.hi 1], r.2.2.1.box.hi)) =
    some (true, 4, [0, 0, 1, 2], ⟨2, 1, 0⟩) := by decide +kernel

example : ∃ P', square.splitEdge unitOps 0 ⟨⟨1, 0, 0⟩, 1⟩ = some P' ∧ IsConvexPolygon P' ∧ P'.region = square.region := by
  refine ⟨_, rfl, ?_⟩
  obtain ⟨h1, -, h2, -⟩ := C31_split_edge_partial unitOps (i := 0) (mid := ⟨⟨1, 0, 0⟩, 1⟩) square_convex (by decide) rfl
  exact ⟨h1, h2⟩

end Walnut.Props
