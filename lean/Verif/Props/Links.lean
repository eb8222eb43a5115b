/-
C76: merging polygons keeps the links between the edges of a mesh.
-/
import Verif.Poly.LinkLoop
import Verif.Props.Merge

namespace Walnut.Props
open Walnut.Geom Walnut.Poly

/-- Merging the polygons on both sides of a linked edge does not fail.  Either nothing
changes, or the polygon `p` then covers the area of both, `q` is empty and all the other
polygons cover what they covered before.  In both cases all the polygons are convex, and
each remaining edge is linked to an edge between the same points that is linked back. -/
theorem C76_merge_partial {W : World} (hL : Linked W) (hM : NoMinWorld W) (hE : EvenLines W) {dim : Fin 3} {p a q b : Nat} {ea eb : Edge Nat}
    (ga : (W.polys p).edges[a]? = some ea) (gb : (W.polys q).edges[b]? = some eb) (hab : W.partner ea.data = some eb.data)
    (hd : ea.line.d.comp dim ≠ 0) :
    ∃ r W', World.tryMergePolygon dim W p a q b = some (r, W') ∧ Linked W' ∧ EvenLines W' ∧
      (r = false → W' = W) ∧
      (r = true → p ≠ q ∧ (W'.polys p).region = (W.polys p).region ∪ (W.polys q).region ∧ (W'.polys q).edges = [] ∧
        SameDir3 (W'.polys p).plane.n (W.polys q).plane.n) ∧
      ∀ s, s ≠ p → s ≠ q → (W'.polys s).region = (W.polys s).region := by
  obtain ⟨r, W', h1, h2⟩ := polygon_merged_even hL hM hE ga gb hab hd
  exact ⟨r, W', h1, h2.linked, h2.even hE, h2.stays, fun h => ⟨h2.ne h, h2.union h, h2.gone h, by rw [h2.planes]; exact h2.same h⟩,
    h2.regions⟩

/-- The same for a list of edges perpendicular to `n`, as the visitor does it when it
leaves a node whose split plane has the normal `n`. -/
theorem C76_loop_partial {drop : Fin 3} {n : V3} (hn : n.comp drop ≠ 0) (l : List Nat) {W : World} (hL : Linked W) (hM : NoMinWorld W)
    (hE : EvenLines W) (hp : ∀ x ∈ l, ∀ p, ∀ e ∈ (W.polys p).edges, e.data = x → n.dot e.line.d = 0) :
    ∃ W', World.mergeList drop W l = some W' ∧ Linked W' ∧ EvenLines W' ∧ ∃ g, Groups W W' g := by
  obtain ⟨W', h1, h2, h3, -, h4⟩ := mergeList_merged hn l hL hM hE hp
  exact ⟨W', h1, h2, h3, h4⟩

/-- Without open edges nothing else is necessary, and there are none afterwards. -/
theorem C76_closed {drop : Fin 3} {n : V3} (hn : n.comp drop ≠ 0) (l : List Nat) {W : World} (hL : Linked W) (hM : NoMinWorld W)
    (hO : NoOpenEdge W) (hp : ∀ x ∈ l, ∀ p, ∀ e ∈ (W.polys p).edges, e.data = x → n.dot e.line.d = 0) :
    ∃ W', World.mergeList drop W l = some W' ∧ Linked W' ∧ NoOpenEdge W' ∧ ∃ g, Groups W W' g := by
  obtain ⟨W', h1, h2, -, h3, h4⟩ := mergeList_merged hn l hL hM
    (fun p q x y A B C hx hy _ => iff_of_false (hO p x A B hx) (hO q y B C hy)) hp
  exact ⟨W', h1, h2, h3 hO, h4⟩

/-! ### A box with a divided top -/

/-- The face through some points. -/
def facePolygon (label : Nat) (n : V3) (dist : Int) (drop : Fin 3) (l : List V3) : Polygon Nat where
  plane := ⟨n, dist⟩
  drop := drop
  edges := (l.zip (l.rotate 1)).mapIdx fun i (p, q) => ⟨⟨p, 1⟩, ⟨q.sub p, p.cross q⟩, label + i⟩

/-- The faces of [0,2]×[0,1]×[0,1]; the top consists of two squares. -/
def boxFaces : List (Polygon Nat) :=
  [facePolygon 0 ⟨0, 0, 1⟩ 1 2 [⟨0, 0, 1⟩, ⟨1, 0, 1⟩, ⟨1, 1, 1⟩, ⟨0, 1, 1⟩],
   facePolygon 10 ⟨0, 0, 1⟩ 1 2 [⟨1, 0, 1⟩, ⟨2, 0, 1⟩, ⟨2, 1, 1⟩, ⟨1, 1, 1⟩],
   facePolygon 20 ⟨0, -1, 0⟩ 0 1 [⟨0, 0, 0⟩, ⟨2, 0, 0⟩, ⟨2, 0, 1⟩, ⟨1, 0, 1⟩, ⟨0, 0, 1⟩],
   facePolygon 30 ⟨0, 1, 0⟩ 1 1 [⟨0, 1, 0⟩, ⟨0, 1, 1⟩, ⟨1, 1, 1⟩, ⟨2, 1, 1⟩, ⟨2, 1, 0⟩],
   facePolygon 40 ⟨-1, 0, 0⟩ 0 0 [⟨0, 0, 0⟩, ⟨0, 0, 1⟩, ⟨0, 1, 1⟩, ⟨0, 1, 0⟩],
   facePolygon 50 ⟨1, 0, 0⟩ 2 0 [⟨2, 0, 0⟩, ⟨2, 1, 0⟩, ⟨2, 1, 1⟩, ⟨2, 0, 1⟩],
   facePolygon 60 ⟨0, 0, -1⟩ 0 2 [⟨0, 0, 0⟩, ⟨0, 1, 0⟩, ⟨2, 1, 0⟩, ⟨2, 0, 0⟩]]

/-- Faces with the given links between their edges. -/
def worldOf (faces : List (Polygon Nat)) (links : List (Nat × Nat)) : World where
  polys := fun p => faces.getD p ⟨⟨⟨0, 0, 1⟩, 0⟩, 2, []⟩
  partner := fun x => ((links ++ links.map fun y => (y.2, y.1)).find? fun y => y.1 == x).map (·.2)
  owner := fun x => x / 10

def boxLinks : List (Nat × Nat) :=
  [(1, 13), (0, 23), (10, 22), (2, 31), (12, 32), (3, 41), (11, 52), (20, 63), (21, 53), (24, 40), (30, 42), (33, 51), (34, 61), (43, 60), (50, 62)]

def boxWorld : World := worldOf boxFaces boxLinks

/-- `Linked` for finitely many faces, decidable. -/
def linkCheck (faces : List (Polygon Nat)) (links : List (Nat × Nat)) : Bool :=
  decide (∀ p, p < faces.length →
    convexCheck ((worldOf faces links).polys p) = true ∧ ((halfEdges ((worldOf faces links).polys p).edges).map Prod.fst).Nodup ∧
    ∀ h ∈ halfEdges ((worldOf faces links).polys p).edges, (worldOf faces links).owner h.1 = p ∧
      ∀ y ∈ (worldOf faces links).partner h.1, (y, h.2.2, h.2.1) ∈ halfEdges ((worldOf faces links).polys ((worldOf faces links).owner y)).edges ∧
        (worldOf faces links).partner y = some h.1)

theorem worldOf_empty {faces : List (Polygon Nat)} {links : List (Nat × Nat)} {p : Nat} (h : ¬ p < faces.length) :
    ((worldOf faces links).polys p).edges = [] := by
  unfold worldOf
  dsimp only
  rw [List.getD_eq_getElem?_getD, List.getElem?_eq_none (by omega)]
  rfl

theorem linked_of_check {faces : List (Polygon Nat)} {links : List (Nat × Nat)} (h : linkCheck faces links = true) :
    Linked (worldOf faces links) := by
  have h := of_decide_eq_true h
  refine ⟨fun p => ?_, fun p => ?_, fun p x A B hx => ?_, fun p x A B y hx hy => ?_⟩
  · by_cases c : p < faces.length
    · exact Or.inr (convex_of_check (h p c).1)
    · exact Or.inl (worldOf_empty c)
  · by_cases c : p < faces.length
    · exact (h p c).2.1
    · rw [worldOf_empty c]; exact List.nodup_nil
  · by_cases c : p < faces.length
    · exact ((h p c).2.2 _ hx).1
    · rw [worldOf_empty c] at hx; exact absurd hx List.not_mem_nil
  · by_cases c : p < faces.length
    · exact ((h p c).2.2 _ hx).2 y hy
    · rw [worldOf_empty c] at hx; exact absurd hx List.not_mem_nil

theorem boxWorld_linked : Linked boxWorld := linked_of_check (by decide +kernel)

theorem boxWorld_closed : NoOpenEdge boxWorld := by
  intro p x A B hx
  by_cases c : p < boxFaces.length
  · have : ∀ p, p < boxFaces.length → ∀ h ∈ halfEdges (boxWorld.polys p).edges, boxWorld.partner h.1 ≠ none := by decide +kernel
    exact this p c _ hx
  · unfold boxWorld at hx
    rw [worldOf_empty c] at hx; exact absurd hx List.not_mem_nil

theorem boxWorld_small : NoMinWorld boxWorld := by
  intro p
  by_cases c : p < boxFaces.length
  · have : ∀ p, p < boxFaces.length → NoMin3 (boxWorld.polys p).plane.n ∧ ∀ e ∈ (boxWorld.polys p).edges, NoMin3 e.line.d := by
      unfold NoMin3; decide +kernel
    exact this p c
  · have : boxWorld.polys p = ⟨⟨⟨0, 0, 1⟩, 0⟩, 2, []⟩ := by
      unfold boxWorld worldOf
      dsimp only
      rw [List.getD_eq_getElem?_getD, List.getElem?_eq_none (by omega)]
      rfl
    rw [this]
    exact ⟨by unfold NoMin3; decide, by simp⟩

/-- The box meets the hypotheses of `C76_closed`, for the edge between the two squares. -/
example : ∃ W', World.mergeList 0 boxWorld [1, 13] = some W' ∧ Linked W' ∧ NoOpenEdge W' ∧ ∃ g, Groups boxWorld W' g := by
  refine C76_closed (n := ⟨1, 0, 0⟩) (by decide) _ boxWorld_linked boxWorld_small boxWorld_closed ?_
  intro x hx p e he hex
  by_cases c : p < boxFaces.length
  · have : ∀ x ∈ [1, 13], ∀ p, p < boxFaces.length → ∀ e ∈ (boxWorld.polys p).edges, e.data = x → (⟨1, 0, 0⟩ : V3).dot e.line.d = 0 := by
      decide +kernel
    exact this x hx p c e he hex
  · unfold boxWorld at he
    rw [worldOf_empty c] at he; exact absurd he List.not_mem_nil

/-- The top becomes one rectangle, and the vertices at the ends of the common edge
disappear from the front and from the back too. -/
example : (World.mergeList 0 boxWorld [1, 13]).map (fun W => (List.range 4).map fun p =>
      (W.polys p).edges.map fun e => (e.data, e.vertex.v, W.partner e.data)) =
    some [[(0, ⟨0, 0, 1⟩, some 22), (11, ⟨2, 0, 1⟩, some 52), (12, ⟨2, 1, 1⟩, some 31), (3, ⟨0, 1, 1⟩, some 41)], [],
      [(20, ⟨0, 0, 0⟩, some 63), (21, ⟨2, 0, 0⟩, some 53), (22, ⟨2, 0, 1⟩, some 0), (24, ⟨0, 0, 1⟩, some 40)],
      [(30, ⟨0, 1, 0⟩, some 42), (31, ⟨0, 1, 1⟩, some 12), (33, ⟨2, 1, 1⟩, some 51), (34, ⟨2, 1, 0⟩, some 61)]] := by
  decide +kernel

/-! ### Open meshes -/

/-- Two squares side by side above another polygon. -/
def openFaces : List (Polygon Nat) :=
  [facePolygon 0 ⟨0, 0, 1⟩ 0 2 [⟨0, 0, 0⟩, ⟨1, 0, 0⟩, ⟨1, 1, 0⟩, ⟨0, 1, 0⟩],
   facePolygon 10 ⟨0, 0, 1⟩ 0 2 [⟨1, 0, 0⟩, ⟨2, 0, 0⟩, ⟨2, 1, 0⟩, ⟨1, 1, 0⟩],
   facePolygon 20 ⟨0, 0, 1⟩ 0 2 [⟨0, 0, 0⟩, ⟨0, -1, 0⟩, ⟨2, -1, 0⟩, ⟨2, 0, 0⟩, ⟨1, 0, 0⟩]]

/-- The two squares, linked along their common edge only, meet the hypotheses of
`C76_merge_partial`. -/
example : ∃ r W', World.tryMergePolygon 1 (worldOf openFaces [(1, 13)]) 0 1 1 3 = some (r, W') ∧ Linked W' ∧ r = true := by
  have hE : EvenLines (worldOf openFaces [(1, 13)]) := by
    intro p q x y A B C hx hy hb
    by_cases cp : p < openFaces.length
    · by_cases cq : q < openFaces.length
      · have : ∀ p, p < openFaces.length → ∀ q, q < openFaces.length → ∀ h ∈ halfEdges ((worldOf openFaces [(1, 13)]).polys p).edges,
            ∀ k ∈ halfEdges ((worldOf openFaces [(1, 13)]).polys q).edges, h.2.2 = k.2.1 →
            (∀ i j, (k.2.2 i - h.2.2 i) * (h.2.2 j - h.2.1 j) = (k.2.2 j - h.2.2 j) * (h.2.2 i - h.2.1 i)) →
            ((worldOf openFaces [(1, 13)]).partner h.1).isNone = ((worldOf openFaces [(1, 13)]).partner k.1).isNone := by
          set_option synthInstance.maxSize 1000 in
          set_option synthInstance.maxHeartbeats 200000 in
          decide +kernel
        rw [← Option.isNone_iff_eq_none, ← Option.isNone_iff_eq_none]
        refine Bool.eq_iff_iff.1 (this p cp q cq _ hx _ hy rfl fun i j => ?_)
        obtain ⟨μ, -, hm⟩ := hb
        dsimp only
        rw [hm i, hm j]
        ring
      · rw [worldOf_empty cq] at hy; exact absurd hy List.not_mem_nil
    · rw [worldOf_empty cp] at hx; exact absurd hx List.not_mem_nil
  have hM : NoMinWorld (worldOf openFaces [(1, 13)]) := by
    intro p
    by_cases c : p < openFaces.length
    · have : ∀ p, p < openFaces.length → NoMin3 ((worldOf openFaces [(1, 13)]).polys p).plane.n ∧
          ∀ e ∈ ((worldOf openFaces [(1, 13)]).polys p).edges, NoMin3 e.line.d := by
        unfold NoMin3; decide +kernel
      exact this p c
    · have : (worldOf openFaces [(1, 13)]).polys p = ⟨⟨⟨0, 0, 1⟩, 0⟩, 2, []⟩ := by
        unfold worldOf
        dsimp only
        rw [List.getD_eq_getElem?_getD, List.getElem?_eq_none (by omega)]
        rfl
      rw [this]
      exact ⟨by unfold NoMin3; decide, by simp⟩
  obtain ⟨r, W', h1, h2, -⟩ := C76_merge_partial (W := worldOf openFaces [(1, 13)]) (dim := 1) (p := 0) (a := 1) (q := 1) (b := 3)
    (linked_of_check (by decide +kernel)) hM hE rfl rfl (by decide) (by decide)
  refine ⟨r, W', h1, h2, ?_⟩
  have key : (World.tryMergePolygon 1 (worldOf openFaces [(1, 13)]) 0 1 1 3).map Prod.fst = some true := by decide +kernel
  rw [h1] at key
  exact Option.some.inj key

/-- Where only the second of two edges of the union that lie on one line has a partner,
merging dereferences a null pointer. -/
theorem C76_null_undefined : Linked (worldOf openFaces [(1, 13), (10, 23)]) ∧
    World.tryMergePolygon 1 (worldOf openFaces [(1, 13), (10, 23)]) 0 1 1 3 = none :=
  ⟨linked_of_check (by decide +kernel), by decide +kernel⟩

/-- Where only the first one has a partner, that partner is linked to an edge of another
length afterwards. -/
theorem C76_stale_false : Linked (worldOf openFaces [(1, 13), (0, 24)]) ∧
    ∃ W', World.tryMergePolygon 1 (worldOf openFaces [(1, 13), (0, 24)]) 0 1 1 3 = some (true, W') ∧ ¬ Linked W' := by
  refine ⟨linked_of_check (by decide +kernel), ?_⟩
  have key : (World.tryMergePolygon 1 (worldOf openFaces [(1, 13), (0, 24)]) 0 1 1 3).map (fun r =>
      (r.1, r.2.partner 24, r.2.owner 0, decide ((24, (fun i : Fin 3 => if i = 0 then 1 else 0 : Q3), (fun _ => 0 : Q3)) ∈ halfEdges (r.2.polys 2).edges),
        decide ((0, (fun _ => 0 : Q3), (fun i : Fin 3 => if i = 0 then 1 else 0 : Q3)) ∈ halfEdges (r.2.polys 0).edges))) =
      some (true, some 0, 0, true, false) := by decide +kernel
  cases h : World.tryMergePolygon 1 (worldOf openFaces [(1, 13), (0, 24)]) 0 1 1 3 with
  | none => rw [h] at key; cases key
  | some r =>
    rw [h] at key
    simp only [Option.map_some, Option.some.injEq, Prod.mk.injEq] at key
    obtain ⟨k1, k2, k3, k4, k5⟩ := key
    obtain ⟨b, W'⟩ := r
    dsimp only at *
    subst k1
    refine ⟨W', rfl, fun hL => ?_⟩
    have := (hL.twin 2 _ _ _ _ (of_decide_eq_true k4) k2).1
    rw [k3] at this
    exact of_decide_eq_false k5 this

end Walnut.Props
