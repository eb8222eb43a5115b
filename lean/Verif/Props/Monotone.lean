/-
C48 (triangulation of monotone polygons) and C49 (decomposition into convex pieces).

The statements are about `triangulate` and `decompose`, the models of `Build` of
`MonotoneTriangulator` and `MonotoneDecomposer`.  The polygon of a call is the closed
polyline `top` reversed followed by `bottom`.  `Tame` says that the vertices have positive
denominators and that no cross product of them has more than 2^63 words.
-/
import Verif.Mono.DefinedProof
import Verif.Mono.StrictProof

namespace Walnut.Props
open Walnut.Geom Walnut.Mono

theorem infix_pair {α : Type} (u v : α) (l : List α) : [u, v] <:+: l ↔ (u, v) ∈ l.zip l.tail := by
  induction l with
  | nil => simp
  | cons a r ih =>
    rw [List.infix_cons_iff, ih]
    cases r with
    | nil => simp
    | cons b r => simp [List.cons_prefix_cons]

/-- The polygon of a call of `Build`. -/
abbrev polygon (top bottom : List HP3) : List Q3 := (top.reverse ++ bottom).map (·.pt)

/-- The vertices of a triangle in the order of the arguments of `EmitTriangle`. -/
abbrev corners (t : Tri) : List Q3 := [t.p1.pt, t.p2.pt, t.p3.pt]

/-- C48: for any two chains, if `Build` returns, it has emitted `n - 2` triangles on the
input vertices, whose boundaries add up to the boundary of the polygon: the sum of any
antisymmetric quantity agrees.  No stack is left over. -/
theorem C48_triangles (drop mono : Fin 3) (stack0 top bottom : List HP3) (out : List Tri) (stack : List HP3)
    (h : triangulate drop mono stack0 top bottom = some (out, stack)) :
    out.length + 2 = top.length + bottom.length ∧
    (∀ t ∈ out, ∀ v ∈ [t.p1, t.p2, t.p3], v ∈ top ++ bottom) ∧
    (∀ f, Antisymmetric f → (out.map fun t => loopSum f (corners t)).sum = loopSum f (polygon top bottom)) ∧
    stack = [] := by
  obtain ⟨h1, h2⟩ := triangulate_tiles h
  refine ⟨?_, ?_, ?_, h1⟩
  · have := h2.count; simp at this; omega
  · intro t ht v hv
    obtain ⟨a, b, c⟩ := h2.verts t ht
    simp at hv a b c ⊢
    rcases hv with rfl | rfl | rfl <;> assumption
  · intro f hf
    rw [polygon, loopSum_map, h2.sum _ (fun a b => hf a.pt b.pt), triSum]
    congr 1
    apply List.map_congr_left
    intro t _
    simp [corners, loopSum, pathSum, Tri.sum]; ring

theorem areaForm_antisymmetric (drop : Fin 3) : Antisymmetric (areaForm drop) := by
  intro a b; simp only [areaForm]; ring

/-- C48: in particular the signed areas add up. -/
theorem C48_area (drop mono : Fin 3) (stack0 top bottom : List HP3) (out : List Tri) (stack : List HP3)
    (h : triangulate drop mono stack0 top bottom = some (out, stack)) (proj : Fin 3) :
    (out.map fun t => area2 proj (corners t)).sum = area2 proj (polygon top bottom) :=
  (C48_triangles drop mono stack0 top bottom out stack h).2.2.1 _ (areaForm_antisymmetric proj)

/-- C48: `Build` returns, ready for another call, if the minimum is in the top chain, the
last vertex of the bottom chain is a maximum and there are at least three vertices. -/
theorem C48_defined (drop mono : Fin 3) (top bottom : List HP3) (z : HP3) (htop : top ≠ [])
    (hz : bottom.getLast? = some z) (h3 : 3 ≤ top.length + bottom.length)
    (hw : ∀ v ∈ top ++ bottom, v.w ≠ 0) (hmax : ∀ t ∈ top, t.pt mono ≤ z.pt mono) :
    ∃ out, triangulate drop mono [] top bottom = some (out, []) := by
  refine triangulate_defined drop mono top bottom z htop hz h3 ?_
  intro t ht hc
  have hzm : z ∈ bottom := List.mem_of_getLast? hz
  have := (Props.C16_compare_component z t mono (hw z (by simp [hzm])) (hw t (by simp [ht]))).1.1 hc
  linarith [hmax t ht]

theorem pairwise_pt {R : Q3 → Q3 → Prop} {l : List HP3} (h : (l.map (·.pt)).Pairwise R) :
    l.Pairwise fun a b => R a.pt b.pt := by
  rw [List.pairwise_map] at h; exact h

theorem input_of {drop mono : Fin 3} {t0 z : HP3} {top bottom : List HP3}
    (hne : mono ≠ drop) (hT : Tame drop (t0 :: top ++ bottom)) (hz : bottom.getLast? = some z)
    (hup : Ascending mono ((t0 :: top ++ [z]).map (·.pt))) (hlow : Ascending mono ((t0 :: bottom).map (·.pt)))
    (hn : NonCrossing drop mono ((t0 :: top ++ [z]).map (·.pt)) ((t0 :: bottom).map (·.pt))) :
    Input drop mono (t0 :: top ++ [z]) (t0 :: bottom) := by
  have hzm : z ∈ bottom := List.mem_of_getLast? hz
  refine ⟨hne, hT.mono ?_, ?_, ?_, ?_, ?_⟩
  · intro v hv
    simp at hv ⊢
    rcases hv with rfl | h | rfl | rfl | h
    · exact Or.inl rfl
    · exact Or.inr (Or.inl h)
    · exact Or.inr (Or.inr hzm)
    · exact Or.inl rfl
    · exact Or.inr (Or.inr h)
  · exact pairwise_pt hup
  · exact pairwise_pt hlow
  · intro u v huv w hw h1 h2
    exact hn.below u.pt v.pt (by simpa using huv.map (fun x : HP3 => x.pt)) w.pt (List.mem_map_of_mem hw) h1 h2
  · intro u v huv w hw h1 h2
    exact hn.above u.pt v.pt (by simpa using huv.map (fun x : HP3 => x.pt)) w.pt (List.mem_map_of_mem hw) h1 h2

/-- C48: the triangles of a monotone polygon whose chains do not cross are emitted
counter-clockwise, as documented.  (With `C48_area`: their areas are nonnegative and add up
to the area of the polygon.) -/
theorem C48_counter_clockwise (drop mono : Fin 3) (t0 z : HP3) (top bottom : List HP3) (out : List Tri)
    (stack : List HP3) (hne : mono ≠ drop) (hT : Tame drop (t0 :: top ++ bottom)) (hz : bottom.getLast? = some z)
    (hup : Ascending mono ((t0 :: top ++ [z]).map (·.pt))) (hlow : Ascending mono ((t0 :: bottom).map (·.pt)))
    (hn : NonCrossing drop mono ((t0 :: top ++ [z]).map (·.pt)) ((t0 :: bottom).map (·.pt)))
    (h : triangulate drop mono [] (t0 :: top) bottom = some (out, stack)) :
    ∀ t ∈ out, 0 ≤ area2 drop (corners t) := by
  intro t ht
  have := triangulate_ccw (input_of hne hT hz hup hlow hn) hz h t ht
  have e : area2 drop (corners t) = -T drop t.p2 t.p1 t.p3 := by
    simp only [area2, loopSum, pathSum, areaForm, turnAt, List.cons_append, List.nil_append]; ring
  have h5 : T drop t.p2 t.p1 t.p3 ≤ 0 := this
  rw [e]; linarith

/-- C49, the part about the areas: the boundaries of the pieces add up to the boundary of the
polygon, and the vertices of the pieces are vertices of the polygon. -/
theorem C49_boundary (drop mono : Fin 3) (top bottom : List HP3) (hT : Tame drop (top ++ bottom)) (out : List Piece)
    (h : decompose drop mono top bottom = some out) :
    (∀ f, Antisymmetric f →
      (out.map fun p => loopSum f (p.verts.map (·.pt))).sum = loopSum f (polygon top bottom)) ∧
    ∀ p ∈ out, ∀ v ∈ p.verts, v ∈ top ++ bottom := by
  obtain ⟨h1, h2⟩ := decompose_sum hT h
  refine ⟨fun f hf => ?_, h2⟩
  rw [polygon, loopSum_map, ← h1 f hf, pieceSum]
  congr 1
  apply List.map_congr_left
  intro p _
  exact loopSum_map _ _ _

/-- C49: the signed areas add up. -/
theorem C49_area (drop mono : Fin 3) (top bottom : List HP3) (hT : Tame drop (top ++ bottom)) (out : List Piece)
    (h : decompose drop mono top bottom = some out) (proj : Fin 3) :
    (out.map fun p => area2 proj (p.verts.map (·.pt))).sum = area2 proj (polygon top bottom) :=
  (C49_boundary drop mono top bottom hT out h).1 _ (areaForm_antisymmetric proj)

/-- No two vertices coincide in the projection. -/
def Distinct (drop : Fin 3) (l : List Q3) : Prop :=
  l.Pairwise fun a b => a (drop + 1) ≠ b (drop + 1) ∨ a (drop + 2) ≠ b (drop + 2)

theorem apart_of {drop : Fin 3} {top bottom : List HP3} (h : Distinct drop (polygon top bottom)) :
    (top ++ bottom).Pairwise (Apart drop) :=
  ((List.reverse_perm top).append_right bottom).pairwise_iff (fun {x y} h => Apart.symm h) |>.1 (pairwise_pt h)

/-- C49, the part about the turns: for a monotone polygon without coinciding vertices whose
chains do not cross, each piece only turns in its declared orientation, and that is negative
(counter-clockwise) or, for a collinear piece, zero.  Missing: coinciding vertices and
crossing chains, see `C49_touch_false` and `C49_flat_false`. -/
theorem C49_turns_partial (drop mono : Fin 3) (t0 z : HP3) (top bottom : List HP3) (out : List Piece)
    (hne : mono ≠ drop) (hT : Tame drop (t0 :: top ++ bottom)) (hz : bottom.getLast? = some z)
    (hd : Distinct drop (polygon (t0 :: top) bottom))
    (hup : Ascending mono ((t0 :: top ++ [z]).map (·.pt))) (hlow : Ascending mono ((t0 :: bottom).map (·.pt)))
    (hn : NonCrossing drop mono ((t0 :: top ++ [z]).map (·.pt)) ((t0 :: bottom).map (·.pt)))
    (h : decompose drop mono (t0 :: top) bottom = some out) :
    ∀ p ∈ out, TurnsOnly drop p.orientation (p.verts.map (·.pt)) ∧ p.orientation ≤ 0 := by
  intro p hp
  have := decompose_conv (strict := false) hne hT (apart_of hd) h (by
    intro tris st ht t htm
    simpa using triangulate_ccw (input_of hne hT hz hup hlow hn) hz ht t htm) p hp
  exact ⟨this.1, this.2 rfl⟩

/-- C49, the part about the turns: the same for chains that may cross, if both strictly ascend
in the monotone dimension.  The orientation of a piece can then be positive. -/
theorem C49_turns_strict_partial (drop mono : Fin 3) (t0 z : HP3) (top bottom : List HP3) (out : List Piece)
    (hne : mono ≠ drop) (hT : Tame drop (t0 :: top ++ bottom)) (hz : bottom.getLast? = some z)
    (hd : Distinct drop (polygon (t0 :: top) bottom))
    (hup : ((t0 :: top ++ [z]).map (·.pt)).Pairwise fun a b => a mono < b mono)
    (hlow : ((t0 :: bottom).map (·.pt)).Pairwise fun a b => a mono < b mono)
    (h : decompose drop mono (t0 :: top) bottom = some out) :
    ∀ p ∈ out, TurnsOnly drop p.orientation (p.verts.map (·.pt)) := by
  intro p hp
  exact (decompose_conv (strict := true) hne hT (apart_of hd) h (by
    intro tris st ht t htm
    simpa using triangulate_strict hT (pairwise_pt hup) (pairwise_pt hlow) hz ht t htm) p hp).1

/-- C49: `Build` of the decomposer returns under the conditions of `C48_defined`, if no cross
product is -2^63 (see `C49_undefined`). -/
theorem C49_defined (drop mono : Fin 3) (top bottom : List HP3) (z : HP3) (hT : Tame drop (top ++ bottom))
    (hM : ∀ a ∈ top ++ bottom, ∀ b ∈ top ++ bottom, ∀ c ∈ top ++ bottom, a.twistCross drop b c ≠ -2 ^ 63)
    (htop : top ≠ []) (hz : bottom.getLast? = some z) (h3 : 3 ≤ top.length + bottom.length)
    (hmax : ∀ t ∈ top, t.pt mono ≤ z.pt mono) : ∃ out, decompose drop mono top bottom = some out := by
  refine decompose_defined hT hM htop hz h3 ?_
  intro t ht hc
  have hzm : z ∈ bottom := List.mem_of_getLast? hz
  have := (hT.comp (by simp [hzm]) (by simp [ht])).1 hc
  linarith [hmax t ht]

theorem pt_eq (x y z : Int) (i : Fin 3) : (HP3.ofPoint ⟨x, y, z⟩).pt i = ![(x : ℚ), y, z] i := by
  fin_cases i <;> simp [HP3.pt, HP3.ofPoint, V3.comp]

/-- A `Point3` is treated like the homogeneous point with denominator 1: its turns, and the
equality used by the decomposer. -/
theorem C48_points (drop : Fin 3) (p p1 p3 : V3) :
    (HP3.ofPoint p).get2DTwistDir drop (HP3.ofPoint p1) (HP3.ofPoint p3) = p.get2DTwistDir drop p1 p3 ∧
    ((HP3.ofPoint p).eq (HP3.ofPoint p1) = true ↔ p = p1) := by
  constructor
  · have h1 : signExt 1 = 0#64 := by rw [signExt_eq]; simp
    have h2 : ∀ v : V2, v.scale 1 = v := by intro v; simp [V2.scale]
    simp only [HP3.get2DTwistDir, HP3.twistCross, HP3.ofPoint, V3.get2DTwistDir, V2.getTwistDir, h1, h2]
    simp
  · obtain ⟨x, y, z⟩ := p
    obtain ⟨x1, y1, z1⟩ := p1
    simp [HP3.eq, HP3.ofPoint, V3.scale]

/-- C49 is false if a vertex of the bottom chain is the last of the top chain again: the piece
goes to `(0, 3)` twice, turns the wrong way there, and claims the orientation -1.  Dropping
the third dimension, monotone in the first. -/
theorem C49_touch_false : ∃ out, decompose 2 0 [HP3.ofPoint ⟨-1, 0, 0⟩, HP3.ofPoint ⟨0, 3, 0⟩]
      [HP3.ofPoint ⟨0, 3, 0⟩, HP3.ofPoint ⟨1, 2, 0⟩, HP3.ofPoint ⟨4, 3, 0⟩] = some out ∧
    ∃ p ∈ out, ¬ TurnsOnly 2 p.orientation (p.verts.map (·.pt)) := by
  refine ⟨[⟨-1, [HP3.ofPoint ⟨4, 3, 0⟩, HP3.ofPoint ⟨0, 3, 0⟩, HP3.ofPoint ⟨-1, 0, 0⟩, HP3.ofPoint ⟨0, 3, 0⟩,
    HP3.ofPoint ⟨1, 2, 0⟩]⟩], by decide +kernel, _, List.mem_singleton.2 rfl, ?_⟩
  intro h
  have := (h (HP3.ofPoint ⟨-1, 0, 0⟩).pt (HP3.ofPoint ⟨0, 3, 0⟩).pt (HP3.ofPoint ⟨1, 2, 0⟩).pt
    ⟨[_, _], [_, _], rfl⟩).1
  revert this
  simp only [turnAt, pt_eq, show (2 : Fin 3) + 1 = 0 from rfl, show (2 : Fin 3) + 2 = 1 from rfl]
  norm_num

/-- C49 is false in the same situation with a flat triangle first: the piece claims to be
collinear but is not. -/
theorem C49_flat_false : ∃ out, decompose 2 0 [HP3.ofPoint ⟨-1, 2, 0⟩, HP3.ofPoint ⟨1, 1, 0⟩]
      [HP3.ofPoint ⟨1, 1, 0⟩, HP3.ofPoint ⟨3, 1, 0⟩] = some out ∧
    ∃ p ∈ out, p.orientation = 0 ∧ ¬ TurnsOnly 2 p.orientation (p.verts.map (·.pt)) := by
  refine ⟨[⟨0, [HP3.ofPoint ⟨3, 1, 0⟩, HP3.ofPoint ⟨1, 1, 0⟩, HP3.ofPoint ⟨-1, 2, 0⟩, HP3.ofPoint ⟨1, 1, 0⟩]⟩],
    by decide +kernel, _, List.mem_singleton.2 rfl, rfl, ?_⟩
  intro h
  have := (h (HP3.ofPoint ⟨3, 1, 0⟩).pt (HP3.ofPoint ⟨1, 1, 0⟩).pt (HP3.ofPoint ⟨-1, 2, 0⟩).pt
    ⟨[], [_, _, _], rfl⟩).2 rfl
  revert this
  simp only [turnAt, pt_eq, show (2 : Fin 3) + 1 = 0 from rfl, show (2 : Fin 3) + 2 = 1 from rfl]
  norm_num

/-- C49: on a rectangle of 2^32 times 2^31 the decomposer multiplies the minimum of a 64 bit
integer by -1, which is undefined. -/
theorem C49_undefined : decompose 2 0 [HP3.ofPoint ⟨0, 0, 0⟩, HP3.ofPoint ⟨0, 2 ^ 31, 0⟩]
    [HP3.ofPoint ⟨2 ^ 32, 0, 0⟩, HP3.ofPoint ⟨2 ^ 32, 2 ^ 31, 0⟩] = none := by
  decide +kernel

/-! A polygon with the corners (0,0), (1,2), (3,0), (2,-1) meets the conditions. -/

/-- The top chain of the example without the minimum. -/
def exTop : List HP3 := [HP3.ofPoint ⟨1, 2, 0⟩]
/-- The bottom chain of the example. -/
def exBottom : List HP3 := [HP3.ofPoint ⟨2, -1, 0⟩, HP3.ofPoint ⟨3, 0, 0⟩]

theorem ex_tame : Tame 2 (HP3.ofPoint ⟨0, 0, 0⟩ :: exTop ++ exBottom) :=
  ⟨by decide, by decide +kernel⟩

theorem ex_noncrossing : NonCrossing 2 0 ((HP3.ofPoint ⟨0, 0, 0⟩ :: exTop ++ [HP3.ofPoint ⟨3, 0, 0⟩]).map (·.pt))
    ((HP3.ofPoint ⟨0, 0, 0⟩ :: exBottom).map (·.pt)) := by
  constructor
  · intro u v huv w hw
    rw [infix_pair] at huv
    simp [exTop, exBottom] at huv hw
    rcases huv with ⟨rfl, rfl⟩ | ⟨rfl, rfl⟩ <;> rcases hw with rfl | rfl | rfl <;>
      simp only [turnAt, pt_eq, show (2 : Fin 3) + 1 = 0 from rfl, show (2 : Fin 3) + 2 = 1 from rfl] <;> norm_num
  · intro u v huv w hw
    rw [infix_pair] at huv
    simp [exTop, exBottom] at huv hw
    rcases huv with ⟨rfl, rfl⟩ | ⟨rfl, rfl⟩ <;> rcases hw with rfl | rfl | rfl <;>
      simp only [turnAt, pt_eq, show (2 : Fin 3) + 1 = 0 from rfl, show (2 : Fin 3) + 2 = 1 from rfl] <;> norm_num

theorem ex_up : ((HP3.ofPoint ⟨0, 0, 0⟩ :: exTop ++ [HP3.ofPoint ⟨3, 0, 0⟩]).map (·.pt)).Pairwise
    fun a b => a 0 < b 0 := by
  simp [exTop, pt_eq]

theorem ex_low : ((HP3.ofPoint ⟨0, 0, 0⟩ :: exBottom).map (·.pt)).Pairwise fun a b => a 0 < b 0 := by
  simp [exBottom, pt_eq]; norm_num

theorem ex_distinct : Distinct 2 (polygon (HP3.ofPoint ⟨0, 0, 0⟩ :: exTop) exBottom) := by
  simp only [Distinct, polygon, exTop, exBottom, show (2 : Fin 3) + 1 = 0 from rfl]
  simp [pt_eq]

example : ∃ out, triangulate 2 0 [] (HP3.ofPoint ⟨0, 0, 0⟩ :: exTop) exBottom = some (out, []) ∧ out.length = 2 ∧
    ∀ t ∈ out, 0 ≤ area2 2 (corners t) := by
  obtain ⟨out, h⟩ := C48_defined 2 0 (HP3.ofPoint ⟨0, 0, 0⟩ :: exTop) exBottom (HP3.ofPoint ⟨3, 0, 0⟩) (by simp) rfl
    (by simp [exTop, exBottom]) (by decide) (by simp [exTop, pt_eq])
  refine ⟨out, h, by have := (C48_triangles _ _ _ _ _ _ _ h).1; simp [exTop, exBottom] at this; omega, ?_⟩
  exact C48_counter_clockwise 2 0 _ _ _ _ _ _ (by decide) ex_tame rfl (ex_up.imp fun h => h.le)
    (ex_low.imp fun h => h.le) ex_noncrossing h

example : ∃ out, decompose 2 0 (HP3.ofPoint ⟨0, 0, 0⟩ :: exTop) exBottom = some out ∧
    ∀ p ∈ out, TurnsOnly 2 p.orientation (p.verts.map (·.pt)) ∧ p.orientation ≤ 0 := by
  obtain ⟨out, h⟩ := C49_defined 2 0 (HP3.ofPoint ⟨0, 0, 0⟩ :: exTop) exBottom (HP3.ofPoint ⟨3, 0, 0⟩) ex_tame
    (by decide +kernel) (by simp) rfl (by simp [exTop, exBottom]) (by simp [exTop, pt_eq])
  exact ⟨out, h, C49_turns_partial 2 0 _ _ _ _ _ (by decide) ex_tame rfl ex_distinct (ex_up.imp fun h => h.le)
    (ex_low.imp fun h => h.le) ex_noncrossing h⟩

example (out : List Piece) (h : decompose 2 0 (HP3.ofPoint ⟨0, 0, 0⟩ :: exTop) exBottom = some out) :
    ∀ p ∈ out, TurnsOnly 2 p.orientation (p.verts.map (·.pt)) :=
  C49_turns_strict_partial 2 0 _ _ _ _ _ (by decide) ex_tame rfl ex_distinct ex_up ex_low h

end Walnut.Props
