/-
Property C87 for the iterators over the vertices of a polygon.
-/
import Verif.Poly.VertexIter
import Verif.Props.TransformIter

namespace Walnut.Props
open Walnut.Geom Walnut.Util Walnut.Poly

variable {D : Type}

theorem visitRange_eq (P : Polygon D) (n i fuel : Nat) (hn : i + n = P.edges.length) (hf : n ≤ fuel) :
    visitRange P.edges P.verticesEnd fuel ⟨i, ()⟩ = some ((P.edges.drop i).map (·.vertex)) := by
  induction n generalizing i fuel with
  | zero =>
    unfold visitRange
    have h : (⟨(i : Int), ()⟩ : TransformIter Unit).ne P.verticesEnd = false := by
      simp [TransformIter.ne, Polygon.verticesEnd, TransformIter.ofInput, ← hn]
    rw [h, List.drop_eq_nil_of_le (by omega)]
    rfl
  | succ n ih =>
    obtain ⟨fuel, rfl⟩ : ∃ k, fuel = k + 1 := ⟨fuel - 1, by omega⟩
    have hi : i < P.edges.length := by omega
    unfold visitRange
    have h : (⟨(i : Int), ()⟩ : TransformIter Unit).ne P.verticesEnd = true := by
      simp [TransformIter.ne, Polygon.verticesEnd, TransformIter.ofInput]; omega
    have hd : (⟨(i : Int), ()⟩ : TransformIter Unit).deref vertexKind P.edges = some P.edges[i].vertex := by
      simp [TransformIter.deref, TransformIter.element, vertexKind, hi]
    have hp : (⟨(i : Int), ()⟩ : TransformIter Unit).preInc = ⟨((i + 1 : Nat) : Int), ()⟩ := by
      simp [TransformIter.preInc]
    simp only [h, hd, hp, ih (i + 1) fuel (by omega) (by omega), if_true]
    rw [List.drop_eq_getElem_cons hi]
    rfl

/-- C87: a loop from `vertices_begin()` to `vertices_end()` ends, and visits the vertices of the polygon, each once and in order. -/
theorem C87_vertices (P : Polygon D) (fuel : Nat) (hf : P.count ≤ fuel) :
    visitRange P.edges P.verticesEnd fuel P.verticesBegin = some (P.edges.map (·.vertex)) := by
  have h := visitRange_eq P P.edges.length 0 fuel (by omega) hf
  rw [List.drop_zero] at h
  exact h

/-- C87: every way to move an iterator over the vertices, including the operators that return a new iterator, leads to the vertex at
the place that it was moved to, and to undefined behaviour exactly outside of the polygon. -/
theorem C87_vertex_random (P : Polygon D) (ops : List IterOp) :
    (∀ i < P.count, (ops.map iterMove).sum = (i : Int) →
      (runIterOps (vertexKind (D := D)) ops P.verticesBegin).deref vertexKind P.edges = some (P.vertexD i)) ∧
    ((runIterOps (vertexKind (D := D)) ops P.verticesBegin).deref vertexKind P.edges = none ↔
      (ops.map iterMove).sum < 0 ∨ (P.count : Int) ≤ (ops.map iterMove).sum) := by
  rw [C87_stateless]
  have h0 : P.verticesBegin.pos = 0 := rfl
  rw [h0, zero_add]
  generalize (ops.map iterMove).sum = m
  constructor
  · rintro i hi rfl
    have hi' : i < P.edges.length := hi
    simp [valueAt, Polygon.vertexD, vertexKind, hi']
  · unfold valueAt Polygon.count
    split_ifs with h
    · obtain ⟨k, rfl⟩ := Int.eq_ofNat_of_zero_le h
      by_cases hk : k < P.edges.length
      · simp [vertexKind, hk]
      · simp [vertexKind, Nat.le_of_not_lt hk]
    · simp; omega

/-- C87: the distance from `vertices_begin()` to `vertices_end()` is the number of vertices. -/
theorem C87_vertex_distance (P : Polygon D) : P.verticesEnd.dist P.verticesBegin = P.count := by
  simp [TransformIter.dist, Polygon.verticesEnd, Polygon.verticesBegin, TransformIter.ofInput, Polygon.count]

/-! ### The hypotheses are met -/

/-- A triangle. -/
def iterTriangle : Polygon Unit :=
  let p (x y : Int) : HP3 := ⟨⟨x, y, 0⟩, 1⟩
  ⟨⟨⟨0, 0, 1⟩, 0⟩, 2, [⟨p 0 0, PL.ofHomoPoints (p 0 0) (p 1 0), ()⟩, ⟨p 1 0, PL.ofHomoPoints (p 1 0) (p 0 1), ()⟩,
    ⟨p 0 1, PL.ofHomoPoints (p 0 1) (p 0 0), ()⟩]⟩

example : visitRange iterTriangle.edges iterTriangle.verticesEnd 3 iterTriangle.verticesBegin =
    some [⟨⟨0, 0, 0⟩, 1⟩, ⟨⟨1, 0, 0⟩, 1⟩, ⟨⟨0, 1, 0⟩, 1⟩] := by
  rw [C87_vertices _ _ (by decide)]; rfl

example : (runIterOps (vertexKind (D := Unit)) [.add 2, .postInc, .sub 1] iterTriangle.verticesBegin).deref vertexKind iterTriangle.edges =
    some ⟨⟨1, 0, 0⟩, 1⟩ :=
  (C87_vertex_random iterTriangle [.add 2, .postInc, .sub 1]).1 1 (by decide) (by decide)

example : (runIterOps (vertexKind (D := Unit)) [.add 3] iterTriangle.verticesBegin).deref vertexKind iterTriangle.edges = none :=
  (C87_vertex_random iterTriangle [.add 3]).2.2 (by decide)

end Walnut.Props
