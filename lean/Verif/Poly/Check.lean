/-
A decision procedure for `IsConvexPolygon`, for the concrete polygons of the examples.
-/
import Verif.Poly.Spec

namespace Walnut.Poly
open Walnut.Geom

variable {D : Type}

/-- The factor by which the direction exceeds `q - p`. -/
def edgeFactor (l : PL) (p q : Q3) : ℚ :=
  (l.d.q 0 * (q 0 - p 0) + l.d.q 1 * (q 1 - p 1) + l.d.q 2 * (q 2 - p 2)) /
    ((q 0 - p 0) * (q 0 - p 0) + (q 1 - p 1) * (q 1 - p 1) + (q 2 - p 2) * (q 2 - p 2))

/-- `EdgeLine`, decidable. -/
def edgeCheck (l : PL) (p q : Q3) : Bool :=
  decide ((∀ i, crossQ p l.d.q i = l.m.q i) ∧ 0 < edgeFactor l p q ∧ ∀ i, l.d.q i = edgeFactor l p q * (q i - p i))

/-- `IsConvexPolygon`, decidable. -/
def convexCheck (P : Polygon D) : Bool :=
  decide (P.plane.n.comp P.drop ≠ 0 ∧ (∀ i, i < P.count → (P.vertexD i).w ≠ 0) ∧ (∀ i, i < P.count → P.plane.side (P.pt i) = 0) ∧
    (∀ i, i < P.count → edgeCheck (P.lineD i) (P.pt i) (P.pt ((i + 1) % P.count)) = true) ∧
    (∀ k, k < P.count → ∀ j, j < k → ∀ i, i < j → 0 ≤ turn P.plane.n.q (P.pt i) (P.pt j) (P.pt k)) ∧
    (∀ j, j < P.count → ∀ i, i < j → ∃ c : Fin 3, P.pt i c ≠ P.pt j c) ∧
    ∃ k, k < P.count ∧ ∃ j, j < k ∧ ∃ i, i < j ∧ 0 < turn P.plane.n.q (P.pt i) (P.pt j) (P.pt k))

theorem convex_of_check {P : Polygon D} (h : convexCheck P = true) : IsConvexPolygon P := by
  obtain ⟨h1, h2, h3, h4, h5, h6, k, hk, j, hj, i, hi, h7⟩ := of_decide_eq_true h
  refine ⟨h1, h2, h3, fun i hi => ?_, fun i j k a b c => h5 k c j b i a, fun i j a b e => ?_, ⟨i, j, k, hi, hj, hk, h7⟩⟩
  · obtain ⟨e1, e2, e3⟩ := of_decide_eq_true (h4 i hi)
    exact ⟨funext e1, _, e2, e3⟩
  · obtain ⟨c, hc⟩ := h6 j b i a
    exact hc (congrFun e c)

end Walnut.Poly
