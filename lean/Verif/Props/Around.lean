/-
C77: walking around a vertex of a mesh.
-/
import Verif.Poly.LinkAround
import Verif.Props.Links

namespace Walnut.Props
open Walnut.Geom Walnut.Poly

/-- `GetNextAroundVertex` returns null for an edge without partner.  Otherwise it returns
an edge of the partner's polygon that starts at the same vertex. -/
theorem C77_same_vertex {W : World} (hL : Linked W) {p x : Nat} {A B : Q3} (hx : (x, A, B) ∈ halfEdges (W.polys p).edges) :
    (W.partner x = none → W.nextAround x = some none) ∧
      ∀ y, W.partner x = some y → ∃ z C, W.nextAround x = some (some z) ∧ W.owner z = W.owner y ∧
        (z, A, C) ∈ halfEdges (W.polys (W.owner z)).edges := by
  refine ⟨fun h => by unfold World.nextAround; rw [h], fun y hy => ?_⟩
  obtain ⟨j, e, f, -, -, -, h1, h2, C, h3⟩ := next_around hL hx hy
  exact ⟨f.data, C, h1, h2, by rw [h2]; exact h3⟩

/-- Two edges have different next edges. -/
theorem C77_injective {W : World} (hL : Linked W) {p p' x x' : Nat} {A B A' B' : Q3} (hx : (x, A, B) ∈ halfEdges (W.polys p).edges)
    (hx' : (x', A', B') ∈ halfEdges (W.polys p').edges) {z : Nat} (h : W.nextAround x = some (some z))
    (h' : W.nextAround x' = some (some z)) : x = x' :=
  next_around_inj hL hx hx' h h'

/-- In a finite mesh without open edges, calling it again and again never leaves the
vertex, never returns null and gets back to the edge where it began. -/
theorem C77_cycle {W : World} (hL : Linked W) (hO : NoOpenEdge W) {N : Nat} (hN : ∀ p, N ≤ p → (W.polys p).edges = []) {p x : Nat} {A B : Q3}
    (hx : (x, A, B) ∈ halfEdges (W.polys p).edges) :
    (∃ k, 0 < k ∧ walk W k x = some x) ∧
      ∀ k, ∃ z C, walk W k x = some z ∧ (z, A, C) ∈ halfEdges (W.polys (W.owner z)).edges :=
  walk_cycle hL hO hN hx

/-- The hypotheses of `C77_cycle` hold for the box. -/
example : ∃ k, 0 < k ∧ walk boxWorld k 0 = some 0 :=
  (C77_cycle boxWorld_linked boxWorld_closed (N := 7) (fun _ h => worldOf_empty (by rw [Nat.not_lt]; exact h)) (p := 0) (x := 0)
    (A := fun i => if i = 2 then 1 else 0) (B := fun i => if i = 1 then 0 else 1) (by decide +kernel)).1

/-- Three edges leave a corner of the box, and three leave the end of the common edge. -/
example : (List.range 4).map (fun k => walk boxWorld k 0) = [some 0, some 24, some 41, some 0] ∧
    (List.range 4).map (fun k => walk boxWorld k 1) = [some 1, some 10, some 23, some 1] := by decide +kernel

end Walnut.Props
