/-
C86: a strictly convex polygon comes out of the polygon factory as it is.
-/
import Verif.Props.Vtk

namespace Walnut.Props
open Walnut.Geom Walnut.Poly Walnut.Mono Walnut.Vtk

/-- C86: if the vertices are the corners of a strictly convex polygon, in either direction and starting anywhere, the
factory returns after emitting exactly one polygon: a valid convex polygon with these vertices in this cyclic order, whose
normal points to the side from which they are counter-clockwise.

Partial: for more than three vertices, no cross product of three of them is `-2 ^ 63` (`C86_min_undefined`). -/
theorem C86_convex_partial {vs : List HP3} (hu : Usable vs) (hM : vs.length = 3 ∨ ∀ drop, MinFree drop vs) (hc : StrictlyConvex (vs.map HP3.pt)) :
    ∃ P, CellOf (vs.map HP3.pt) (ofOut P) ∧ ∀ out, FactoryBuild vs out ↔ out = [P] := by
  obtain ⟨P, hP, hout⟩ := factory_cell hu hM hc.normal (by simpa using hc.three) (ccw_of_convex hc)
  exact ⟨P, cell_of hP (hu 0).pos hc, hout⟩

/-- The vertices in the opposite order give the polygon with the opposite orientation. -/
theorem C86_reversed_partial {vs : List HP3} (hu : Usable vs) (hM : vs.length = 3 ∨ ∀ drop, MinFree drop vs) (hc : StrictlyConvex (vs.map HP3.pt)) :
    ∃ P Q, FactoryBuild vs [P] ∧ FactoryBuild vs.reverse [Q] ∧ Polygon.region (ofOut P) = Polygon.region (ofOut Q) ∧
      ∃ k : ℚ, 0 < k ∧ Q.plane.n.q = -(k • P.plane.n.q) := by
  have hc' : StrictlyConvex (vs.reverse.map HP3.pt) := by
    rw [List.map_reverse]; exact hc.flipped.1
  have hu' : Usable vs.reverse := fun drop => (hu drop).mono (by simp)
  obtain ⟨P, hP, h1⟩ := C86_convex_partial hu hM hc
  obtain ⟨Q, hQ, h2⟩ := C86_convex_partial hu' (hM.imp (by simp) fun h drop a ha b hb c hc => h drop a (by simpa using ha) b (by simpa using hb) c (by simpa using hc)) hc'
  refine ⟨P, Q, (h1 _).2 rfl, (h2 _).2 rfl, ?_, ?_⟩
  · rw [hP.region, hQ.region, List.map_reverse]
    exact (region_flipped _).symm
  · obtain ⟨k, hk, e1⟩ := hP.2.2
    obtain ⟨k', hk', e2⟩ := hQ.2.2
    obtain ⟨-, μ, hμ, e3⟩ := hc.flipped
    refine ⟨k' * μ / k, by positivity, ?_⟩
    show (ofOut Q).plane.n.q = -((k' * μ / k) • (ofOut P).plane.n.q)
    rw [e1, e2, List.map_reverse]
    have : Cell.normal (vs.map HP3.pt).reverse = -(μ • Cell.normal (vs.map HP3.pt)) := e3
    rw [this, smul_neg, smul_smul, smul_smul, div_mul_cancel₀ _ hk.ne']

/-- A rectangle with the area `2 ^ 63`. -/
def wideRect : List HP3 := [⟨⟨0, 0, 0⟩, 1⟩, ⟨⟨2 ^ 32, 0, 0⟩, 1⟩, ⟨⟨2 ^ 32, 2 ^ 31, 0⟩, 1⟩, ⟨⟨0, 2 ^ 31, 0⟩, 1⟩]

/-- C86 fails for a rectangle with the area `2 ^ 63`: it is strictly convex, but the call does not return (a product of
64 bit integers overflows). -/
theorem C86_min_undefined : Usable wideRect ∧ StrictlyConvex (wideRect.map HP3.pt) ∧ ∀ out, ¬ FactoryBuild wideRect out := by
  refine ⟨?_, ?_, ?_⟩
  · refine usable_of_bounded (k := 32) (by norm_num) (by decide +kernel) ?_
    intro v hv
    simp only [wideRect, List.mem_cons, List.not_mem_nil, or_false] at hv
    rcases hv with rfl | rfl | rfl | rfl <;> exact ⟨by decide +kernel, by decide +kernel⟩
  · exact parallelogram_convex (by decide +kernel) (by decide +kernel) (by decide +kernel) (by decide +kernel)
  · intro out h
    obtain ⟨r, o, rest, hr, hb, -, -⟩ := outer_step h (by decide)
    have key : (planarRange wideRect 0 4).map (fun r => (r.plane.n.firstNonzeroDimension, decide (r.verts.length = 0), (factoryStep r.plane 2 r.verts 0 r.verts.length).isNone)) =
        some (some 2, false, true) := by decide +kernel
    rw [show wideRect.length = 4 from rfl] at hr
    rw [hr] at key
    simp only [Option.map_some, Option.some.injEq, Prod.mk.injEq, decide_eq_false_iff_not, Option.isNone_iff_eq_none] at key
    obtain ⟨k1, k2, k3⟩ := key
    simp only [PlaneBuild, k1] at hb
    generalize hl : r.verts.length = l at hb
    generalize hz : (0 : Nat) = z at hb
    cases hb with
    | done => exact k2 (hl.trans hz.symm)
    | step hne hs hr' =>
      rw [← hl, ← hz, k3] at hs
      cases hs

/-- A pentagon that meets the hypotheses of `C86_convex_partial`, with different denominators. -/
def pentagon : List HP3 := [⟨⟨0, 0, 1⟩, 1⟩, ⟨⟨4, 0, 2⟩, 2⟩, ⟨⟨9, 6, 3⟩, 3⟩, ⟨⟨1, 3, 1⟩, 1⟩, ⟨⟨-1, 1, 1⟩, 1⟩]

example : Usable pentagon ∧ (∀ drop, MinFree drop pentagon) ∧ StrictlyConvex (pentagon.map HP3.pt) := by
  refine ⟨?_, by unfold MinFree; decide +kernel, ?_⟩
  · refine usable_of_bounded (k := 32) (by norm_num) (by decide +kernel) ?_
    intro v hv
    simp only [pentagon, List.mem_cons, List.not_mem_nil, or_false] at hv
    rcases hv with rfl | rfl | rfl | rfl | rfl <;> exact ⟨by decide +kernel, by decide +kernel⟩
  · refine ⟨by decide, by decide +kernel, fun x y z hs => ?_⟩
    have h : ∀ t ∈ (pentagon.map HP3.pt).sublists', t.length = 3 → ∃ m ∈ [1, 2, 3, 4, 5, 6, 7, 8, 9, 10, 11, 12], Cell.normal t = ((m : ℚ) / 4) • Cell.normal (pentagon.map HP3.pt) := by
      decide +kernel
    obtain ⟨m, hm, e⟩ := h _ (List.mem_sublists'.2 hs) rfl
    refine ⟨m / 4, ?_, e⟩
    have : ∀ m ∈ ([1, 2, 3, 4, 5, 6, 7, 8, 9, 10, 11, 12] : List ℚ), 0 < m / 4 := by decide +kernel
    exact this m hm

end Walnut.Props
