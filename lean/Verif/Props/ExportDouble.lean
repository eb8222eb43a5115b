/-
C85: the export with the conversion to doubles that the code uses (C84).
-/
import Verif.Props.Export
import Verif.Props.Float
import Verif.Geom.Bridge

namespace Walnut.Props
open Walnut Walnut.Geom Walnut.Util Walnut.Poly Walnut.Vtk Walnut.Float

variable {δ : Type} [DecidableEq δ]

/-- `HomoPoint3::GetDoublePoint3` of a point (homo_point3.h 171-179): the arguments of `getDoublePoint3` are the words of its
coordinates. -/
def doubleOf (rndL rndD : ℚ → Fl) (v : HP3) : Fl × Fl × Fl := getDoublePoint3 rndL rndD (wordsOf v.v.x) (wordsOf v.v.y) (wordsOf v.v.z) (wordsOf v.w)

/-- C85: the export with one double representation for each point. -/
theorem C85_single_partial {W : World} (hL : Linked W) {D : HP3 → δ} {ps : List Nat} (hps : ∀ p, (W.polys p).edges ≠ [] → p ∈ ps) (hnd : ps.Nodup)
    {order : List (δ × Nat) → List (δ × Nat)} (ho : ∀ l, (order l).Perm l)
    (h1 : ∀ v v', IsVertex (facetList W ps) v → IsVertex (facetList W ps) v' → v.pt = v'.pt → D v = D v') :
    ∃ N points cells, (∀ fuel, N ≤ fuel → save redirectMerger order W D fuel ps = some (points, cells)) ∧ (NoOpenEdge W → ClosedCells cells) ∧
      ((∀ v v', IsVertex (facetList W ps) v → IsVertex (facetList W ps) v' → D v = D v' → v.pt = v'.pt) → ExportedMesh (facetList W ps) D points cells) := by
  have hl := all_edges hps
  have vmem : ∀ {x e}, x ∈ (ps.flatMap fun p => (W.polys p).edges.map (·.data)) → W.edge x = some e → IsVertex (facetList W ps) e.vertex := by
    intro x e hx he
    obtain ⟨p, A, B, h1⟩ := (hl x).1 hx
    obtain ⟨i, e', h2, rfl, -⟩ := mem_halfEdges.1 h1
    have hm' := List.mem_of_getElem? h2
    rw [(edge_of_mem hL hm').1, Option.some.injEq] at he
    subst he
    exact ⟨_, List.mem_map.2 ⟨p, hps p (List.ne_nil_of_mem hm'), rfl⟩, List.mem_map.2 ⟨_, hm', rfl⟩⟩
  have heq : ∀ u v, Relation.EqvGen (SeenPair W D (ps.flatMap fun p => (W.polys p).edges.map (·.data))) u v → u = v := by
    intro u v huv
    induction huv with
    | rel u v huv =>
      obtain ⟨y, hy, z, f, g, hf, hn, hg, rfl, rfl⟩ := huv
      obtain ⟨hz, f', g', hf', hg', hp⟩ := next_same hL hl hy hn
      rw [hf, Option.some.injEq] at hf'
      rw [hg, Option.some.injEq] at hg'
      subst hf' hg'
      exact h1 _ _ (vmem hy hf) (vmem hz hg) hp
    | refl u => rfl
    | symm u v _ ih => exact ih.symm
    | trans u v w _ _ ih1 ih2 => exact ih1.trans ih2
  obtain ⟨N, m, hm, hI⟩ := two_inv hL D hl fun u v w huv _ => Or.inl (heq u v huv)
  obtain ⟨N', points, cells, k1, k3, k4⟩ := export_of_inv hL hps hnd ho hm hI
  exact ⟨N', points, cells, k1, k3, fun hD => k4 fun f hf v hv f' hf' v' hv' => hD v v' ⟨f, hf, hv⟩ ⟨f', hf', hv'⟩⟩

/-- The point is written with integers that `long double` has. -/
def FitsLongDouble (L : Format) (v : HP3) : Prop := v.w ≠ 0 ∧ |v.v.x| < 2 ^ L.p ∧ |v.v.y| < 2 ^ L.p ∧ |v.v.z| < 2 ^ L.p ∧ |v.w| < 2 ^ L.p

theorem toLongDouble_small {L : Format} (hL : L.Usual) {rnd : ℚ → Fl} (h : Nearest L rnd) {x : ℤ} (hx : |x| < 2 ^ L.p) : toLongDouble rnd (wordsOf x) = .fin x := by
  have hp := hL.p_le
  have he := hL.emax_ge
  have hb : |(x : ℚ)| ≤ 2 ^ (L.emax - 4) := by
    have : |(x : ℚ)| ≤ 2 ^ L.p := by exact_mod_cast hx.le
    refine this.trans ?_
    rw [← zpow_natCast]
    exact pow_le (by omega)
  obtain ⟨y, h1, -, h3⟩ := C84_long_double hL h (rep_wordsOf x) hb
  rw [h1, h3 ⟨x, 0, hx, by omega, by omega, by simp⟩]

/-- The double representation of a point that fits into `long double` only depends on the point. -/
theorem doubleOf_pt {L : Format} (hL : L.Usual) {rndL rndD : ℚ → Fl} (h : Nearest L rndL) {v : HP3} (hv : FitsLongDouble L v) :
    doubleOf rndL rndD v = (cast rndD (rndL (v.pt 0)), cast rndD (rndL (v.pt 1)), cast rndD (rndL (v.pt 2))) := by
  obtain ⟨h0, hx, hy, hz, hw⟩ := hv
  have hw0 : (v.w : ℚ) ≠ 0 := by exact_mod_cast h0
  unfold doubleOf getDoublePoint3 coordinate
  rw [toLongDouble_small hL h hx, toLongDouble_small hL h hy, toLongDouble_small hL h hz, toLongDouble_small hL h hw]
  simp only [div, if_neg hw0]
  rfl

/-- C85: with the conversion to doubles in use, the exported surface of a closed mesh is closed if its vertices are written with integers of at most as many
bits as the significand of `long double` has, for example 64.

Partial: with more bits it may have holes (`C85_double_hole_false`). -/
theorem C85_double_partial {W : World} (hW : Linked W) {L : Format} (hL : L.Usual) {rndL rndD : ℚ → Fl} (h : Nearest L rndL) {ps : List Nat} (hps : ∀ p, (W.polys p).edges ≠ [] → p ∈ ps)
    (hnd : ps.Nodup) {order : List ((Fl × Fl × Fl) × Nat) → List ((Fl × Fl × Fl) × Nat)} (ho : ∀ l, (order l).Perm l) (hf : ∀ v, IsVertex (facetList W ps) v → FitsLongDouble L v) :
    ∃ N points cells, (∀ fuel, N ≤ fuel → save redirectMerger order W (doubleOf rndL rndD) fuel ps = some (points, cells)) ∧ (NoOpenEdge W → ClosedCells cells) ∧
      ((∀ v v', IsVertex (facetList W ps) v → IsVertex (facetList W ps) v' → doubleOf rndL rndD v = doubleOf rndL rndD v' → v.pt = v'.pt) →
        ExportedMesh (facetList W ps) (doubleOf rndL rndD) points cells) :=
  C85_single_partial hW hps hnd ho fun v v' hv hv' e => by rw [doubleOf_pt hL h (hf v hv), doubleOf_pt hL h (hf v' hv'), e]

/-- The pyramid of `C85_hole_false`, which writes its apex in three ways with small numbers, is exported as a closed mesh. -/
example {rndL rndD : ℚ → Fl} (h : Nearest extended80 rndL) : ∃ N points cells, (∀ fuel, N ≤ fuel → save redirectMerger (fun l => l) pyramid (doubleOf rndL rndD) fuel [0, 1, 2, 3, 4, 5] =
    some (points, cells)) ∧ ClosedCells cells := by
  obtain ⟨N, points, cells, h1, h2, -⟩ := C85_double_partial (rndD := rndD) pyramid_linked extended80_usual h (ps := [0, 1, 2, 3, 4, 5]) (by
    intro p hp
    have : p < 6 := by
      by_contra hc
      exact hp (worldOf_empty (by show ¬ p < 6; exact hc))
    interval_cases p <;> decide) (by decide) (order := fun l => l) (fun l => .refl l) (by
    rintro v ⟨f, hf, hv⟩
    have : ∀ v ∈ (facetList pyramid [0, 1, 2, 3, 4, 5]).flatten, v.w ≠ 0 ∧ |v.v.x| < 2 ^ 64 ∧ |v.v.y| < 2 ^ 64 ∧ |v.v.z| < 2 ^ 64 ∧ |v.w| < 2 ^ 64 := by decide +kernel
    exact this v (List.mem_flatten.2 ⟨f, hf, hv⟩))
  exact ⟨N, points, cells, h1, h2 pyramid_closed⟩

/-! ### Three double representations -/

/-- A pyramid over a pentagon.  The coordinates of the apex are halfway between two doubles, and it is written in three ways. -/
def tallFaces : List (Polygon Nat) :=
  [otherApex 73818551016329228203 (facePolygon 0 ⟨0, -12, 12⟩ 54043195528445904 2 [⟨9007199254740993, 13510798882111489, 18014398509481981⟩, ⟨9007199254740990, 13510798882111486, 18014398509481978⟩, ⟨9007199254740994, 13510798882111486, 18014398509481978⟩]),
   otherApex 73820656140556030321 (facePolygon 10 ⟨-6, 12, 14⟩ 360287970189639644 2 [⟨9007199254740993, 13510798882111489, 18014398509481981⟩, ⟨9007199254740992, 13510798882111492, 18014398509481978⟩, ⟨9007199254740988, 13510798882111490, 18014398509481978⟩]),
   otherApex 74273562184158196669 (facePolygon 20 ⟨-12, -6, 18⟩ 135107988821114808 2 [⟨9007199254740993, 13510798882111489, 18014398509481981⟩, ⟨9007199254740988, 13510798882111490, 18014398509481978⟩, ⟨9007199254740990, 13510798882111486, 18014398509481978⟩]),
   otherApex 73820656140556030321 (facePolygon 30 ⟨6, 12, 10⟩ 396316767208603636 2 [⟨9007199254740993, 13510798882111489, 18014398509481981⟩, ⟨9007199254740996, 13510798882111490, 18014398509481978⟩, ⟨9007199254740992, 13510798882111492, 18014398509481978⟩]),
   otherApex 74273562184158196669 (facePolygon 40 ⟨12, -6, 10⟩ 207165582859042792 2 [⟨9007199254740993, 13510798882111489, 18014398509481981⟩, ⟨9007199254740994, 13510798882111486, 18014398509481978⟩, ⟨9007199254740996, 13510798882111490, 18014398509481978⟩]),
   facePolygon 50 ⟨0, 0, -1⟩ (-18014398509481978) 2 [⟨9007199254740990, 13510798882111486, 18014398509481978⟩, ⟨9007199254740988, 13510798882111490, 18014398509481978⟩, ⟨9007199254740992, 13510798882111492, 18014398509481978⟩,
     ⟨9007199254740996, 13510798882111490, 18014398509481978⟩, ⟨9007199254740994, 13510798882111486, 18014398509481978⟩]]

def tall : World := worldOf tallFaces pyramidLinks

theorem tall_linked : Linked tall := linked_of_check (by decide +kernel)

theorem tall_closed : NoOpenEdge tall := by
  intro p x A B hx
  by_cases c : p < tallFaces.length
  · have : ∀ p, p < tallFaces.length → ∀ h ∈ halfEdges (tall.polys p).edges, tall.partner h.1 ≠ none := by decide +kernel
    exact this p c _ hx
  · unfold tall at hx
    rw [worldOf_empty c] at hx; exact absurd hx List.not_mem_nil

/-- C85 (disagreement): three representations with different doubles exist, and the export of a closed mesh has a hole. -/
theorem C85_double_hole_false : ∃ rndL rndD, Nearest extended80 rndL ∧ Nearest binary64 rndD ∧ ∃ (W : World) (ps : List Nat) (points : List (Fl × Fl × Fl)) (cells : List (List Nat)),
    Linked W ∧ NoOpenEdge W ∧ (∀ p, (W.polys p).edges ≠ [] → p ∈ ps) ∧ ps.Nodup ∧
    save redirectMerger (fun l => l) W (doubleOf rndL rndD) 9 ps = some (points, cells) ∧ ¬ ClosedCells cells := by
  refine ⟨roundNearest extended80, roundNearest binary64, roundNearest_ok _ (by decide) (by decide), roundNearest_ok _ (by decide) (by decide), ?_⟩
  have h : ((save redirectMerger (fun l => l) tall (doubleOf (roundNearest extended80) (roundNearest binary64)) 9 [0, 1, 2, 3, 4, 5]).map fun r =>
      (r.2.flatMap cellSides).all fun s => decide ((r.2.flatMap cellSides).count s = (r.2.flatMap cellSides).count (s.2, s.1))) = some false := by decide +kernel
  rw [Option.map_eq_some_iff] at h
  obtain ⟨⟨points, cells⟩, h1, h2⟩ := h
  refine ⟨tall, [0, 1, 2, 3, 4, 5], points, cells, tall_linked, tall_closed, ?_, by decide, h1, ?_⟩
  · intro p hp
    have : p < 6 := by
      by_contra hc
      exact hp (worldOf_empty (by show ¬ p < 6; exact hc))
    interval_cases p <;> decide
  · intro hc
    rw [List.all_eq_false] at h2
    obtain ⟨⟨a, b⟩, -, hs⟩ := h2
    exact hs (by simpa using hc a b)

end Walnut.Props
