/-
The winding numbers of what a traversal emits.
-/
import Verif.Bsp.BoolRay

namespace Walnut.Bsp
open Walnut.Geom Walnut.Poly Walnut.Props

section
variable {R : Type} [CommRing R] {aabb : Bool} {d : NodeData} {t : Node} {tr : List Visit} {S : List Source} {q u : Q3} {v : IsInside} {group : Group}

theorem borders_polys (hset : Settled t) {y : BPoly} (hy : y ∈ t.borders) : y ∈ t.polys := by
  rw [polys_leaves hset]
  unfold Node.borders at hy
  obtain ⟨L, hL, hy⟩ := List.mem_flatMap.1 hy
  exact List.mem_flatMap.2 ⟨L, hL, List.mem_append_right _ hy⟩

theorem borders_convex (h : Reach aabb t S) {y : BPoly} (hy : y ∈ t.borders) : IsConvexPolygon y.poly := by
  unfold Node.borders at hy
  obtain ⟨L, hL, hy⟩ := List.mem_flatMap.1 hy
  obtain ⟨anc, ha⟩ := leaves_subs (anc := []) hL
  exact ((h.spec.1.sub _ ha).2.1 y hy).convex

theorem ray_clear (h : Reach aabb t S) (hset : Settled t) (hG : GenericRay t tr S q u) {r : ℚ} (hr : 0 < r) : Clear tr t.borders (q + r • u) := by
  intro g hg h0 y hy hy0
  obtain ⟨s, hs, _, e⟩ := poly_source h (borders_polys hset hy) (borders_convex h hy)
  rw [← e] at hy0 ⊢
  exact hG.apart g (by simp [hg]) s hs r hr h0 hy0

/-- What is emitted at a point of the ray. -/
theorem ray_facet (h : Reach aabb t S) (hset : Settled t) (hg : Grouping group) {x : Q3} {f : Facet}
    (hf : f ∈ (t.leavesAt []).flatMap (leafOutput v group x)) : f.2.side x = 0 ∧ ∃ s ∈ S, s.poly.plane = f.2 := by
  obtain ⟨L, hL, hf⟩ := List.mem_flatMap.1 hf
  unfold leafOutput at hf
  obtain ⟨l, hl, hf⟩ := List.mem_flatMap.1 hf
  obtain ⟨y, hy, rfl, hx⟩ := stackAt_region (changing_mem f hf)
  have hb : y ∈ t.borders := List.mem_flatMap.2 ⟨L.2, by rw [← leavesAt_leaves t []]; exact List.mem_map_of_mem hL, hg.mem hl hy⟩
  refine ⟨side_region (borders_convex h hb) hx, ?_⟩
  obtain ⟨s, hs, _, e⟩ := poly_source h (borders_polys hset hb) (borders_convex h hb)
  exact ⟨s, hs, e⟩

/-- The winding number of the emitted polygons. -/
theorem ray_output (h0 : Reach aabb (.leaf d) S) (hsp : Splits d t) (h : Reach aabb t S) (hset : Settled t) (hnest : Nested t) (hv : Lawful v)
    (hm : Exact R v) (hg : Grouping group) (hdone : ∀ L ∈ t.unprunedLeaves v, L.contents = []) (hc : ∀ id, Closed (meshOf S id))
    (hout : ∀ x, Clear tr t.borders x → stackAt x (accepted tr) = (t.leavesAt []).flatMap (leafOutput v group x)) (hG : GenericRay t tr S q u) :
    ((windingNumber ((accepted tr).map BPoly.poly) q u : ℤ) : R) =
      bit R (valueAt v t.data.info.length fun id => windingNumber (meshOf S id) q u) - bit R (valueAt v t.data.info.length fun _ => 0) := by
  have hS : ∀ s ∈ S, IsConvexPolygon s.poly ∧ dotQ s.poly.plane.n.q u ≠ 0 := fun s hs => ⟨h0.leaf_pwn.1 s hs, hG.crossFacet s hs⟩
  have hstack : ∀ r : ℚ, 0 < r → stackAt (q + r • u) (accepted tr) = (t.leavesAt []).flatMap (leafOutput v group (q + r • u)) :=
    fun r hr => hout _ (ray_clear h hset hG hr)
  have hfacet : ∀ r : ℚ, 0 < r → ∀ f ∈ stackAt (q + r • u) (accepted tr), dotQ f.2.n.q u ≠ 0 ∧ r = root q u f.2 ∧ ∃ s ∈ S, s.poly.plane = f.2 := by
    intro r hr f hf
    rw [hstack r hr] at hf
    obtain ⟨e0, s, hs, e⟩ := ray_facet h hset hg hf
    have hne : dotQ f.2.n.q u ≠ 0 := by rw [← e]; exact (hS s hs).2
    exact ⟨hne, (root_iff hne r).1 e0, s, hs, e⟩
  rw [winding_stops (T := stops t S q u) _ fun r hr => stops_pos hr]
  swap
  · intro y hy r hr hreg
    have hf : facet y ∈ stackAt (q + r • u) (accepted tr) := by
      unfold stackAt
      exact List.mem_map_of_mem (List.mem_filter.2 ⟨hy, by simpa using hreg⟩)
    obtain ⟨a1, a2, s, hs, e⟩ := hfacet r hr _ hf
    refine ⟨(root_iff a1 r).2 a2, a1, ?_⟩
    rw [a2, ← e]
    exact stops_facet hs (by rw [e, ← a2]; exact hr)
  -- the values along the ray
  let F : ℚ → R := fun a => bit R (valueAt v t.data.info.length fun id => windingNumber (meshOf S id) (q + a • u) u)
  have half : ∀ a r : ℚ, 0 ≤ a → 0 < r → a ≠ r → (∀ s ∈ stops t S q u, (a ≤ s ∧ s ≤ r) ∨ (r ≤ s ∧ s ≤ a) → s = r) →
      (((stackAt (q + r • u) (accepted tr)).countP (fun f => decide (f.2.side (q + a • u) < 0)) : ℕ) : R) = F a -
        bit R (valueAt v t.data.info.length fun id => windingNumber (meshOf S id) (q + a • u) u - facing S (q + r • u) (q + a • u) id) := by
    intro a r ha hr hne hgap
    rw [hstack r hr]
    exact point_output h0 hsp h hset hnest hv hm hg hdone (near_ray hG ha hr hne hgap) hc fun id => transversal_move (hG.transversal id) ha
  have jump : ∀ a b r, 0 ≤ a → r ∈ stops t S q u → a < r → r < b → (∀ s ∈ stops t S q u, a ≤ s → s ≤ b → s = r) →
      F a - F b = (crossings u (stackAt (q + r • u) (accepted tr)) : R) := by
    intro a b r ha hrT har hrb hgap
    have hr : 0 < r := stops_pos hrT
    have h1 := half a r ha hr har.ne (fun s hs hsr => hsr.elim (fun h => hgap s hs h.1 (by linarith)) fun h => hgap s hs (by linarith) (by linarith))
    have h2 := half b r (by linarith) hr hrb.ne' (fun s hs hsr => hsr.elim (fun h => hgap s hs (by linarith) (by linarith)) fun h => hgap s hs (by linarith) (by linarith))
    have e : (fun id => windingNumber (meshOf S id) (q + a • u) u - facing S (q + r • u) (q + a • u) id) =
        fun id => windingNumber (meshOf S id) (q + b • u) u - facing S (q + r • u) (q + b • u) id :=
      funext fun id => winding_jump hS ha har hrb (fun s hs l1 l2 => hgap _ (stops_facet hs (by linarith)) l1.le l2) id
    rw [e] at h1
    have c1 : (stackAt (q + r • u) (accepted tr)).countP (fun f => decide (f.2.side (q + a • u) < 0)) =
        (stackAt (q + r • u) (accepted tr)).countP (fun f => decide (0 < dotQ f.2.n.q u)) := by
      refine List.countP_congr fun f hf => ?_
      obtain ⟨a1, a2, _⟩ := hfacet r hr f hf
      rw [decide_eq_true_iff, decide_eq_true_iff, side_root a1, ← a2]
      constructor
      · intro h; by_contra hc; nlinarith
      · intro h; exact mul_neg_of_neg_of_pos (by linarith) h
    have c2 : (stackAt (q + r • u) (accepted tr)).countP (fun f => decide (f.2.side (q + b • u) < 0)) =
        (stackAt (q + r • u) (accepted tr)).countP (fun f => decide (dotQ f.2.n.q u < 0)) := by
      refine List.countP_congr fun f hf => ?_
      obtain ⟨a1, a2, _⟩ := hfacet r hr f hf
      rw [decide_eq_true_iff, decide_eq_true_iff, side_root a1, ← a2]
      constructor
      · intro h; by_contra hc; nlinarith
      · intro h; exact mul_neg_of_pos_of_neg (by linarith) h
    unfold crossings
    rw [← c1, ← c2]
    push_cast
    rw [h1, h2]
    ring
  have const : ∀ a b, 0 ≤ a → a ≤ b → (∀ s ∈ stops t S q u, ¬ (a < s ∧ s ≤ b)) → F a = F b := by
    intro a b ha hab hgap
    have e : (fun id => windingNumber (meshOf S id) (q + a • u) u) = fun id => windingNumber (meshOf S id) (q + b • u) u :=
      funext fun id => winding_const hS ha hab (fun s hs hr => hgap _ (stops_facet hs (by linarith [hr.1])) hr) id
    show bit R (valueAt v _ _) = bit R (valueAt v _ _)
    rw [e]
  obtain ⟨B, hB0, hB⟩ : ∃ B : ℚ, 0 ≤ B ∧ ∀ r ∈ stops t S q u, r < B := by
    by_cases hne : (stops t S q u).Nonempty
    · refine ⟨(stops t S q u).max' hne + 1, ?_, fun r hr => ?_⟩
      · have := stops_pos (Finset.max'_mem _ hne); linarith
      · have := Finset.le_max' _ r hr; linarith
    · exact ⟨0, le_rfl, fun r hr => absurd ⟨r, hr⟩ hne⟩
  have tele := telescope const jump _ 0 B le_rfl hB0 (fun h => lt_irrefl _ (stops_pos h)) (fun h => lt_irrefl _ (hB B h)) rfl
  rw [Finset.filter_true_of_mem fun r hr => ⟨stops_pos hr, hB r hr⟩] at tele
  rw [Int.cast_sum, ← tele]
  have e0 : F 0 = bit R (valueAt v t.data.info.length fun id => windingNumber (meshOf S id) q u) := by
    show bit R (valueAt v _ _) = _
    simp only [zero_smul, add_zero]
  have eB : F B = bit R (valueAt v t.data.info.length fun _ => 0) := by
    have e : (fun id => windingNumber (meshOf S id) (q + B • u) u) = fun _ => 0 := by
      funext id
      refine winding_far hS hB0 (fun s hs => ?_) id
      by_cases hp : 0 < root q u s.poly.plane
      · exact (hB _ (stops_facet hs hp)).le
      · linarith
    show bit R (valueAt v _ _) = _
    rw [e]
  rw [e0, eB]

end

end Walnut.Bsp
