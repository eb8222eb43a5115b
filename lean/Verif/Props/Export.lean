/-
C85: exporting a mesh to VTK.
-/
import Verif.Vtk.ExportProof
import Verif.Vtk.ExportSpec

namespace Walnut.Props
open Walnut.Geom Walnut.Util Walnut.Poly Walnut.Vtk Relation

variable {δ : Type} [DecidableEq δ]

/-- The facets of a mesh as lists of vertices. -/
def facetList (W : World) (ps : List Nat) : List (List HP3) := ps.map fun p => (W.polys p).edges.map (·.vertex)

theorem all_edges {W : World} {ps : List Nat} (hps : ∀ p, (W.polys p).edges ≠ [] → p ∈ ps) : AllEdges W (ps.flatMap fun p => (W.polys p).edges.map (·.data)) := by
  intro x
  simp only [List.mem_flatMap, List.mem_map]
  constructor
  · rintro ⟨p, -, e, he, rfl⟩
    obtain ⟨i, hi⟩ := List.mem_iff_getElem?.1 he
    exact ⟨p, _, _, mem_halfEdges.2 ⟨i, e, hi, rfl, rfl, rfl⟩⟩
  · rintro ⟨p, A, B, h⟩
    obtain ⟨i, e, hi, rfl, -, -⟩ := mem_halfEdges.1 h
    have he := List.mem_of_getElem? hi
    exact ⟨p, hps p (List.ne_nil_of_mem he), e, he, rfl⟩

/-- The edge object of an edge of a facet. -/
theorem edge_of_mem {W : World} (hL : Linked W) {p : Nat} {e : Edge Nat} (he : e ∈ (W.polys p).edges) : W.edge e.data = some e ∧ W.owner e.data = p := by
  obtain ⟨i, hi⟩ := List.mem_iff_getElem?.1 he
  have ho := hL.own p e.data _ _ (mem_halfEdges.2 ⟨i, e, hi, rfl, rfl, rfl⟩)
  refine ⟨?_, ho⟩
  unfold World.edge
  rw [(hL.index_eq hi).1, ho]
  exact hi

theorem mem_zip_rotate {α : Type} {l : List α} {a b : α} : (a, b) ∈ l.zip (l.rotate 1) ↔ ∃ i, l[i]? = some a ∧ l[(i + 1) % l.length]? = some b := by
  have key : ∀ i, i < l.length → (l.rotate 1)[i]? = l[(i + 1) % l.length]? := by
    intro i hi
    rw [List.getElem?_rotate hi]
  rw [List.mem_iff_getElem?]
  constructor
  · rintro ⟨i, hi⟩
    rw [List.getElem?_zip_eq_some] at hi
    obtain ⟨h1, h2⟩ := hi
    rw [key i (List.getElem?_eq_some_iff.1 h1).1] at h2
    exact ⟨i, h1, h2⟩
  · rintro ⟨i, h1, h2⟩
    exact ⟨i, by rw [List.getElem?_zip_eq_some]; exact ⟨h1, by rw [key i (List.getElem?_eq_some_iff.1 h1).1]; exact h2⟩⟩

/-- Numbers for the vertices that are the same for the edges around a vertex make the cells of a mesh without open edges closed. -/
theorem closed_cells {W : World} (hL : Linked W) (hO : NoOpenEdge W) {ps : List Nat} (hps : ∀ p, (W.polys p).edges ≠ [] → p ∈ ps) (hnd : ps.Nodup) (f : HP3 → Nat)
    (hf : ∀ p, ∀ e ∈ (W.polys p).edges, ∀ z g, W.nextAround e.data = some (some z) → W.edge z = some g → f e.vertex = f g.vertex) : ClosedCells ((facetList W ps).map (·.map f)) := by
  let S : Nat → List (Nat × Nat × Nat) := fun p => ((W.polys p).edges.zip ((W.polys p).edges.rotate 1)).map fun x => (x.1.data, f x.1.vertex, f x.2.vertex)
  let L := ps.flatMap S
  have hs : ((facetList W ps).map (·.map f)).flatMap cellSides = L.map Prod.snd := by
    simp only [L, facetList, List.map_flatMap, List.flatMap_map, List.map_map]
    congr 1
    funext p
    simp only [S, cellSides, Function.comp_apply, ← List.map_rotate, List.map_map]
    rw [List.zip_map]
    rfl
  have hS : ∀ p x a b, (x, a, b) ∈ S p ↔ ∃ i e g, (W.polys p).edges[i]? = some e ∧ (W.polys p).edges[(i + 1) % (W.polys p).count]? = some g ∧ e.data = x ∧ f e.vertex = a ∧ f g.vertex = b := by
    intro p x a b
    simp only [S, List.mem_map, Prod.exists, mem_zip_rotate, Prod.mk.injEq]
    constructor
    · rintro ⟨e, g, ⟨i, h1, h2⟩, h3⟩; exact ⟨i, e, g, h1, h2, h3⟩
    · rintro ⟨i, e, g, h1, h2, h3⟩; exact ⟨e, g, ⟨i, h1, h2⟩, h3⟩
  have hmem : ∀ x a b, (x, a, b) ∈ L ↔ ∃ p, (x, a, b) ∈ S p := by
    intro x a b
    simp only [L, List.mem_flatMap]
    constructor
    · rintro ⟨p, _, h⟩; exact ⟨p, h⟩
    · rintro ⟨p, h⟩
      obtain ⟨i, e, g, h1, -⟩ := (hS p x a b).1 h
      exact ⟨p, hps p (List.ne_nil_of_mem (List.mem_of_getElem? h1)), h⟩
  have hLn : L.Nodup := by
    rw [List.nodup_flatMap]
    refine ⟨fun p _ => ?_, ?_⟩
    · have := hL.once p
      refine List.Nodup.of_map Prod.fst ?_
      simpa [S, halfEdges, List.map_map, Function.comp_def] using this
    · refine hnd.imp ?_
      rintro p q hpq ⟨x, a, b⟩ h1 h2
      obtain ⟨i, e, g, k1, -, k2, -⟩ := (hS p x a b).1 h1
      obtain ⟨i', e', g', k1', -, k2', -⟩ := (hS q x a b).1 h2
      have o1 := (edge_of_mem hL (List.mem_of_getElem? k1)).2
      have o2 := (edge_of_mem hL (List.mem_of_getElem? k1')).2
      rw [k2] at o1
      rw [k2'] at o2
      exact hpq (o1.symm.trans o2)
  let φ : Nat × Nat × Nat → Nat × Nat × Nat := fun h => ((W.partner h.1).getD 0, h.2.2, h.2.1)
  have hφ : ∀ h ∈ L, φ h ∈ L ∧ φ (φ h) = h := by
    rintro ⟨x, a, b⟩ h
    obtain ⟨p, hp⟩ := (hmem x a b).1 h
    obtain ⟨i, e, g, h1, h2, rfl, rfl, rfl⟩ := (hS p x a b).1 hp
    have hx : (e.data, (W.polys p).pt i, (W.polys p).pt ((i + 1) % (W.polys p).count)) ∈ halfEdges (W.polys p).edges := mem_halfEdges.2 ⟨i, e, h1, rfl, rfl, rfl⟩
    obtain ⟨y, hy⟩ := Option.ne_none_iff_exists'.1 (hO p _ _ _ hx)
    obtain ⟨t1, t2⟩ := hL.twin p _ _ _ y hx hy
    obtain ⟨j, e', g', k1, k2, k3, k4, -⟩ := next_around hL hx hy
    have ho : W.owner e.data = p := (edge_of_mem hL (List.mem_of_getElem? h1)).2
    have n1 : f e.vertex = f g'.vertex := hf p e (List.mem_of_getElem? h1) _ _ k4 (edge_of_mem hL (List.mem_of_getElem? k3)).1
    have n2 : f e'.vertex = f g.vertex := by
      obtain ⟨j', e2, g2, l1, l2, l3, l4, -⟩ := next_around hL t1 t2
      rw [ho] at l1 l3
      have i1 := (hL.index_eq h1).1
      have i2 := (hL.index_eq l1).1
      rw [l2, i1, Option.some.injEq] at i2
      subst i2
      rw [h2, Option.some.injEq] at l3
      subst l3
      refine hf _ e' (List.mem_of_getElem? k1) _ _ ?_ (edge_of_mem hL (List.mem_of_getElem? h2)).1
      rw [k2]
      exact l4
    have e1 : φ (e.data, f e.vertex, f g.vertex) = (y, f g.vertex, f e.vertex) := by simp [φ, hy]
    rw [e1]
    refine ⟨(hmem _ _ _).2 ⟨_, (hS _ _ _ _).2 ⟨j, e', g', k1, k3, k2, n2, n1.symm⟩⟩, ?_⟩
    simp [φ, t2]
  have hperm : (L.map φ).Perm L := by
    refine List.Subperm.perm_of_length_le (List.Nodup.subperm ?_ ?_) (by simp)
    · refine List.Nodup.map_on ?_ hLn
      intro a ha b hb e
      rw [← (hφ a ha).2, ← (hφ b hb).2, e]
    · intro z hz
      obtain ⟨a, ha, rfl⟩ := List.mem_map.1 hz
      exact (hφ a ha).1
  intro a b
  rw [hs]
  have h1 := (hperm.map Prod.snd).count_eq (a, b)
  rw [← h1, List.map_map, List.count_eq_countP, List.count_eq_countP, List.countP_map, List.countP_map]
  refine List.countP_congr fun h _ => ?_
  simp only [Function.comp_apply, φ, beq_iff_eq, Prod.ext_iff]
  exact And.comm

/-- The export after the vertices have been mapped. -/
theorem export_of_inv {W : World} (hL : Linked W) {D : HP3 → δ} {ps : List Nat} (hps : ∀ p, (W.polys p).edges ≠ [] → p ∈ ps) (hnd : ps.Nodup) {merger : Nat → RHeap → Nat → Nat → Option RHeap}
    {order : List (δ × Nat) → List (δ × Nat)} (ho : ∀ l, (order l).Perm l) {N : Nat} {m : Mapper δ}
    (hm : ∀ fuel, N ≤ fuel → Mapper.mapAll merger W D fuel Mapper.empty (ps.flatMap fun p => (W.polys p).edges.map (·.data)) = some m)
    (h : MInv m (SeenPoint W D (ps.flatMap fun p => (W.polys p).edges.map (·.data))) (SeenPair W D (ps.flatMap fun p => (W.polys p).edges.map (·.data)))) :
    ∃ N points cells, (∀ fuel, N ≤ fuel → save merger order W D fuel ps = some (points, cells)) ∧ (NoOpenEdge W → ClosedCells cells) ∧
      ((∀ f ∈ facetList W ps, ∀ v ∈ f, ∀ f' ∈ facetList W ps, ∀ v' ∈ f', D v = D v' → v.pt = v'.pt) → ExportedMesh (facetList W ps) D points cells) := by
  have hl := all_edges hps
  have hw := exported_of_inv hL hl h
  generalize hlq : (ps.flatMap fun p => (W.polys p).edges.map (·.data)) = l at *
  have memv : ∀ {f v}, f ∈ facetList W ps → v ∈ f → ∃ e p, e ∈ (W.polys p).edges ∧ p ∈ ps ∧ e.vertex = v ∧ W.edge e.data = some e ∧ e.data ∈ l := by
    intro f v hf hv
    obtain ⟨p, hp, rfl⟩ := List.mem_map.1 hf
    obtain ⟨e, he, rfl⟩ := List.mem_map.1 hv
    obtain ⟨i, hi⟩ := List.mem_iff_getElem?.1 he
    exact ⟨e, p, he, hp, rfl, (edge_of_mem hL he).1, (hl _).2 ⟨p, _, _, mem_halfEdges.2 ⟨i, e, hi, rfl, rfl, rfl⟩⟩⟩
  have vmem : ∀ {x e}, x ∈ l → W.edge x = some e → ∃ f ∈ facetList W ps, e.vertex ∈ f := by
    intro x e hx he
    obtain ⟨p, A, B, h1⟩ := (hl x).1 hx
    obtain ⟨i, e', h2, rfl, -⟩ := mem_halfEdges.1 h1
    have hm' := List.mem_of_getElem? h2
    rw [(edge_of_mem hL hm').1, Option.some.injEq] at he
    subst he
    exact ⟨_, List.mem_map.2 ⟨p, hps p (List.ne_nil_of_mem hm'), rfl⟩, List.mem_map.2 ⟨_, hm', rfl⟩⟩
  have hD' : (∀ f ∈ facetList W ps, ∀ v ∈ f, ∀ f' ∈ facetList W ps, ∀ v' ∈ f', D v = D v' → v.pt = v'.pt) →
      ∀ x ∈ l, ∀ y ∈ l, ∀ e f, W.edge x = some e → W.edge y = some f → D e.vertex = D f.vertex → e.vertex.pt = f.vertex.pt := by
    intro hD x hx y hy e f he hf hef
    obtain ⟨f1, hf1, hv1⟩ := vmem hx he
    obtain ⟨f2, hf2, hv2⟩ := vmem hy hf
    exact hD f1 hf1 _ hv1 f2 hf2 _ hv2 hef
  have hacc0 : ∀ e ∈ m.map, ∃ r, Accesses m.heap e.2 r := fun e he => h.inv.accesses _ ((h.live _).2 (h.addr _ he))
  have hsub : ∀ e, e ∈ order m.map ↔ e ∈ m.map := fun e => (ho _).mem_iff
  have hsnd0 : (m.map.map Prod.snd).Nodup := by
    have : (List.range m.map.length).Perm (m.map.map Prod.snd) := by
      refine List.Subperm.perm_of_length_le (List.Nodup.subperm List.nodup_range ?_) (by simp)
      intro a ha
      obtain ⟨d, hd⟩ := h.all a (List.mem_range.1 ha)
      exact List.mem_map.2 ⟨_, hd, rfl⟩
    exact this.nodup List.nodup_range
  have hsnd : ((order m.map).map Prod.snd).Nodup := ((ho _).map Prod.snd).symm.nodup hsnd0
  have hfst : ((order m.map).map Prod.fst).Nodup := ((ho _).map Prod.fst).symm.nodup (hsnd0.of_map.map_on fun e he e' he' hee => h.key e he e' he' hee)
  obtain ⟨N1, n, hN1, n1, ⟨new, n2, n2'⟩, n3, -, n5⟩ := number_spec (s0 := m.heap) (order m.map) ⟨m.heap, fun _ => 0, []⟩ ⟨h.inv, fun _ _ h => h⟩
    (fun e he => hacc0 e ((hsub e).1 he)) hsnd
  simp only [List.nil_append] at n2
  -- the number of a vertex
  have hid : ∀ v : HP3, ∃ k, ∀ a r, m.find (D v) = some a → Accesses m.heap a r → n.values r = k := by
    intro v
    by_cases hc : ∃ a r, m.find (D v) = some a ∧ Accesses m.heap a r
    · obtain ⟨a, r, h1, h2⟩ := hc
      refine ⟨n.values r, fun a' r' h1' h2' => ?_⟩
      rw [h1, Option.some.injEq] at h1'
      subst h1'
      rw [h2.det h2']
    · exact ⟨0, fun a r h1 h2 => absurd ⟨a, r, h1, h2⟩ hc⟩
  choose id hid using hid
  have hex : ∀ x ∈ l, ∀ e, W.edge x = some e → ∃ a r, m.find (D e.vertex) = some a ∧ Accesses m.heap a r ∧ Exports W D m x r ∧ n.values r = id e.vertex ∧ ∃ d, (d, r) ∈ m.map ∧ n.points[id e.vertex]? = some d := by
    intro x hx e he
    obtain ⟨r, ⟨e', a, h1, h2, h3⟩, -⟩ := hw.value x hx
    rw [he, Option.some.injEq] at h1
    subst h1
    have hv := hid _ _ _ h2 h3
    obtain ⟨R, hR, hRr⟩ := h3.root
    obtain ⟨d, hd⟩ := h.all r ((h.live r).1 (by rw [hR]; rfl))
    refine ⟨a, r, h2, h3, ⟨e, a, he, h2, h3⟩, hv, d, hd, ?_⟩
    rw [← hv]
    exact n3 (d, r) ((hsub _).2 hd) (.own r R hR hRr)
  obtain ⟨N2, s', hN2, -⟩ := cells_spec (m := m) (D := D) (s0 := m.heap) (values := n.values) (points := n.points) (f := id) (facetList W ps) n.heap n1 (by
    intro vs hvs v hv
    obtain ⟨e, p, -, -, rfl, he, hx⟩ := memv hvs hv
    obtain ⟨a, r, h1, h2, -, h3, -⟩ := hex _ hx e he
    exact ⟨a, r, h1, h2, h3⟩)
  refine ⟨max N (max N1 N2), n.points, (facetList W ps).map (·.map id), fun fuel hf => ?_, fun hO => ?_, fun hD => ⟨?_, ?_, id, rfl, ?_, ?_⟩⟩
  · unfold save
    rw [hlq, hm fuel (by omega), Option.bind_some, hN1 fuel (by omega), Option.bind_some]
    have := hN2 fuel (by omega)
    unfold facetList at this
    rw [this]
    rfl
  · refine closed_cells hL hO hps hnd id fun p e hep z g hxz hg => ?_
    obtain ⟨he, -⟩ := edge_of_mem hL hep
    obtain ⟨i, hi⟩ := List.mem_iff_getElem?.1 hep
    have hx : e.data ∈ l := (hl _).2 ⟨p, _, _, mem_halfEdges.2 ⟨i, e, hi, rfl, rfl, rfl⟩⟩
    have hz := (next_same hL hl hx hxz).1
    obtain ⟨a, r, -, -, h3, h4, -⟩ := hex _ hx e he
    obtain ⟨a', r', -, -, h3', h4', -⟩ := hex z hz g hg
    have := (hw.around _ hx 1 z (by simp [walk, hxz]) r).1 h3
    obtain ⟨r0, -, hu⟩ := hw.value z hz
    rw [← h4, ← h4', hu _ this, hu _ h3']
  · rw [n2]
    exact n2'.nodup hfst
  · intro k hk
    obtain ⟨⟨d, a⟩, h1, h2, h3⟩ := n5 k (Nat.zero_le _) hk
    rw [hsub] at h1
    have : ∃ y ∈ l, ∃ f, W.edge y = some f ∧ d = D f.vertex := by
      obtain ⟨y, hy, f, hf, hdf⟩ := (h.keys d).1 ⟨a, h1⟩
      rcases hdf with hdf | ⟨z, g, hn, hg, hdf⟩
      · exact ⟨y, hy, f, hf, hdf⟩
      · exact ⟨z, (next_same hL hl hy hn).1, g, hg, hdf⟩
    obtain ⟨y, hy, e, he, rfl⟩ := this
    obtain ⟨f, hf, hv⟩ := vmem hy he
    refine ⟨_, List.mem_map.2 ⟨f, hf, rfl⟩, List.mem_map.2 ⟨_, hv, ?_⟩⟩
    rw [← h3]
    exact (hid _ _ _ (h.found.2 h1) h2).symm
  · intro f hf v hv
    obtain ⟨e, p, -, -, rfl, he, hx⟩ := memv hf hv
    obtain ⟨a, r, -, -, h3, h4, d, h5, h6⟩ := hex _ hx e he
    obtain ⟨⟨y, hy, g, hg, hg1, hg2⟩, -⟩ := hw.apart (hD' hD) _ hx e r he h3
    obtain ⟨f', hf', hv'⟩ := vmem hy hg
    have : d = D g.vertex := (Prod.mk.inj (h.inj _ h5 _ (h.found.1 hg1) rfl)).1
    exact ⟨f', hf', _, hv', hg2, by rw [h6, this]⟩
  · intro f hf v hv f' hf' v' hv' hvv
    obtain ⟨e, p, -, -, rfl, he, hx⟩ := memv hf hv
    obtain ⟨e', p', -, -, rfl, he', hx'⟩ := memv hf' hv'
    obtain ⟨a, r, -, -, h3, h4, d, h5, h6⟩ := hex _ hx e he
    obtain ⟨a', r', -, -, h3', h4', d', h5', h6'⟩ := hex _ hx' e' he'
    rw [hvv, h6', Option.some.injEq] at h6
    have : r' = r := (Prod.mk.inj (h.key _ h5' _ h5 h6)).2
    subst this
    exact ((hw.apart (hD' hD) _ hx e r' he h3).2 _ hx' e' he' h3').symm

/-- Specification: the point is a vertex of the mesh. -/
def IsVertex (mesh : List (List HP3)) (v : HP3) : Prop := ∃ f ∈ mesh, v ∈ f

/-- C85: the export of a connected mesh with the merger of the code.

Partial: different points must have different double representations, and a point at most two of them (`C85_hole_false`). -/
theorem C85_export_partial {W : World} (hL : Linked W) {D : HP3 → δ} {ps : List Nat} (hps : ∀ p, (W.polys p).edges ≠ [] → p ∈ ps) (hnd : ps.Nodup)
    {order : List (δ × Nat) → List (δ × Nat)} (ho : ∀ l, (order l).Perm l)
    (hD : ∀ v v', IsVertex (facetList W ps) v → IsVertex (facetList W ps) v' → D v = D v' → v.pt = v'.pt)
    (h2 : ∀ u v w, IsVertex (facetList W ps) u → IsVertex (facetList W ps) v → IsVertex (facetList W ps) w → u.pt = v.pt → v.pt = w.pt → D u = D v ∨ D v = D w ∨ D u = D w) :
    ∃ N points cells, (∀ fuel, N ≤ fuel → save redirectMerger order W D fuel ps = some (points, cells)) ∧ (NoOpenEdge W → ClosedCells cells) ∧
      ExportedMesh (facetList W ps) D points cells := by
  have hl := all_edges hps
  have vmem : ∀ {x e}, x ∈ (ps.flatMap fun p => (W.polys p).edges.map (·.data)) → W.edge x = some e → IsVertex (facetList W ps) e.vertex := by
    intro x e hx he
    obtain ⟨p, A, B, h1⟩ := (hl x).1 hx
    obtain ⟨i, e', h2, rfl, -⟩ := mem_halfEdges.1 h1
    have hm' := List.mem_of_getElem? h2
    rw [(edge_of_mem hL hm').1, Option.some.injEq] at he
    subst he
    exact ⟨_, List.mem_map.2 ⟨p, hps p (List.ne_nil_of_mem hm'), rfl⟩, List.mem_map.2 ⟨_, hm', rfl⟩⟩
  have hD' : ∀ x ∈ (ps.flatMap fun p => (W.polys p).edges.map (·.data)), ∀ y ∈ (ps.flatMap fun p => (W.polys p).edges.map (·.data)), ∀ e f, W.edge x = some e → W.edge y = some f →
      D e.vertex = D f.vertex → e.vertex.pt = f.vertex.pt := fun x hx y hy e f he hf => hD _ _ (vmem hx he) (vmem hy hf)
  obtain ⟨N, m, hm, hI⟩ := two_inv hL D hl (by
    intro u v w huv hvw
    rcases eqv_points hL hl hD' u v huv with e | ⟨y, hy, z, hz, f, g, hf, hg, rfl, rfl, hfg⟩
    · exact Or.inl e
    rcases eqv_points hL hl hD' _ w hvw with e | ⟨y', hy', z', hz', f', g', hf', hg', hgf, rfl, hfg'⟩
    · exact Or.inr (Or.inl e)
    have hp := hD _ _ (vmem hy' hf') (vmem hz hg) hgf
    exact h2 _ _ _ (vmem hy hf) (vmem hz hg) (vmem hz' hg') hfg (hp.symm.trans hfg'))
  obtain ⟨N', points, cells, h1, h3, h4⟩ := export_of_inv hL hps hnd ho hm hI
  exact ⟨N', points, cells, h1, h3, h4 fun f hf v hv f' hf' v' hv' => hD v v' ⟨f, hf, hv⟩ ⟨f', hf', hv'⟩⟩

/-- C85: with a merger that unites everything merged so far, which the one of the code does not, the exported surface is closed
whatever the double representations are. -/
theorem C85_unites_partial {W : World} (hL : Linked W) {D : HP3 → δ} {ps : List Nat} (hps : ∀ p, (W.polys p).edges ≠ [] → p ∈ ps) (hnd : ps.Nodup)
    {order : List (δ × Nat) → List (δ × Nat)} (ho : ∀ l, (order l).Perm l) {merger : Nat → RHeap → Nat → Nat → Option RHeap} (hm : Unites merger) :
    ∃ N points cells, (∀ fuel, N ≤ fuel → save merger order W D fuel ps = some (points, cells)) ∧ (NoOpenEdge W → ClosedCells cells) ∧
      ((∀ v v', IsVertex (facetList W ps) v → IsVertex (facetList W ps) v' → D v = D v' → v.pt = v'.pt) → ExportedMesh (facetList W ps) D points cells) := by
  obtain ⟨N, m, h, hI⟩ := unites_inv hL D (all_edges hps) hm
  obtain ⟨N', points, cells, h1, h3, h4⟩ := export_of_inv hL hps hnd ho h hI
  exact ⟨N', points, cells, h1, h3, fun hD => h4 fun f hf v hv f' hf' v' hv' => hD v v' ⟨f, hf, hv⟩ ⟨f', hf', hv'⟩⟩

/-- C85 (disagreement): the exported surface of a closed mesh is not closed if a vertex has three double representations, here the three ways in which it is
written (`D` is the identity). -/
theorem C85_hole_false : ∃ (W : World) (ps : List Nat) (points : List HP3) (cells : List (List Nat)), Linked W ∧ NoOpenEdge W ∧ (∀ p, (W.polys p).edges ≠ [] → p ∈ ps) ∧ ps.Nodup ∧
    save redirectMerger (fun l => l) W id 9 ps = some (points, cells) ∧ ¬ ClosedCells cells := by
  have h : ((save redirectMerger (fun l => l) pyramid id 9 [0, 1, 2, 3, 4, 5]).map fun r =>
      (r.2.flatMap cellSides).all fun s => decide ((r.2.flatMap cellSides).count s = (r.2.flatMap cellSides).count (s.2, s.1))) = some false := by decide +kernel
  rw [Option.map_eq_some_iff] at h
  obtain ⟨⟨points, cells⟩, h1, h2⟩ := h
  refine ⟨pyramid, [0, 1, 2, 3, 4, 5], points, cells, pyramid_linked, pyramid_closed, ?_, by decide, h1, ?_⟩
  · intro p hp
    have : p < 6 := by
      by_contra hc
      exact hp (worldOf_empty (by show ¬ p < 6; exact hc))
    interval_cases p <;> decide
  · intro hc
    rw [List.all_eq_false] at h2
    obtain ⟨⟨a, b⟩, -, hs⟩ := h2
    exact hs (by simpa using hc a b)

/-- With the other merger it is. -/
example : ∃ N points cells, (∀ fuel, N ≤ fuel → save primaryMerger (fun l => l.reverse) pyramid id fuel [5, 4, 3, 2, 1, 0] = some (points, cells)) ∧ (NoOpenEdge pyramid → ClosedCells cells) ∧
    ((∀ v v', IsVertex (facetList pyramid [5, 4, 3, 2, 1, 0]) v → IsVertex (facetList pyramid [5, 4, 3, 2, 1, 0]) v' → v = v' → v.pt = v'.pt) →
      ExportedMesh (facetList pyramid [5, 4, 3, 2, 1, 0]) id points cells) :=
  C85_unites_partial pyramid_linked (by
    intro p hp
    have : p < 6 := by
      by_contra hc
      exact hp (worldOf_empty (by show ¬ p < 6; exact hc))
    interval_cases p <;> decide) (by decide) (fun l => l.reverse_perm) C81_primary

/-- If two of the three representations of the apex become one, the hypotheses of `C85_export_partial` hold. -/
example : ∃ N points cells, (∀ fuel, N ≤ fuel → save redirectMerger (fun l => l) pyramid roundApex fuel [0, 1, 2, 3, 4, 5] = some (points, cells)) ∧ (NoOpenEdge pyramid → ClosedCells cells) ∧
    ExportedMesh (facetList pyramid [0, 1, 2, 3, 4, 5]) roundApex points cells := by
  have all : ∀ v, IsVertex (facetList pyramid [0, 1, 2, 3, 4, 5]) v → v ∈ (facetList pyramid [0, 1, 2, 3, 4, 5]).flatten := by
    rintro v ⟨f, hf, hv⟩
    exact List.mem_flatten.2 ⟨f, hf, hv⟩
  refine C85_export_partial pyramid_linked (by
    intro p hp
    have : p < 6 := by
      by_contra hc
      exact hp (worldOf_empty (by show ¬ p < 6; exact hc))
    interval_cases p <;> decide) (by decide) (fun l => .refl l) ?_ ?_
  · have : ∀ v ∈ (facetList pyramid [0, 1, 2, 3, 4, 5]).flatten, ∀ v' ∈ (facetList pyramid [0, 1, 2, 3, 4, 5]).flatten, roundApex v = roundApex v' → v.pt = v'.pt := by decide +kernel
    exact fun v v' h h' => this v (all v h) v' (all v' h')
  · have : ∀ u ∈ (facetList pyramid [0, 1, 2, 3, 4, 5]).flatten, ∀ v ∈ (facetList pyramid [0, 1, 2, 3, 4, 5]).flatten, ∀ w ∈ (facetList pyramid [0, 1, 2, 3, 4, 5]).flatten,
        u.pt = v.pt → v.pt = w.pt → roundApex u = roundApex v ∨ roundApex v = roundApex w ∨ roundApex u = roundApex w := by decide +kernel
    exact fun u v w h h' h'' => this u (all u h) v (all v h') w (all w h'')

/-! ### Polygons without links -/

/-- The map of the export knows the numbers of the points. -/
structure PlainInv (s : List δ × List (δ × Nat)) : Prop where
  nodup : s.1.Nodup
  map : ∀ d k, (d, k) ∈ s.2 ↔ s.1[k]? = some d

theorem idxOf_append {points new : List δ} {d : δ} (h : d ∈ points) : (points ++ new).idxOf d = points.idxOf d := List.idxOf_append_of_mem h

theorem plainCell_spec (D : HP3 → δ) : ∀ (vs : List HP3) (s : List δ × List (δ × Nat)), PlainInv s →
    PlainInv (plainCell D s vs).1 ∧ (∃ new, (plainCell D s vs).1.1 = s.1 ++ new ∧ ∀ d ∈ new, ∃ v ∈ vs, d = D v) ∧ (∀ v ∈ vs, D v ∈ (plainCell D s vs).1.1) ∧
      (plainCell D s vs).2 = vs.map fun v => (plainCell D s vs).1.1.idxOf (D v) := by
  intro vs
  induction vs with
  | nil => intro s hs; exact ⟨hs, ⟨[], by simp [plainCell], by simp⟩, by simp, rfl⟩
  | cons v vs ih =>
    rintro ⟨points, map⟩ hs
    rw [plainCell]
    cases hf : map.find? fun e => decide (e.1 = D v) with
    | some e =>
      obtain ⟨d, k⟩ := e
      obtain ⟨i1, ⟨new, i2, i3⟩, i4, i5⟩ := ih (points, map) hs
      have hd : d = D v := by simpa using List.find?_some hf
      have hk := (hs.map d k).1 (List.mem_of_find?_eq_some hf)
      subst hd
      have hmem : D v ∈ points := List.mem_of_getElem? hk
      have hidx : points.idxOf (D v) = k := by
        obtain ⟨h1, h2⟩ := List.getElem?_eq_some_iff.1 hk
        rw [← h2]
        exact hs.nodup.idxOf_getElem k h1
      dsimp only
      refine ⟨i1, ⟨new, i2, fun d hd => ?_⟩, ?_, ?_⟩
      · obtain ⟨w, hw, e⟩ := i3 d hd; exact ⟨w, by simp [hw], e⟩
      · intro w hw
        rcases List.mem_cons.1 hw with rfl | hw
        · rw [i2]; exact List.mem_append_left _ hmem
        · exact i4 w hw
      · rw [List.map_cons, ← i5, i2, idxOf_append hmem, hidx]
    | none =>
      have hno : D v ∉ points := by
        intro hc
        obtain ⟨k, hk⟩ := List.mem_iff_getElem?.1 hc
        have := List.find?_eq_none.1 hf _ ((hs.map _ k).2 hk)
        simp at this
      have hs' : PlainInv (points ++ [D v], map ++ [(D v, points.length)]) := by
        refine ⟨List.nodup_append.2 ⟨hs.nodup, by simp, ?_⟩, ?_⟩
        · rintro a ha b hb rfl
          simp only [List.mem_singleton] at hb
          exact hno (hb ▸ ha)
        · intro d k
          simp only [List.mem_append, List.mem_singleton, Prod.mk.injEq, hs.map]
          by_cases hk : k < points.length
          · rw [List.getElem?_append_left hk]
            constructor
            · rintro (h | ⟨-, h⟩)
              · exact h
              · omega
            · exact Or.inl
          · rw [List.getElem?_append_right (by omega)]
            constructor
            · rintro (h | ⟨rfl, rfl⟩)
              · exact absurd (List.getElem?_eq_some_iff.1 h).1 hk
              · simp
            · intro h
              have h0 := (List.getElem?_eq_some_iff.1 h).1
              simp only [List.length_singleton] at h0
              have : k = points.length := by omega
              subst this
              simp at h
              exact Or.inr ⟨h.symm, rfl⟩
      obtain ⟨i1, ⟨new, i2, i3⟩, i4, i5⟩ := ih _ hs'
      have hmem : D v ∈ points ++ [D v] := by simp
      have hidx : (points ++ [D v]).idxOf (D v) = points.length := by
        rw [List.idxOf_append_of_notMem hno]; simp
      dsimp only at i2 ⊢
      refine ⟨i1, ⟨D v :: new, by rw [i2]; simp, ?_⟩, ?_, ?_⟩
      · intro d hd
        rcases List.mem_cons.1 hd with rfl | hd
        · exact ⟨v, by simp, rfl⟩
        · obtain ⟨w, hw, e⟩ := i3 d hd; exact ⟨w, by simp [hw], e⟩
      · intro w hw
        rcases List.mem_cons.1 hw with rfl | hw
        · rw [i2]; exact List.mem_append_left _ hmem
        · exact i4 w hw
      · rw [List.map_cons, ← i5, i2, idxOf_append hmem, hidx]

theorem plainCells_spec (D : HP3 → δ) : ∀ (fs : List (List HP3)) (s : List δ × List (δ × Nat)), PlainInv s →
    PlainInv (plainCells D s fs).1 ∧ (∃ new, (plainCells D s fs).1.1 = s.1 ++ new ∧ ∀ d ∈ new, ∃ v, IsVertex fs v ∧ d = D v) ∧ (∀ v, IsVertex fs v → D v ∈ (plainCells D s fs).1.1) ∧
      (plainCells D s fs).2 = fs.map (·.map fun v => (plainCells D s fs).1.1.idxOf (D v)) := by
  intro fs
  induction fs with
  | nil => intro s hs; exact ⟨hs, ⟨[], by simp [plainCells], by simp⟩, (by rintro v ⟨f, hf, -⟩; cases hf), rfl⟩
  | cons vs fs ih =>
    intro s hs
    rw [plainCells]
    obtain ⟨c1, ⟨new, c2, c3⟩, c4, c5⟩ := plainCell_spec D vs s hs
    obtain ⟨i1, ⟨new', i2, i3⟩, i4, i5⟩ := ih _ c1
    dsimp only
    refine ⟨i1, ⟨new ++ new', by rw [i2, c2, List.append_assoc], ?_⟩, ?_, ?_⟩
    · intro d hd
      rcases List.mem_append.1 hd with hd | hd
      · obtain ⟨v, hv, e⟩ := c3 d hd; exact ⟨v, ⟨vs, by simp, hv⟩, e⟩
      · obtain ⟨v, ⟨f, hf, hv⟩, e⟩ := i3 d hd; exact ⟨v, ⟨f, by simp [hf], hv⟩, e⟩
    · rintro v ⟨f, hf, hv⟩
      rcases List.mem_cons.1 hf with rfl | hf
      · rw [i2]; exact List.mem_append_left _ (c4 v hv)
      · exact i4 v ⟨f, hf, hv⟩
    · rw [List.map_cons, ← i5, c5, i2]
      congr 1
      refine List.map_congr_left fun v hv => ?_
      rw [idxOf_append (c4 v hv)]

/-- C85: the export of polygons without links.  The points are the different double representations of the vertices, and each cell refers
to those of its vertices. -/
theorem C85_plain (D : HP3 → δ) (mesh : List (List HP3)) :
    (savePlain D mesh).1.Nodup ∧ (∀ d, d ∈ (savePlain D mesh).1 ↔ ∃ v, IsVertex mesh v ∧ d = D v) ∧
      ∃ id : HP3 → Nat, (savePlain D mesh).2 = mesh.map (·.map id) ∧ ∀ v, IsVertex mesh v → (savePlain D mesh).1[id v]? = some (D v) := by
  obtain ⟨h1, ⟨new, h2, h3⟩, h4, h5⟩ := plainCells_spec D mesh ([], []) ⟨by simp, by simp⟩
  refine ⟨h1.nodup, fun d => ⟨fun hd => h3 d ?_, ?_⟩, _, h5, fun v hv => ?_⟩
  · rw [List.nil_append] at h2
    rw [← h2]
    exact hd
  · rintro ⟨v, hv, rfl⟩; exact h4 v hv
  · have := h4 v hv
    show (plainCells D ([], []) mesh).1.1[_]? = _
    rw [List.getElem?_eq_getElem (List.idxOf_lt_length_of_mem this), List.getElem_idxOf]

/-- Two triangles with a common edge have four points. -/
example : savePlain id [[⟨⟨0, 0, 0⟩, 1⟩, ⟨⟨1, 0, 0⟩, 1⟩, ⟨⟨0, 1, 0⟩, 1⟩], [⟨⟨0, 1, 0⟩, 1⟩, ⟨⟨1, 0, 0⟩, 1⟩, ⟨⟨1, 1, 0⟩, 1⟩]] =
    ([⟨⟨0, 0, 0⟩, 1⟩, ⟨⟨1, 0, 0⟩, 1⟩, ⟨⟨0, 1, 0⟩, 1⟩, ⟨⟨1, 1, 0⟩, 1⟩], [[0, 1, 2], [2, 1, 3]]) := by decide +kernel

end Walnut.Props
