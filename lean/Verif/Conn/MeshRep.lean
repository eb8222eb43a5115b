/-
The two representations of facets, as nets and as linked polygons.
-/
import Verif.Conn.MergeCalls
import Verif.Conn.Geometry
import Verif.Poly.LinkPlan

namespace Walnut.Conn
open Walnut.Geom Walnut.Poly Walnut.Bsp Walnut.Props

/-- A half-edge of a net as an edge of a polygon. -/
def edgeAt (N : Net) (x : Nat) : Edge Nat := ⟨N.vertex x, N.line x, x⟩

theorem target_get {N : Net} (hN : N.Ok) {p i x : Nat} (h : (N.cycle p)[i]? = some x) :
    ∃ z, (N.cycle p)[(i + 1) % (N.cycle p).length]? = some z ∧ N.target x = N.vertex z := by
  have hm := List.mem_of_getElem? h
  obtain ⟨hx, hp⟩ := hN.own _ _ hm
  obtain ⟨hl, he⟩ := List.getElem?_eq_some_iff.1 h
  have hi : (N.cycle p).idxOf x = i := by rw [← he]; exact (hN.nodup p).idxOf_getElem i hl
  have h1 : (i + 1) % (N.cycle p).length < (N.cycle p).length := Nat.mod_lt _ (by omega)
  refine ⟨_, List.getElem?_eq_getElem h1, ?_⟩
  unfold Net.target Net.nextVertex succIn
  rw [hp, if_pos hm, hi, List.getElem?_eq_getElem h1]
  rfl

theorem half_cycle {N : Net} (hN : N.Ok) {p x : Nat} {A B : Q3} :
    (x, A, B) ∈ halfEdges ((N.cycle p).map (edgeAt N)) ↔ x ∈ N.cycle p ∧ (N.vertex x).pt = A ∧ (N.target x).pt = B := by
  have hm := mem_halfEdges (P := ⟨⟨⟨0, 0, 0⟩, 0⟩, 0, (N.cycle p).map (edgeAt N)⟩) (h := (x, A, B))
  dsimp only at hm
  rw [hm]
  have cnt : (⟨⟨⟨0, 0, 0⟩, 0⟩, 0, (N.cycle p).map (edgeAt N)⟩ : Polygon Nat).count = (N.cycle p).length := by unfold Polygon.count; simp
  have pts : ∀ {i y : Nat}, (N.cycle p)[i]? = some y → (⟨⟨⟨0, 0, 0⟩, 0⟩, 0, (N.cycle p).map (edgeAt N)⟩ : Polygon Nat).pt i = (N.vertex y).pt := by
    intro i y h
    refine (pt_get (e := edgeAt N y) ?_).1
    dsimp only
    rw [List.getElem?_map, h]; rfl
  constructor
  · rintro ⟨i, e, he, h1, h2, h3⟩
    rw [List.getElem?_map] at he
    obtain ⟨y, hy, rfl⟩ := Option.map_eq_some_iff.1 he
    have : y = x := h1
    subst this
    obtain ⟨z, z1, z2⟩ := target_get hN hy
    rw [cnt, pts z1] at h3
    rw [pts hy] at h2
    exact ⟨List.mem_of_getElem? hy, h2, by rw [z2]; exact h3⟩
  · rintro ⟨h1, h2, h3⟩
    obtain ⟨i, hi⟩ := List.mem_iff_getElem?.1 h1
    obtain ⟨z, z1, z2⟩ := target_get hN hi
    refine ⟨i, edgeAt N x, by rw [List.getElem?_map, hi]; rfl, rfl, by rw [pts hi]; exact h2, ?_⟩
    rw [cnt, pts z1, ← z2]; exact h3

/-- The net has the same polygons as the mesh, and possibly unconnected others. -/
structure Rep (M : Mesh) (N : Net) : Prop where
  ok : N.Ok
  count : N.count = M.count
  polys : ∀ p < M.size, (M.world.polys p).edges = (N.cycle p).map (edgeAt N)
  empty : ∀ p, M.size ≤ p → (M.world.polys p).edges = []
  partner : ∀ p < M.size, ∀ x ∈ N.cycle p, M.world.partner x = N.partner x
  owner : ∀ p < M.size, ∀ x ∈ N.cycle p, M.world.owner x = p
  normal : ∀ p < M.size, N.normal p = (M.world.polys p).plane.n
  dead : ∀ p, M.size ≤ p → ∀ x ∈ N.cycle p, N.partner x = none

theorem Rep.half {M : Mesh} {N : Net} (h : Rep M N) {p x : Nat} {A B : Q3} :
    (x, A, B) ∈ halfEdges (M.world.polys p).edges ↔ p < M.size ∧ x ∈ N.cycle p ∧ (N.vertex x).pt = A ∧ (N.target x).pt = B := by
  by_cases hp : p < M.size
  · rw [h.polys p hp, half_cycle h.ok]
    simp [hp]
  · rw [h.empty p (not_lt.1 hp)]
    simp [halfEdges, hp]

theorem Rep.mem {M : Mesh} {N : Net} (h : Rep M N) {p : Nat} {e : Edge Nat} :
    e ∈ (M.world.polys p).edges ↔ p < M.size ∧ ∃ x ∈ N.cycle p, e = edgeAt N x := by
  by_cases hp : p < M.size
  · rw [h.polys p hp, List.mem_map]
    simp [hp, eq_comm]
  · rw [h.empty p (not_lt.1 hp)]
    simp [hp]

/-- The polygons are linked, their edges have numbers below `count`, and there are `size` of them. -/
structure Mesh.Good (M : Mesh) : Prop where
  linked : Linked M.world
  labels : ∀ p, ∀ e ∈ (M.world.polys p).edges, e.data < M.count
  empty : ∀ p, M.size ≤ p → (M.world.polys p).edges = []

theorem edge_some {W : World} {x : Nat} {e : Edge Nat} (h : W.edge x = some e) : e ∈ (W.polys (W.owner x)).edges ∧ e.data = x := by
  unfold World.edge at h
  obtain ⟨i, h1, h2⟩ := Option.bind_eq_some_iff.1 h
  refine ⟨List.mem_of_getElem? h2, ?_⟩
  unfold World.index at h1
  rw [List.findIdx?_eq_some_iff_getElem] at h1
  obtain ⟨g1, g2, -⟩ := h1
  rw [List.getElem?_eq_getElem g1] at h2
  rw [← Option.some.inj h2]
  simpa using g2

theorem edge_of_mem {W : World} (hL : Linked W) {p : Nat} {e : Edge Nat} (h : e ∈ (W.polys p).edges) : W.edge e.data = some e ∧ W.owner e.data = p ∧ e.vertex.w ≠ 0 := by
  obtain ⟨i, hi⟩ := List.mem_iff_getElem?.1 h
  refine ⟨(hL.index_eq hi).2, hL.own_edge hi, ?_⟩
  have := (hL.convex_of hi).finite i (List.getElem?_eq_some_iff.1 hi).1
  rwa [(pt_get hi).2.1] at this

theorem index_isSome {W : World} (hL : Linked W) {x : Nat} : (W.index x).isSome = true ↔ ∃ p, ∃ e ∈ (W.polys p).edges, e.data = x := by
  constructor
  · intro h
    obtain ⟨i, hi⟩ := Option.isSome_iff_exists.1 h
    have hi' := hi
    unfold World.index at hi
    rw [List.findIdx?_eq_some_iff_getElem] at hi
    obtain ⟨g1, g2, -⟩ := hi
    exact ⟨_, _, List.getElem_mem g1, by simpa using g2⟩
  · rintro ⟨p, e, he, rfl⟩
    obtain ⟨i, hi⟩ := List.mem_iff_getElem?.1 he
    rw [(hL.index_eq hi).1]; rfl

theorem toNet_fin {M : Mesh} (h : M.Good) (x : Nat) : (M.toNet.vertex x).w ≠ 0 := by
  unfold Mesh.toNet
  dsimp only
  split
  · rename_i e he
    obtain ⟨h1, h2⟩ := edge_some he
    exact (edge_of_mem h.linked h1).2.2
  · decide

theorem toNet_rep {M : Mesh} (h : M.Good) : Rep M M.toNet := by
  have hL := h.linked
  have size : ∀ {p : Nat} {e : Edge Nat}, e ∈ (M.world.polys p).edges → p < M.size := by
    intro p e he
    by_contra hc
    rw [h.empty p (not_lt.1 hc)] at he
    cases he
  have alive : ∀ {p : Nat} {e : Edge Nat}, e ∈ (M.world.polys p).edges → M.toNet.vertex e.data = e.vertex ∧ M.toNet.line e.data = e.line ∧
      M.toNet.poly e.data = p ∧ M.toNet.partner e.data = M.world.partner e.data := by
    intro p e he
    obtain ⟨h1, h2, -⟩ := edge_of_mem hL he
    simp only [Mesh.toNet, h1, h2, and_self]
  have cyc : ∀ p < M.size, M.toNet.cycle p = (M.world.polys p).edges.map (·.data) := by
    intro p hp
    simp only [Mesh.toNet, if_pos hp]
  have ok : M.toNet.Ok := by
    refine ⟨?_, ?_, ?_, fun e _ => toNet_fin h e, ?_, ?_⟩
    · intro x hx
      cases hc : M.world.edge x with
      | some e =>
        obtain ⟨h1, rfl⟩ := edge_some hc
        rw [(alive h1).2.2.1, cyc _ (size h1)]
        exact List.mem_map_of_mem h1
      | none =>
        have hx' : x < M.count := hx
        simp [Mesh.toNet, hc, hx']
    · intro p x hx
      by_cases hp : p < M.size
      · rw [cyc p hp] at hx
        obtain ⟨e, he, rfl⟩ := List.mem_map.1 hx
        exact ⟨h.labels p e he, (alive he).2.2.1⟩
      · simp only [Mesh.toNet, if_neg hp] at hx
        split_ifs at hx with hc
        · have : x = p - M.size := by simpa using hx
          subst this
          refine ⟨hc.1, ?_⟩
          simp only [Mesh.toNet, Option.isNone_iff_eq_none.1 hc.2]
          omega
        · cases hx
    · intro p
      by_cases hp : p < M.size
      · rw [cyc p hp]; exact hL.labels p
      · simp only [Mesh.toNet, if_neg hp]
        split_ifs <;> simp
    · intro x f hf
      simp only [Mesh.toNet] at hf
      cases hc : M.world.edge x with
      | some e =>
        obtain ⟨h1, rfl⟩ := edge_some hc
        exact h.labels _ e h1
      | none => rw [hc] at hf; cases hf
    · intro x f hf
      simp only [Mesh.toNet] at hf
      cases hc : M.world.edge x with
      | none => rw [hc] at hf; cases hf
      | some e =>
        rw [hc] at hf
        dsimp only at hf
        obtain ⟨h1, rfl⟩ := edge_some hc
        obtain ⟨i, hi⟩ := List.mem_iff_getElem?.1 h1
        obtain ⟨t1, t2⟩ := hL.twin _ _ _ _ _ (half_of_mem hi) hf
        obtain ⟨g, hg, rfl, -⟩ := Plan.edge_of_half t1
        rw [(alive hg).2.2.2, t2]
  refine ⟨ok, rfl, ?_, h.empty, ?_, ?_, fun _ _ => rfl, ?_⟩
  · intro p hp
    rw [cyc p hp, List.map_map]
    conv_lhs => rw [← List.map_id (M.world.polys p).edges]
    refine List.map_congr_left fun e he => ?_
    obtain ⟨a1, a2, -⟩ := alive he
    simp only [id, Function.comp, edgeAt, a1, a2]
  · intro p hp x hx
    rw [cyc p hp] at hx
    obtain ⟨e, he, rfl⟩ := List.mem_map.1 hx
    exact (alive he).2.2.2.symm
  · intro p hp x hx
    rw [cyc p hp] at hx
    obtain ⟨e, he, rfl⟩ := List.mem_map.1 hx
    exact (edge_of_mem hL he).2.1
  · intro p hp x hx
    simp only [Mesh.toNet, if_neg (not_lt.2 hp)] at hx
    split_ifs at hx with hc
    · have : x = p - M.size := by simpa using hx
      subst this
      simp only [Mesh.toNet, Option.isNone_iff_eq_none.1 hc.2]
    · cases hx

/-- The facets with the half-edges of a net are represented by it. -/
theorem ofNet_rep {M : Mesh} {N : Net} (hN : N.Ok) (hn : ∀ p < M.size, N.normal p = (M.world.polys p).plane.n)
    (hd : ∀ p, M.size ≤ p → ∀ x ∈ N.cycle p, N.partner x = none) : Rep (M.ofNet N) N := by
  refine ⟨hN, rfl, ?_, ?_, fun _ _ _ _ => rfl, fun p _ x hx => (hN.own p x hx).2, hn, hd⟩
  · intro p hp
    have hp' : p < M.size := hp
    simp only [Mesh.ofNet, if_pos hp']
    rfl
  · intro p hp
    have hp' : ¬ p < M.size := not_lt.2 hp
    simp only [Mesh.ofNet, if_neg hp']

end Walnut.Conn
