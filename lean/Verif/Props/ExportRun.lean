/-
C83 and C85: the VTK filter from its inputs to the exported mesh.
-/
import Verif.Props.Export
import Verif.Props.Vtk

namespace Walnut.Props
open Walnut Walnut.Geom Walnut.Util Walnut.Poly Walnut.Bsp Walnut.Conn Walnut.Vtk

variable {δ : Type} [DecidableEq δ]

/-- The numbers of the facets that `FilterEmptyPolygons` keeps (connecting_visitor.h 59-65), which is what the filter exports
(vtkWalnutBooleanFilter.cpp 89-98). -/
def facetNumbers (M : Mesh) : List Nat := (List.range M.size).filter fun p => (M.world.polys p).count ≠ 0

theorem facetNumbers_remaining (M : Mesh) : (facetNumbers M).map M.world.polys = M.remaining := by
  unfold facetNumbers Mesh.remaining
  rw [List.filter_map]
  rfl

theorem facetList_remaining (M : Mesh) : facetList M.world (facetNumbers M) = M.remaining.map fun P => P.edges.map (·.vertex) := by
  rw [← facetNumbers_remaining, List.map_map]
  rfl

/-- C83: the filter up to the export.  The exported surface is closed, and its points are the double representations of the vertices of the
facets described by `C83_filter_partial`.

Partial: as `C83_filter_partial`; different vertices must have different double representations, and each vertex at most two. -/
theorem C83_output_partial {aabb : Bool} {minExponent : Int} {op : Operation} {inputs : List PolyData} {Ts : List (List Cell)}
    (hT : List.Forall₂ (CellData minExponent) inputs Ts) (hcl : ∀ T ∈ Ts, ClosedInput T) (hne : inputs ≠ []) (hdiff : op = .difference → ∀ T ∈ Ts, T ≠ [])
    {choose : Choose} {group : Group} (hg : Grouping group) {pfuel fuel : Nat} {t' : Node} {tr : List Visit}
    (hr : FilterTraverse aabb minExponent op inputs choose group pfuel fuel t' tr) (hord : ∀ Q ∈ output tr, Ordinary Q.plane.n)
    (hmin : ∀ Q ∈ output tr, ∀ e ∈ Q.edges, NoMin3 e.line.d) {T : SortFn} {o : HeapFns} {E : EntrySort} (hT' : SortOk T) (ho : HeapOk o) (hE : EntrySortOk E)
    {D : HP3 → δ} {order : List (δ × Nat) → List (δ × Nat)} (horder : ∀ l, (order l).Perm l) :
    ∃ s M, connRun tr {} = some s ∧ visitCalls T o E (edgeNum (output tr)) s.calls (facets (output tr)) = some (M, 0) ∧
      ((∀ v v', IsVertex (M.remaining.map fun P => P.edges.map (·.vertex)) v → IsVertex (M.remaining.map fun P => P.edges.map (·.vertex)) v' → D v = D v' → v.pt = v'.pt) →
        (∀ u v w, IsVertex (M.remaining.map fun P => P.edges.map (·.vertex)) u → IsVertex (M.remaining.map fun P => P.edges.map (·.vertex)) v →
          IsVertex (M.remaining.map fun P => P.edges.map (·.vertex)) w → u.pt = v.pt → v.pt = w.pt → D u = D v ∨ D v = D w ∨ D u = D w) →
        ∃ N points cells, (∀ fuel, N ≤ fuel → save redirectMerger order M.world D fuel (facetNumbers M) = some (points, cells)) ∧ ClosedCells cells ∧
          ExportedMesh (M.remaining.map fun P => P.edges.map (·.vertex)) D points cells) := by
  obtain ⟨s, M, h1, h2, h3, h4, h5, -⟩ := C83_filter_partial hT hcl hne hdiff hg hr hord hmin hT' ho hE
  refine ⟨s, M, h1, h2, fun hD h2D => ?_⟩
  rw [← facetList_remaining] at *
  obtain ⟨N, points, cells, k1, k2, k3⟩ := C85_export_partial (D := D) (order := order) (ps := facetNumbers M) h3 (by
    intro p hp
    refine List.mem_filter.2 ⟨List.mem_range.2 ?_, by simpa [Polygon.count] using hp⟩
    by_contra hc
    exact hp (h5 p (by omega))) (List.nodup_range.filter _) horder hD h2D
  exact ⟨N, points, cells, k1, k2 h4, k3⟩

/-- The exported difference of two tetrahedra, if the doubles represent the vertices exactly. -/
example : ∃ t' tr s M points cells, FilterTraverse false 0 .difference [vtkTetra, vtkMoved] chooseFirst groupByKey 20 20 t' tr ∧ output tr ≠ [] ∧ connRun tr {} = some s ∧
    visitCalls insertionSort sortHeap entrySort (edgeNum (output tr)) s.calls (facets (output tr)) = some (M, 0) ∧
    (∃ fuel, save redirectMerger (fun l => l) M.world HP3.pt fuel (facetNumbers M) = some (points, cells)) ∧ ClosedCells cells ∧
    ExportedMesh (M.remaining.map fun P => P.edges.map (·.vertex)) HP3.pt points cells := by
  obtain ⟨t', tr, h1, h2, h3, h4, h5, h6, h7, h8, h9, h10⟩ := vtk_example
  obtain ⟨s, M, k1, k2, k3⟩ := C83_output_partial h1 (fun T hT => (h2 T hT).1) (by simp) (fun _ T hT => (h2 T hT).2) h3 h4 h5 h6 h7 h8 h9 (D := HP3.pt) (order := fun l => l)
    (fun l => .refl l)
  obtain ⟨N, points, cells, m1, m2, m3⟩ := k3 (fun _ _ _ _ h => h) (fun _ _ _ _ _ _ h _ => Or.inl h)
  exact ⟨t', tr, s, M, points, cells, h4, h10, k1, k2, ⟨N, m1 N le_rfl⟩, m2, m3⟩

end Walnut.Props
