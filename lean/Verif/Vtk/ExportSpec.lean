/- Specification of an exported mesh.  Nothing here mentions the code of the export. -/
import Verif.Geom.Spec

namespace Walnut.Vtk
open Walnut.Geom

/-- The directed edges of a cell. -/
def cellSides (c : List Nat) : List (Nat × Nat) := c.zip (c.rotate 1)

/-- The surface of the cells is closed: every edge occurs as often in one direction as in the other. -/
def ClosedCells (cells : List (List Nat)) : Prop := ∀ a b, (cells.flatMap cellSides).count (a, b) = (cells.flatMap cellSides).count (b, a)

/-- The points and cells are the facets of `mesh`: no two points are equal, every point belongs to a cell, the cells are the
facets with a number in place of each vertex, the numbered point is the double representation of the vertex or of an equal one, and vertices with the same number are equal points. -/
structure ExportedMesh {δ : Type} (mesh : List (List HP3)) (D : HP3 → δ) (points : List δ) (cells : List (List Nat)) : Prop where
  distinct : points.Nodup
  used : ∀ k < points.length, ∃ c ∈ cells, k ∈ c
  ids : ∃ id : HP3 → Nat, cells = mesh.map (·.map id) ∧
    (∀ f ∈ mesh, ∀ v ∈ f, ∃ f' ∈ mesh, ∃ v' ∈ f', v'.pt = v.pt ∧ points[id v]? = some (D v')) ∧
    ∀ f ∈ mesh, ∀ v ∈ f, ∀ f' ∈ mesh, ∀ v' ∈ f', id v = id v' → v.pt = v'.pt

end Walnut.Vtk
