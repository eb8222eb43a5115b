/-
Model of `SaveWalnutMeshToVTK` (vtk_interface/include/walnut/walnut_to_vtk_mesh.h 34-127).

The mesh is a list `ps` of numbers of facets.  A `vtkPoints` is a list of points, of any type `δ`, and a `vtkCellArray` is a list of
lists of point numbers.
-/
import Verif.Poly.Mapper

namespace Walnut.Vtk
open Walnut.Geom Walnut.Util Walnut.Poly

variable {δ : Type} [DecidableEq δ]

/-- The state of the export: the redirectable values, the numbers that they hold, and the points (walnut_to_vtk_mesh.h 64-73). -/
structure Numbering (δ : Type) where
  heap : RHeap
  values : Nat → Nat
  points : List δ

/-- `IsPrimary` (redirectable_value.h 59-61). -/
def isPrimary (s : RHeap) (fuel a : Nat) : Option Bool := (primaryConst s fuel a).map fun r => decide (r = a)

/-- The loop that inserts the points (walnut_to_vtk_mesh.h 69-73), over the entries of the map in some order. -/
def number (fuel : Nat) : Numbering δ → List (δ × Nat) → Option (Numbering δ)
  | n, [] => some n
  | n, (d, a) :: es =>
    (isPrimary n.heap fuel a).bind fun
      | false => number fuel n es
      | true => (deref n.heap fuel a).bind fun (s, r) => number fuel ⟨s, setAt n.values r n.points.length, n.points ++ [d]⟩ es

/-- The inner loop of the second part (walnut_to_vtk_mesh.h 79-82): the point numbers of a cell.  `none` includes that a point is not
in the map, where the code would add a new entry. -/
def cell (fuel : Nat) (m : Mapper δ) (D : HP3 → δ) : Numbering δ → List HP3 → Option (Numbering δ × List Nat)
  | n, [] => some (n, [])
  | n, v :: vs =>
    (m.find (D v)).bind fun a => (deref n.heap fuel a).bind fun (s, r) =>
      (cell fuel m D { n with heap := s } vs).map fun (n', ids) => (n', n.values r :: ids)

/-- The outer loop of the second part (walnut_to_vtk_mesh.h 76-84). -/
def cells (fuel : Nat) (m : Mapper δ) (D : HP3 → δ) : Numbering δ → List (List HP3) → Option (Numbering δ × List (List Nat))
  | n, [] => some (n, [])
  | n, vs :: fs =>
    (cell fuel m D n vs).bind fun (n, ids) => (cells fuel m D n fs).map fun (n', cs) => (n', ids :: cs)

/-- `SaveWalnutMeshToVTK` for connected polygons (walnut_to_vtk_mesh.h 34-88).  `order` is the order of iteration over a
`std::unordered_map`, `D` is `GetDoublePoint3`. -/
def save (merger : Nat → RHeap → Nat → Nat → Option RHeap) (order : List (δ × Nat) → List (δ × Nat)) (W : World) (D : HP3 → δ) (fuel : Nat) (ps : List Nat) :
    Option (List δ × List (List Nat)) :=
  (Mapper.mapAll merger W D fuel Mapper.empty (ps.flatMap fun p => (W.polys p).edges.map (·.data))).bind fun m =>
    (number fuel ⟨m.heap, fun _ => 0, []⟩ (order m.map)).bind fun n =>
      (cells fuel m D n (ps.map fun p => (W.polys p).edges.map (·.vertex))).map fun (n, cs) => (n.points, cs)

/-- The inner loop of `SaveWalnutMeshToVTK` for polygons without links (walnut_to_vtk_mesh.h 104-116), with the points and the
map from points to their numbers. -/
def plainCell (D : HP3 → δ) : List δ × List (δ × Nat) → List HP3 → (List δ × List (δ × Nat)) × List Nat
  | s, [] => (s, [])
  | (points, map), v :: vs =>
    match map.find? fun e => decide (e.1 = D v) with
    | some e => let r := plainCell D (points, map) vs; (r.1, e.2 :: r.2)
    | none => let r := plainCell D (points ++ [D v], map ++ [(D v, points.length)]) vs; (r.1, points.length :: r.2)

/-- The outer loop (walnut_to_vtk_mesh.h 101-119). -/
def plainCells (D : HP3 → δ) : List δ × List (δ × Nat) → List (List HP3) → (List δ × List (δ × Nat)) × List (List Nat)
  | s, [] => (s, [])
  | s, vs :: fs => let c := plainCell D s vs; let r := plainCells D c.1 fs; (r.1, c.2 :: r.2)

/-- `SaveWalnutMeshToVTK` for other polygons (walnut_to_vtk_mesh.h 95-124). -/
def savePlain (D : HP3 → δ) (mesh : List (List HP3)) : List δ × List (List Nat) :=
  let r := plainCells D ([], []) mesh
  (r.1.1, r.2)

end Walnut.Vtk
