/-
The import of VTK meshes (vtk_interface/include/walnut/vtk_to_walnut_mesh.h) and the filter for boolean operations
(vtk_interface/src/vtkWalnutBooleanFilter.cpp).

Not modelled: VTK itself.  A `vtkPolyData` is the list of its points and the lists of its cells; coordinates are the bit
patterns that `GetPoint` stores as doubles.
-/
import Verif.Mono.Triangle
import Verif.Util.Double
import Verif.Bsp.Traverse
import Verif.Bsp.Filter

namespace Walnut.Vtk
open Walnut.Geom Walnut.Poly Walnut.Mono Walnut.Bsp Walnut.Util

/-- `vtkPolyData`: the coordinates of the points, and the ids of the points of each polygon and of each triangle
strip.  VTK, as it is read at vtk_to_walnut_mesh.h 32-112. -/
structure PolyData where
  points : List (BitVec 64 × BitVec 64 × BitVec 64)
  polys : List (List Nat)
  strips : List (List Nat)

/-- The conversion of a point (vtk_to_walnut_mesh.h 35-40): `FromDoubles` with the coordinates of the point.  `none` for
coordinates that are not finite. -/
def convertPoint (minExponent : Int) (p : BitVec 64 × BitVec 64 × BitVec 64) : Option HP3 := do
  let x ← doubleValue p.1
  let y ← doubleValue p.2.1
  let z ← doubleValue p.2.2
  fromDoubles minExponent x y z

/-- The conversion of all points (vtk_to_walnut_mesh.h 32-42). -/
def convertPoints (minExponent : Int) (input : PolyData) : Option (List HP3) := input.points.mapM (convertPoint minExponent)

/-- The vertices that the factory gets for a cell (vtk_to_walnut_mesh.h 60-82): those of the ids of the cell, in reverse
order if the mesh is flipped.  `none` for an id that is out of range. -/
def cellVertices (pts : List HP3) (flip : Bool) (cell : List Nat) : Option (List HP3) :=
  (if flip then cell.reverse else cell).mapM fun i => pts[i]?

/-- The loop over the polygons (vtk_to_walnut_mesh.h 59-83) returns, and the factory has emitted these polygons. -/
inductive ImportCells (pts : List HP3) (flip : Bool) : List (List Nat) → List OutPoly → Prop
  | nil : ImportCells pts flip [] []
  | cons {cell : List Nat} {cells : List (List Nat)} {vs : List HP3} {out rest : List OutPoly} (hv : cellVertices pts flip cell = some vs)
      (hb : FactoryBuild vs out) (hr : ImportCells pts flip cells rest) : ImportCells pts flip (cell :: cells) (out ++ rest)

/-- `GetPoint(input_vertices[k])` and the conversion (vtk_to_walnut_mesh.h 93-96 and 101-104). -/
def stripCorner (minExponent : Int) (input : PolyData) (strip : List Nat) (k : Nat) : Option HP3 := do
  let i ← strip[k]?
  let p ← input.points[i]?
  convertPoint minExponent p

/-- One round of the loop over a strip (vtk_to_walnut_mesh.h 88-110); the condition is `(i & 0) ^ flip`.  The polygon is
made by the constructor from three vertices (convex_polygon.h 95-105).  `none` if its plane has no normal: the
constructor's assertions fail. -/
def stripTriangle (minExponent : Int) (flip : Bool) (input : PolyData) (strip : List Nat) (i : Nat) : Option OutPoly := do
  let corner := stripCorner minExponent input strip
  let reversed := (i &&& 0) ^^^ flip.toNat ≠ 0
  let v0 ← corner (if reversed then 2 - 0 else 0)
  let v1 ← corner (if reversed then 2 - 1 else 1)
  let v2 ← corner (if reversed then 2 - 2 else 2)
  let plane ← HS3.ofHomoPoints v0 v1 v2
  let drop ← plane.n.firstNonzeroDimension
  return ⟨plane, drop, [(v0, PL.ofHomoPoints v0 v1), (v1, PL.ofHomoPoints v1 v2), (v2, PL.ofHomoPoints v2 v0)]⟩

/-- The loop over the strips (vtk_to_walnut_mesh.h 86-112).  `vertex_count - 2` is negative for short strips, which
therefore give nothing. -/
def importStrips (minExponent : Int) (flip : Bool) (input : PolyData) : List (List Nat) → Option (List OutPoly)
  | [] => some []
  | strip :: strips => do
    let ts ← (List.range (strip.length - 2)).mapM (stripTriangle minExponent flip input strip)
    let rest ← importStrips minExponent flip input strips
    return ts ++ rest

/-- The polygon that is added to the tree (vtk_to_walnut_mesh.h 17-115). -/
def ofOut (P : OutPoly) : Polygon Unit := ⟨P.plane, P.drop, P.edges.map fun e => ⟨e.1, e.2, ()⟩⟩

/-- `VTKToWalnutMesh` (vtk_to_walnut_mesh.h 17-115) returns these polygons. -/
def Imports (input : PolyData) (minExponent : Int) (flip : Bool) (out : List (Polygon Unit)) : Prop :=
  ∃ pts polys strips, convertPoints minExponent input = some pts ∧ ImportCells pts flip input.polys polys ∧
    importStrips minExponent flip input input.strips = some strips ∧ out = (polys ++ strips).map ofOut

/-- `OperationType` (vtkWalnutBooleanFilter.h 14-21). -/
inductive Operation
  | union | intersection | difference
deriving DecidableEq

/-- `flip` (vtkWalnutBooleanFilter.cpp 40) for the input `i`. -/
def flipInput (op : Operation) (i : Nat) : Bool := decide (op = .difference) && decide (i > 0)

/-- The loop over the inputs (vtkWalnutBooleanFilter.cpp 38-45) from input `i` on, which gets the id `i`
(`AllocateId`, bsp_tree.h 100-102). -/
inductive AddInputs (aabb : Bool) (minExponent : Int) (op : Operation) : Nat → List PolyData → Node → Node → Prop
  | nil {i : Nat} {t : Node} : AddInputs aabb minExponent op i [] t t
  | cons {i : Nat} {input : PolyData} {inputs : List PolyData} {mesh : List (Polygon Unit)} {t t' t'' : Node}
      (hm : Imports input minExponent (flipInput op i) mesh) (ha : t.addContents aabb i mesh = some t')
      (hr : AddInputs aabb minExponent op (i + 1) inputs t' t'') : AddInputs aabb minExponent op i (input :: inputs) t t''

/-- The selected filter with the ids of `n` inputs (vtkWalnutBooleanFilter.cpp 59-82). -/
def selectFilter (op : Operation) (n : Nat) : IsInside :=
  match op with
  | .union => unionIds (List.range n)
  | .intersection => intersectIds (List.range n)
  | .difference => subtractIds (List.range n)

/-- The traversal of the filter (vtkWalnutBooleanFilter.cpp 35-86). -/
def FilterTraverse (aabb : Bool) (minExponent : Int) (op : Operation) (inputs : List PolyData) (choose : Choose) (group : Group) (pfuel fuel : Nat)
    (t' : Node) (tr : List Visit) : Prop :=
  ∃ t, AddInputs aabb minExponent op 0 inputs (.leaf {}) t ∧ traverse (selectFilter op inputs.length) choose group pfuel fuel t = some (t', tr)

end Walnut.Vtk
