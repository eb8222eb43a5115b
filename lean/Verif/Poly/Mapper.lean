/-
Model of `VertexDoublePoint3Mapper` (vertex_double_point3_mapper.h 45-91) and of its use
in the VTK export (vtk_interface/include/walnut/walnut_to_vtk_mesh.h 34-88).
-/
import Verif.Util.Redirect
import Verif.Poly.MergeLinks

namespace Walnut.Poly
open Walnut.Geom Walnut.Util

/-- The field `map` (vertex_double_point3_mapper.h 90) as a list of keys with the addresses
of their redirectable values, and the redirectable values in memory.  The keys
(`DoublePoint3`) are of any type with a decidable equality, so that a `NaN`, which is not
equal to itself, is left out.  The `n`-th entry has the address `n`: entries are never
removed, and a rehash does not move the entries of a `std::unordered_map`. -/
structure Mapper (δ : Type) where
  heap : RHeap
  map : List (δ × Nat)

namespace Mapper
variable {δ : Type} [DecidableEq δ]

/-- The mapper after construction (vertex_double_point3_mapper.h 52-55). -/
def empty : Mapper δ := ⟨fun _ => none, []⟩

/-- `map.find` (vertex_double_point3_mapper.h 60, 78): the address of the redirectable value. -/
def find (m : Mapper δ) (d : δ) : Option Nat := (m.map.find? fun e => decide (e.1 = d)).map (·.2)

/-- `map.emplace` for a key that is not in the map, with a new object made by `op` (vertex_double_point3_mapper.h 62 and 80). -/
def emplace (m : Mapper δ) (fuel : Nat) (d : δ) (op : Nat → ROp) : Option (Mapper δ) :=
  (rstep m.heap fuel (op m.map.length)).map fun s => ⟨s, m.map ++ [(d, m.map.length)]⟩

/-- The beginning of `Map` (vertex_double_point3_mapper.h 59-66): the entry for the point of the
edge, which is created if necessary. -/
def entry (m : Mapper δ) (fuel : Nat) (d : δ) : Option (Mapper δ × Nat) :=
  match m.find d with
  | some a => some (m, a)
  | none => (m.emplace fuel d .create).map fun m' => (m', m.map.length)

/-- The end of `Map` (vertex_double_point3_mapper.h 76-84) for the entry `a` of `d` and the point
`d'` of the next edge around the vertex. -/
def join (merger : Nat → RHeap → Nat → Nat → Option RHeap) (m : Mapper δ) (fuel : Nat) (d : δ) (a : Nat) (d' : δ) : Option (Mapper δ) :=
  if d' = d then some m
  else
    match m.find d' with
    | none => m.emplace fuel d' fun n => .copy n a
    | some b =>
      (primaryConst m.heap fuel b).bind fun r' => (primaryConst m.heap fuel a).bind fun r =>
        if r' = r then some m
        else (merger fuel m.heap a b).map fun s => { m with heap := s }

/-- `Map` (vertex_double_point3_mapper.h 58-86).  `D` is `GetDoublePoint3`. -/
def mapEdge (merger : Nat → RHeap → Nat → Nat → Option RHeap) (W : World) (D : HP3 → δ) (fuel : Nat) (m : Mapper δ) (x : Nat) :
    Option (Mapper δ × Nat) :=
  (W.edge x).bind fun e => (m.entry fuel (D e.vertex)).bind fun (m, a) =>
    (W.nextAround x).bind fun
      | none => some (m, a)
      | some y => (W.edge y).bind fun f => (m.join merger fuel (D e.vertex) a (D f.vertex)).map fun m => (m, a)

/-- Calling `Map` for a list of edges (walnut_to_vtk_mesh.h 58-62). -/
def mapAll (merger : Nat → RHeap → Nat → Nat → Option RHeap) (W : World) (D : HP3 → δ) (fuel : Nat) : Mapper δ → List Nat → Option (Mapper δ)
  | m, [] => some m
  | m, x :: l => (m.mapEdge merger W D fuel x).bind fun r => mapAll merger W D fuel r.1 l

end Mapper

/-- The merger of the VTK export (walnut_to_vtk_mesh.h 49-52). -/
def redirectMerger : Nat → RHeap → Nat → Nat → Option RHeap := fun fuel s a b => redirect s fuel a b

/-- A merger that redirects the primary of `a`.  This one is not in the code; see C81. -/
def primaryMerger : Nat → RHeap → Nat → Nat → Option RHeap := fun fuel s a b =>
  (primary s fuel a).bind fun p => redirect p.1 fuel p.2 b

end Walnut.Poly
