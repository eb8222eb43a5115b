/-
Model of the projected area and centroid of a polygon (convex_polygon.h 544-554 and
1480-1572) and of the mesh functions of mesh.h.
-/
import Verif.Poly.Model

namespace Walnut.Poly
open Walnut.Geom

variable {D : Type}

/-- The vertices in order (convex_polygon.h 137-139). -/
def Polygon.verts (P : Polygon D) : List HP3 := P.edges.map (·.vertex)

/-- `x_i * y_j - x_j * y_i` with the components left after dropping a dimension (convex_polygon.h 1481-1514). -/
def crossAfterDrop (drop : Fin 3) (v w : HP3) : Int :=
  v.v.componentAfterDrop 0 drop * w.v.componentAfterDrop 1 drop -
    w.v.componentAfterDrop 0 drop * v.v.componentAfterDrop 1 drop

/-- The loop of `GetProjectedArea` (convex_polygon.h 1497-1511) over the pairs of
successive vertices, with the values of `numerator` and `denominator`. -/
def areaLoop (drop : Fin 3) : List HP3 → Int → Int → Option (Int × Int)
  | v :: nv :: l, num, den => do
    let g ← gcd? den nv.w
    let nc ← div? nv.w g
    let tc ← div? den g
    areaLoop drop (nv :: l) (nc * num + tc * crossAfterDrop drop v nv) (tc * v.w)
  | _, num, den => some (num, den)

/-- `GetProjectedArea` (convex_polygon.h 1480-1514): numerator and denominator. -/
def Polygon.projectedArea (P : Polygon D) (drop : Fin 3) : Option (Int × Int) :=
  if P.count < 3 then some (0, 1)
  else do
    let first ← P.verts.head?
    let last ← P.verts.getLast?
    let r ← areaLoop drop P.verts (crossAfterDrop drop last first) last.w
    return (r.1, r.2 * last.w * 2)

/-- The loop variables of `GetProjectedCentroid` (convex_polygon.h 1517-1570). -/
structure CentroidAcc where
  area : Int
  c0 : Int
  c1 : Int
  den : Int

/-- One round of the loop of `GetProjectedCentroid` (convex_polygon.h 1545-1568). -/
def centroidStep (drop : Fin 3) (v nv : HP3) (s : CentroidAcc) : Option CentroidAcc := do
  let g ← gcd? s.den nv.w
  let nc ← div? nv.w g
  let tc ← div? s.den g
  let t := tc * crossAfterDrop drop v nv
  let sqr := nc * nc
  return ⟨nc * s.area + t,
    s.c0 * sqr + (v.v.componentAfterDrop 0 drop * nv.w + nv.v.componentAfterDrop 0 drop * v.w) * tc * t,
    s.c1 * sqr + (v.v.componentAfterDrop 1 drop * nv.w + nv.v.componentAfterDrop 1 drop * v.w) * tc * t,
    tc * v.w⟩

/-- The loop of `GetProjectedCentroid` over the pairs of successive vertices (convex_polygon.h 1517-1570). -/
def centroidLoop (drop : Fin 3) : List HP3 → CentroidAcc → Option CentroidAcc
  | v :: nv :: l, s => do centroidLoop drop (nv :: l) (← centroidStep drop v nv s)
  | _, s => some s

/-- `GetProjectedCentroid` (convex_polygon.h 1516-1572). -/
def Polygon.projectedCentroid (P : Polygon D) (drop : Fin 3) : Option HP2 :=
  if P.count = 0 then some ⟨⟨0, 0⟩, 0⟩
  else do
    let first ← P.verts.head?
    let last ← P.verts.getLast?
    let a := crossAfterDrop drop last first
    let r ← centroidLoop drop P.verts ⟨a,
      (last.v.componentAfterDrop 0 drop * first.w + first.v.componentAfterDrop 0 drop * last.w) * a,
      (last.v.componentAfterDrop 1 drop * first.w + first.v.componentAfterDrop 1 drop * last.w) * a,
      last.w⟩
    return ⟨⟨r.c0, r.c1⟩, r.area * 3 * r.den * last.w⟩

/-- `GetCentroid` (convex_polygon.h 550-554). -/
def Polygon.centroid (P : Polygon D) : Option HP3 :=
  (P.projectedCentroid P.drop).map fun c => P.plane.projectOntoPlane c P.drop

/-! ### mesh.h -/

/-- `GetTopPoint` (mesh.h 17-29). -/
def topPoint (mesh : List (Polygon D)) : HP3 :=
  mesh.foldl (fun top P => P.verts.foldl (fun top p => if top.w = 0 ∨ HP3.topnessLt top p = true then p else top) top)
    ⟨⟨0, 0, 0⟩, 0⟩

/-- `GetFarthest` (mesh.h 168-186): the farthest point and `best_num`. -/
def farthestLoop (mesh : List (Polygon D)) (v : V3) : HP3 × Int :=
  mesh.foldl (fun s P => P.verts.foldl (fun s p =>
    if s.1.w = 0 ∨ Rational.isLessThan s.2 s.1.w (p.v.dot v) p.w = true then (p, p.v.dot v) else s) s)
    (⟨⟨0, 0, 0⟩, 0⟩, 0)

/-- `GetFarthest` (mesh.h 168-186). -/
def farthest (mesh : List (Polygon D)) (v : V3) : HP3 := (farthestLoop mesh v).1

/-- The triangles `(vertex(0), vertex(i - 1), vertex(i))`, `i` from 2 on, of a polygon
(mesh.h 74-83 and 139-147). -/
def fan (l : List HP3) : List (HP3 × HP3 × HP3) :=
  match l with
  | a :: t => (t.zip t.tail).map fun p => (a, p.1, p.2)
  | [] => []

/-- The state of the first loop of `GetCentroid` (mesh.h 48-72): `denom_map` as an
association list, `denom_values` with contribution and numerator multiple,
`denom_indices` and `up_to_lcm`. -/
structure DenomState where
  map : List ((Int × Int × Int) × Nat)
  values : List (Int × Int)
  indices : List Nat
  lcm : Int

/-- `tri_denom` with its first two entries sorted: `std::sort(&sorted[0],
&sorted[2])` sorts two elements (mesh.h 91-99). -/
def canonicalDenom (k : Int × Int × Int) : Int × Int × Int :=
  if k.2.1 < k.1 then (k.2.1, k.1, k.2.2) else k

/-- One round of the first loop of `GetCentroid` (mesh.h 84-116).  An entry with value
`-1` exists only inside of a round, so a missing entry stands for it. -/
def denomStep (s : DenomState) (k : Int × Int × Int) : Option DenomState :=
  match s.map.lookup k with
  | some i => some { s with indices := s.indices ++ [i] }
  | none =>
    match s.map.lookup (canonicalDenom k) with
    | some i => some { s with map := (k, i) :: s.map, indices := s.indices ++ [i] }
    | none => do
      let product := k.1 * k.2.1 * k.2.2
      let g ← gcd? s.lcm product
      let contribution ← div? product g
      let multiple ← div? s.lcm g
      let i := s.values.length
      return ⟨(k, i) :: (canonicalDenom k, i) :: s.map, s.values ++ [(contribution, multiple)],
        s.indices ++ [i], s.lcm * contribution⟩

/-- The first loop of `GetCentroid` (mesh.h 72-117). -/
def denomLoop : List (HP3 × HP3 × HP3) → DenomState → Option DenomState
  | [], s => some s
  | t :: l, s => do denomLoop l (← denomStep s (t.1.w, t.2.1.w, t.2.2.w))

/-- The second loop of `GetCentroid` (mesh.h 118-126), from the last entry to the
first: the numerator multiples and `after_lcm`. -/
def multiples : List (Int × Int) → List Int × Int
  | [] => ([], 1)
  | (contribution, multiple) :: l => (multiple * (multiples l).2 :: (multiples l).1, (multiples l).2 * contribution)

/-- `Vector3::Hadamard` (vector3.h 128-131). -/
def hadamard (a b : V3) : V3 := ⟨a.x * b.x, a.y * b.y, a.z * b.z⟩

/-- The terms the third loop of `GetCentroid` adds for a triangle (mesh.h 148-162). -/
def centroidTerm (t : HP3 × HP3 × HP3) (m : Int) : Int × V3 :=
  let a := t.1
  let b := t.2.1
  let c := t.2.2
  let n := (((a.v.cross b.v).scale c.w).add ((b.v.cross c.v).scale a.w)).add ((c.v.cross a.v).scale b.w)
  let s1 := ((a.v.scale b.w).add (b.v.scale a.w)).scale c.w
  let s2 := ((b.v.scale c.w).add (c.v.scale b.w)).scale a.w
  let s3 := ((c.v.scale a.w).add (a.v.scale c.w)).scale b.w
  (a.v.dot (b.v.cross c.v) * m,
   (hadamard n (((hadamard s1 s1).add (hadamard s2 s2)).add (hadamard s3 s3))).scale (m * m * m))

/-- The third loop of `GetCentroid` (mesh.h 128-163). -/
def centroidSum (ms : List Int) : List (HP3 × HP3 × HP3) → List Nat → Int × V3 → Option (Int × V3)
  | [], _, s => some s
  | t :: l, i :: is, s =>
    match ms[i]? with
    | none => none
    | some m => centroidSum ms l is (s.1 + (centroidTerm t m).1, s.2.add (centroidTerm t m).2)
  | _ :: _, [], _ => none

/-- `GetCentroid` of a mesh (mesh.h 34-166). -/
def meshCentroid (mesh : List (Polygon D)) : Option HP3 := do
  let tris := mesh.flatMap fun P => fan P.verts
  let s ← denomLoop tris ⟨[], [], [], 1⟩
  let r := multiples s.values
  if s.lcm ≠ r.2 then none
  else
    let t ← centroidSum r.1 tris s.indices (0, V3.zero)
    return ⟨t.2, 8 * t.1 * r.2 * r.2⟩

end Walnut.Poly
