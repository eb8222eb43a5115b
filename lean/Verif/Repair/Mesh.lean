/-
Model of `MeshPlaneRepairer` (mesh_plane_repairer.h, mesh_plane_repairer.cpp).

Pointers to `VertexInfo` are indices into the storage; pointers to planes are the planes, which do not change after they have
been stored.  The data of the facets is not modelled.
-/
import Verif.Repair.Nudge

namespace Walnut.Repair
open Walnut Walnut.Geom

/-- `VertexInfo` (mesh_plane_repairer.h 22-40): `adjacent` holds the first `plane_count` entries. -/
structure VInfo where
  adjacent : List HS3
  point : HP3
deriving DecidableEq

namespace VInfo

/-- `CanAddAdjacent` (mesh_plane_repairer.h 28-30). -/
def canAddAdjacent (v : VInfo) : Bool := decide (v.adjacent.length < 3)

/-- `Finalize` (mesh_plane_repairer.cpp 139-162). -/
def finalize (v : VInfo) : Option VInfo :=
  if v.adjacent.all (·.isCoincident v.point) then some v
  else do
    let p ← (match v.adjacent with
      | [a] => some ((PL.ofHomoPoints v.point (v.point.addOffset a.n 1)).intersect a)
      | [a, b] => let l := PL.ofPlanes a b; some (l.intersect (HS3.ofNormalPoint l.d v.point))
      | [a, b, c] => some ((PL.ofPlanes a b).intersect c)
      | _ => none)
    let r ← p.reduce
    return { v with point := r }

/-- `TryAddAdjacent` (mesh_plane_repairer.cpp 8-24). -/
def tryAddAdjacent (v : VInfo) (p : HS3) : Option VInfo :=
  if v.adjacent.length < 3 then
    if v.adjacent.any (·.isSameOrOpposite p) then some v
    else
      let v := { v with adjacent := v.adjacent ++ [p] }
      if v.adjacent.length = 3 then v.finalize else some v
  else some v

end VInfo

/-- The fields of `MeshPlaneRepairer` (mesh_plane_repairer.h 77-80, 130-140) apart from the active polygon: the vertices, the map
from points to vertices, the concatenated vertices of the polygons, and the polygons with their `vertex_end`. -/
structure Repairer where
  storage : List VInfo := []
  map : List (HP3 × Nat) := []
  vertices : List Nat := []
  polygons : List (HS3 × Nat) := []
deriving DecidableEq

/-- `AddVertexInfo` (mesh_plane_repairer.cpp 50-86; both overloads).  The keys of the map are compared with `HomoPoint3StrictEq`
(homo_point3.h 268-273), and equal keys have equal hashes. -/
def addVertex (s : Repairer) (v : HP3) : Option (Repairer × Nat) :=
  match s.map.lookup v with
  | some i => some (s, i)
  | none => do
    let r ← v.reduce
    match s.map.lookup r with
    | some i => return ({ s with map := s.map ++ [(v, i)] }, i)
    | none =>
      let i := s.storage.length
      return ({ s with storage := s.storage ++ [⟨[], r⟩], map := s.map ++ [(r, i), (v, i)] }, i)

/-- `HasVertex` (mesh_plane_repairer.cpp 31-39). -/
def hasVertex (s : Repairer) (v : HP3) : Option Bool :=
  match s.map.lookup v with
  | some _ => some true
  | none => do
    let r ← v.reduce
    return (s.map.lookup r).isSome

/-- `AddVertex` for all vertices of a facet (mesh_plane_repairer.h 101-111). -/
def addVertices (s : Repairer) : List HP3 → Option (Repairer × List Nat)
  | [] => some (s, [])
  | v :: r => do
    let (s, i) ← addVertex s v
    let (s, l) ← addVertices s r
    return (s, i :: l)

/-- The outer loop of `GetNextPlanarRange` (mesh_plane_repairer.cpp 106-129) without the inner loop: the accepted vertices, the
ones that remain, and whether the first of these was rejected. -/
def frontLoop (st : List VInfo) (b : Builder) : List Nat → Option (Builder × List Nat × List Nat × Bool)
  | [] => some (b, [], [], false)
  | i :: r => do
    let v ← st[i]?
    if v.canAddAdjacent then do
      let (b, large) ← b.hasLargePlane
      if large then return (b, [], i :: r, false)
      let (b, acc, rest, rej) ← frontLoop st (b.addUnconstrained v.point) r
      return (b, i :: acc, rest, rej)
    else do
      let (b, ok) ← b.tryAddConstrained v.point
      if ok then do
        let (b, acc, rest, rej) ← frontLoop st b r
        return (b, i :: acc, rest, rej)
      else return (b, [], i :: r, true)

/-- The inner loop of `GetNextPlanarRange` (mesh_plane_repairer.cpp 116-126) on the remaining vertices from the last to the first:
the accepted vertices in this order, and the ones that remain.  Running past the first remaining vertex is not excluded by the
code; the model is undefined then. -/
def endLoop (st : List VInfo) (b : Builder) : List Nat → Option (Builder × List Nat × List Nat)
  | [] => none
  | i :: r => do
    let v ← st[i]?
    if v.canAddAdjacent then do
      let (b, large) ← b.hasLargePlane
      if large then return (b, [], i :: r)
      let (b, acc, rest) ← endLoop st (b.addUnconstrained v.point) r
      return (b, i :: acc, rest)
    else do
      let (b, ok) ← b.tryAddConstrained v.point
      if ok then do
        let (b, acc, rest) ← endLoop st b r
        return (b, i :: acc, rest)
      else return (b, [], i :: r)

/-- `GetNextPlanarRange` (mesh_plane_repairer.cpp 88-131): the plane, the vertices accepted from the front, the ones that
remain, and the vertices accepted from the end, from the last to the first. -/
def nextRange (st : List VInfo) (range : List Nat) : Option (HS3 × List Nat × List Nat × List Nat) := do
  let i ← range.getLast?
  let v ← st[i]?
  let b ← (if v.canAddAdjacent then some (({} : Builder).addUnconstrained v.point)
    else do return (← ({} : Builder).tryAddConstrained v.point).1)
  let (b, acc, rest, rej) ← frontLoop st b range.dropLast
  let (b, acc', rest) ← (if rej then do
      let (b, acc', rest') ← endLoop st b rest.reverse
      return (b, acc', rest'.reverse)
    else some (b, [], rest))
  let p ← b.build
  return (p, acc, rest, i :: acc')

/-- The calls of `TryAddAdjacent` in `FinishFacet` (mesh_plane_repairer.h 221-235). -/
def addAdjacent (st : List VInfo) (p : HS3) : List Nat → Option (List VInfo)
  | [] => some st
  | i :: r => do
    let v ← st[i]?
    let v ← v.tryAddAdjacent p
    addAdjacent (st.set i v) p r

/-- The loop of `FinishFacet` (mesh_plane_repairer.h 212-244) on the range of remaining vertices.  `fuel` bounds the number of
rounds; `finishLoop_fuel` shows that the length of the range is enough. -/
def finishLoop : Nat → Repairer → List Nat → Option Repairer
  | 0, _, _ => none
  | fuel + 1, s, range => do
    let (p, acc, rest, acc') ← nextRange s.storage range
    if acc = [] then none  -- the assertion in line 219
    else do
      let st ← addAdjacent s.storage p (acc ++ acc')
      let vertices := s.vertices ++ acc ++ acc'
      let s := { s with storage := st, vertices := vertices, polygons := s.polygons ++ [(p, vertices.length)] }
      if rest = [] then return s
      else do
        let x ← acc.getLast?
        let y ← acc'.getLast?
        finishLoop fuel s (x :: rest ++ [y])

/-- `AddVertex` for the vertices of a facet and `FinishFacet` (mesh_plane_repairer.h 101-116, 203-247). -/
def addFacet (s : Repairer) (facet : List HP3) : Option Repairer := do
  let (s, active) ← addVertices s facet
  finishLoop active.length s active

/-- All facets.  Successive calls of `AddVertex` and `FinishFacet`, mesh_plane_repairer.h 106-121. -/
def addFacets (s : Repairer) : List (List HP3) → Option Repairer
  | [] => some s
  | f :: r => do
    let s ← addFacet s f
    addFacets s r

/-- `FinalizeVertices` (mesh_plane_repairer.cpp 133-137). -/
def finalizeVertices (st : List VInfo) : Option (List VInfo) :=
  st.mapM fun v => if v.adjacent.length ≠ 3 then v.finalize else some v

/-- The polygons that `MeshPlaneRepairerProducer` yields (mesh_plane_repairer.h 175-192). -/
def produce (st : List VInfo) (vertices : List Nat) : Nat → List (HS3 × Nat) → Option (List (HS3 × List HP3))
  | _, [] => some []
  | start, (p, stop) :: r => do
    let l ← ((vertices.drop start).take (stop - start)).mapM fun i => (st[i]?).map VInfo.point
    let q ← produce st vertices stop r
    return (p, l) :: q

/-- A mesh through the repairer: all facets are added, `FinalizeMesh` (mesh_plane_repairer.h 200-207) is called, and the polygons
are read. -/
def repairMesh (facets : List (List HP3)) : Option (List (HS3 × List HP3)) := do
  let s ← addFacets {} facets
  let st ← finalizeVertices s.storage
  produce st s.vertices 0 s.polygons

end Walnut.Repair
