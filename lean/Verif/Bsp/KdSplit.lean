/-
Model of the k-d split of a node: `SetAdjacentBoundaryAngles` (bsp_polygon.h), `ApplyPrimary` and `IsNewLocationCorrect`
(polygon_event_point.h) and `BSPNode::Split(partition, ...)` (bsp_node.h).

`none` is a failed assertion, an access outside of an array or another undefined behaviour.  A polygon that was moved from
is not read again, so that the vector of the parent's polygons does not change during the loop.
-/
import Verif.Bsp.Events
import Verif.Bsp.Node

namespace Walnut.Bsp
open Walnut.Geom Walnut.Poly

/-- `static_cast<size_t>(-1)`. -/
def noIndex : Nat := 2 ^ 64 - 1

/-- What the event points see of a polygon: `id`, `min_vertex(dimension)` and `max_vertex(dimension)`
(aabb_convex_polygon.h 117-147); only an `AABBConvexPolygon` has them. -/
def BPoly.extent (dim : Fin 3) (p : BPoly) : Option EPoly :=
  match p.tracker with
  | none => none
  | some T =>
    match p.poly.edges[T.lo dim]?, p.poly.edges[T.hi dim]? with
    | some a, some b => some ⟨p.id, a.vertex, b.vertex⟩
    | _, _ => none

/-- The extents of a vector of polygons (`min_vertex` and `max_vertex` of each polygon, aabb_convex_polygon.h 127-150). -/
def extents (dim : Fin 3) (l : List BPoly) : Option (List EPoly) := l.mapM (BPoly.extent dim)

/-- `split->IsCoincident(vertex(i % vertex_count()))` (bsp_polygon.h 205-206 and 214-215). -/
def BPoly.touches (p : BPoly) (g : HS3) (i : Nat) : Bool := g.isCoincident (p.poly.vertexD (i % p.poly.count))

/-- The first loop of `SetAdjacentBoundaryAngles` (bsp_polygon.h 196-210): `coincident_begin` is `adjacent` plus the last
argument; `none` if everything is coincident. -/
def BPoly.adjacentBack (p : BPoly) (g : HS3) (adjacent : Nat) : Nat → Option Nat
  | 0 => none
  | k + 1 => if p.touches g (adjacent + (k + 1)) then p.adjacentBack g adjacent k else some (adjacent + (k + 1))

/-- The second loop of `SetAdjacentBoundaryAngles` (bsp_polygon.h 214-217), at most the first argument steps. -/
def BPoly.adjacentFwd (p : BPoly) (g : HS3) : Nat → Nat → Option Nat
  | 0, _ => none
  | fuel + 1, e => if p.touches g e then p.adjacentFwd g fuel (e + 1) else some e

/-- `SetAdjacentBoundaryAngles` (bsp_polygon.h 195-221). -/
def BPoly.setAdjacent (p : BPoly) (ref : PlaneRef) (pos : Bool) (adjacent : Nat) : Option BPoly :=
  let c : SplitSide := ⟨some ref, pos⟩
  if p.poly.count = 0 then none
  else
    match p.adjacentBack ref.plane adjacent (p.poly.count - 1) with
    | none => some { p.setBoundary c 0 (p.poly.count + 1) with onNode := c }
    | some b =>
      let b := (b + 1) % p.poly.count
      (p.adjacentFwd ref.plane p.poly.count (adjacent + p.poly.count + 1)).map fun e =>
        p.setBoundary c b ((e - b) % p.poly.count + b)

/-- `IsNewLocationCorrect` (polygon_event_point.h 1074-1097) on arrays with at least `2 * polys.length` entries; a failed
assertion inside is also `false`. -/
def newLocCorrect (dim : Fin 3) (polys : List EPoly) (ev : List EP) : Bool :=
  (List.range (2 * polys.length)).all fun i =>
    match ev[i]? with
    | none => false
    | some e =>
      if i = 0 then e.newLoc && (e.location polys ev).isSome
      else
        match ev[i - 1]? with
        | none => false
        | some p =>
          match p.location polys ev, e.location polys ev with
          | some x, some y => decide (x.compareComponent dim y ≤ 0) && (e.newLoc != (y.compareComponent dim x == 0))
          | _, _ => false

/-- The arrays, vectors and variables that the loop of `ApplyPrimary` changes (polygon_event_point.h 510-567). -/
structure Prim where
  ev : List EP
  negEv : List EP
  map : List Nat
  neg : List BPoly
  pos : List BPoly
  negBorder : List BPoly
  posBorder : List BPoly
  usedExtra : Nat := 0
  negUsed : Nat := 0
  posUsed : Nat := 0
  negNew : Bool := true
  posNew : Bool := true

/-- A write to an element of an array; outside of the array it is undefined.  C++ semantics; used for the arrays of
polygon_event_point.h 600-740. -/
def putAt {α : Type} (l : List α) (i : Nat) (x : α) : Option (List α) := if i < l.length then some (l.set i x) else none

/-- `a[i].index = x` (polygon_event_point.h 618-727). -/
def setIndex (l : List EP) (i x : Nat) : Option (List EP) :=
  match l[i]? with
  | none => none
  | some e => some (l.set i { e with index := x })

/-- The variables for new locations at the beginning of an iteration (polygon_event_point.h 570-587). -/
def Prim.location (part : EPart) (i : Nat) (e : EP) (st : Prim) : Option Prim :=
  if !e.newLoc then some st
  else if i = part.locBegin then
    if st.negUsed + st.usedExtra = part.neg * 2 ∧ 0 < st.usedExtra then
      match st.negEv[part.neg * 2 - st.usedExtra]? with
      | none => none
      | some x => some { st with
          negNew := true
          posNew := decide (st.usedExtra = 0)
          negEv := st.negEv.set (part.neg * 2 - st.usedExtra) { x with newLoc := true } }
    else some { st with negNew := true, posNew := decide (st.usedExtra = 0) }
  else some { st with negNew := true, posNew := true }

/-- A polygon on the split plane (polygon_event_point.h 602-618): `j` is its index and `t` the index of its end event. -/
def Prim.border (dim : Fin 3) (ref : PlaneRef) (p : BPoly) (j t : Nat) (st : Prim) : Option Prim :=
  let pos := decide (p.poly.plane.n.comp dim < 0)
  let c : SplitSide := ⟨some ref, pos⟩
  let p := { p.setBoundary c 0 (p.poly.count + 1) with onNode := c }
  match putAt st.map j noIndex, setIndex st.ev t noIndex with
  | some m, some ev =>
    some { st with
      map := m
      ev := ev
      posBorder := if pos then st.posBorder ++ [p] else st.posBorder
      negBorder := if pos then st.negBorder else st.negBorder ++ [p] }
  | _, _ => none

/-- A polygon that goes to the positive child only (polygon_event_point.h 620-636). -/
def Prim.toPos (dim : Fin 3) (ref : PlaneRef) (part : EPart) (i : Nat) (p : BPoly) (j t : Nat) (st : Prim) : Option Prim :=
  match p.tracker with
  | none => none
  | some T =>
    match (if i < part.locEnd then p.setAdjacent ref true (T.lo dim) else some p) with
    | none => none
    | some q =>
      match putAt st.map j (st.pos.length + part.neg), setIndex st.ev t (st.posUsed + st.neg.length * 2) with
      | some m, some ev =>
        (putAt ev st.posUsed ⟨st.posNew, true, st.pos.length⟩).map fun ev =>
          { st with map := m, ev := ev, pos := st.pos ++ [q], posUsed := st.posUsed + 1, posNew := false }
      | _, _ => none

/-- A polygon that is split in two (polygon_event_point.h 640-678). -/
def Prim.toBoth (ref : PlaneRef) (part : EPart) (extra : Nat) (p : BPoly) (j t : Nat) (st : Prim) : Option Prim :=
  match p.splitInfo ref.plane with
  | none => none
  | some s =>
    if !s.ranges.emitNeg || !s.ranges.emitPos then none
    else
      match p.splitChildren s with
      | none => none
      | some c =>
        match setChildBoundary c.1 c.2 ref with
        | none => none
        | some c =>
          match putAt st.neg st.usedExtra c.1, putAt st.pos st.usedExtra c.2, putAt st.map j st.usedExtra with
          | some neg, some pos, some m =>
            if part.neg * 2 < st.usedExtra + 1 then none
            else
              let ne := part.neg * 2 - st.usedExtra - 1
              match putAt st.negEv ne ⟨false, false, st.usedExtra⟩ with
              | none => none
              | some negEv =>
                if ¬ st.negUsed + extra < part.neg * 2 then none
                else
                  match putAt negEv st.negUsed ⟨st.negNew, true, ne⟩, setIndex st.ev t (st.posUsed + part.neg * 2) with
                  | some negEv, some ev =>
                    (putAt ev st.posUsed ⟨decide (st.usedExtra = 0), true, st.usedExtra⟩).map fun ev =>
                      { st with
                        neg := neg
                        pos := pos
                        map := m
                        negEv := negEv
                        ev := ev
                        negUsed := st.negUsed + 1
                        posUsed := st.posUsed + 1
                        negNew := false
                        usedExtra := st.usedExtra + 1 }
                  | _, _ => none
          | _, _, _ => none

/-- A polygon that goes to the negative child only (polygon_event_point.h 680-696). -/
def Prim.toNeg (dim : Fin 3) (ref : PlaneRef) (part : EPart) (p : BPoly) (j t : Nat) (st : Prim) : Option Prim :=
  match p.tracker with
  | none => none
  | some T =>
    match (if part.locBegin ≤ t then p.setAdjacent ref false (T.hi dim) else some p) with
    | none => none
    | some q =>
      match putAt st.map j st.neg.length, setIndex st.ev t st.negUsed, putAt st.negEv st.negUsed ⟨st.negNew, true, st.neg.length⟩ with
      | some m, some ev, some negEv =>
        some { st with map := m, ev := ev, negEv := negEv, neg := st.neg ++ [q], negUsed := st.negUsed + 1, negNew := false }
      | _, _, _ => none

/-- A start event (polygon_event_point.h 588-698): the polygon is moved to one or both children. -/
def Prim.onStart (dim : Fin 3) (ref : PlaneRef) (part : EPart) (extra : Nat) (polys : List BPoly) (i t : Nat) (st : Prim) : Option Prim :=
  match st.ev[t]? with
  | none => none
  | some y =>
    match polys[y.index]? with
    | none => none
    | some p =>
      match p.extent dim with
      | none => none
      | some x =>
        if decide (t < part.locEnd) != decide (ref.plane.compareHomo x.hi ≤ 0) then none
        else if part.locBegin ≤ i then
          if t < part.locEnd then st.border dim ref p y.index t else st.toPos dim ref part i p y.index t
        else if t < part.locEnd then st.toNeg dim ref part p y.index t
        else st.toBoth ref part extra p y.index t

/-- An end event (polygon_event_point.h 700-729); `x` is what its `index` was changed to. -/
def Prim.onEnd (part : EPart) (extra : Nat) (x : Nat) (st : Prim) : Option Prim :=
  if x = noIndex then some st
  else if x < st.neg.length * 2 then
    if ¬ x < st.negUsed then none
    else
      match st.negEv[x]? with
      | none => none
      | some s =>
        if !s.start then none
        else if ¬ st.negUsed + extra < part.neg * 2 then none
        else
          match putAt st.negEv st.negUsed ⟨st.negNew, false, s.index⟩ with
          | none => none
          | some negEv =>
            (setIndex negEv x st.negUsed).map fun negEv =>
              { st with negEv := negEv, negUsed := st.negUsed + 1, negNew := false }
  else
    let x := x - st.neg.length * 2
    if ¬ x < st.posUsed then none
    else
      match st.ev[x]? with
      | none => none
      | some s =>
        match putAt st.ev st.posUsed ⟨st.posNew, false, s.index⟩ with
        | none => none
        | some ev =>
          (setIndex ev x st.posUsed).map fun ev => { st with ev := ev, posUsed := st.posUsed + 1, posNew := false }

/-- One iteration of the loop (polygon_event_point.h 568-731). -/
def Prim.step (dim : Fin 3) (ref : PlaneRef) (part : EPart) (extra : Nat) (polys : List BPoly) (st : Prim) (i : Nat) : Option Prim :=
  match st.ev[i]? with
  | none => none
  | some e =>
    match st.location part i e with
    | none => none
    | some st => if e.start then st.onStart dim ref part extra polys i e.index else st.onEnd part extra e.index

/-- A default constructed `BSPPolygon`, which `std::vector::resize` appends (convex_polygon.h 67-71). -/
def emptyPoly : BPoly := ⟨⟨⟨⟨0, 0, 0⟩, 0⟩, 0, []⟩, some ⟨fun _ => 0, fun _ => 0, AABB.empty⟩, 0, {}⟩

/-- `ApplyPrimary` (polygon_event_point.h 492-738) for new children; `mem` and `map` are the arrays `neg_event_points` and
`polygon_index_map` with any contents. -/
def applyPrimary (dim : Fin 3) (ref : PlaneRef) (part : EPart) (polys : List BPoly) (ev mem : List EP) (map : List Nat) : Option Prim :=
  match extents dim polys with
  | none => none
  | some xs =>
    match ev[part.split.toNat]? with
    | none => none
    | some e =>
      if e.start || ¬ part.split.toNat < polys.length * 2 then none
      else if eventPlane dim xs ev part ≠ some ref.plane then none
      else if part.neg + part.pos + part.border < polys.length then none
      else if !newLocCorrect dim xs ev then none
      else
        let extra := part.neg + part.pos + part.border - polys.length
        let st : Prim := ⟨ev, mem, map, List.replicate extra emptyPoly, List.replicate extra emptyPoly, [], [], 0, 0, 0, true, true⟩
        match (List.range (polys.length * 2)).foldlM (Prim.step dim ref part extra polys) st with
        | none => none
        | some st =>
          if st.negUsed + st.usedExtra ≠ st.neg.length * 2 ∨ st.posUsed ≠ st.pos.length * 2 then none
          else
            match extents dim st.neg, extents dim st.pos with
            | some ns, some ps => if newLocCorrect dim ns st.negEv && newLocCorrect dim ps st.ev then some st else none
            | _, _ => none

/-- `SetPolygonCountFromContents` (bsp_node.h 271-278). -/
def NodeData.count (d : NodeData) : Option NodeData :=
  (d.contents.foldlM (fun i (p : BPoly) => bump i p.id fun i => { i with interior := i.interior + 1 }) d.info).bind fun info =>
    (d.border.foldlM (fun i (p : BPoly) => bump i p.id fun i => { i with border := i.border + 1 }) info).map fun info =>
      { d with info := info }

/-- `Split(partition, dimension, ...)` on the leaf at `path` (bsp_node.h 69-95); returns the node and what `ApplyPrimary` wrote. -/
def kdSplit (dim : Fin 3) (part : EPart) (path : List Bool) (d : NodeData) (ev mem : List EP) (map : List Nat) : Option (Node × Prim) :=
  match extents dim d.contents with
  | none => none
  | some xs =>
    match eventPlane dim xs ev part with
    | none => none
    | some g =>
      match pushPwn g d.contents ((setPwn d.info).info, (setPwn d.info).info) with
      | none => none
      | some i =>
        if mem.length ≠ part.neg * 2 ∨ map.length ≠ d.contents.length then none
        else
          match applyPrimary dim ⟨path, g⟩ part d.contents ev mem map with
          | none => none
          | some st =>
            match NodeData.count ⟨st.neg, st.negBorder, i.1⟩, NodeData.count ⟨st.pos, st.posBorder, i.2⟩ with
            | some n, some p =>
              (pushAll (pushBorder ⟨path, g⟩) d.border (n, p)).map fun k => (.inner d.clear g (.leaf k.1) (.leaf k.2), st)
            | _, _ => none

end Walnut.Bsp
