/-
Model of the boolean filters: bsp_content_info.h, bsp_visitor.h 15-237 and
boolean_operation_filter.h.

`size_t` counters are `Nat` and the `int64_t` winding number is an `Int`:
overflow of the counters is not modelled.
-/

namespace Walnut.Bsp

/-- `BSPContentInfo` (bsp_content_info.h 8-34). -/
structure Info where
  interior : Nat := 0
  border : Nat := 0
  pwn : Int := 0
deriving DecidableEq, Repr, Inhabited

/-- `has_polygons()` (bsp_content_info.h 12-14). -/
def Info.hasPolygons (i : Info) : Bool := decide (i.interior ||| i.border ≠ 0)

/-- The filter classes of bsp_visitor.h; the templates make every finite
expression of them possible (bsp_visitor.h 15-236). -/
inductive Filter where
  /-- `PolygonFilter` -/
  | polygon (id : Nat)
  /-- `InvertedPolygonFilter` -/
  | inverted (id : Nat)
  /-- `OddPolygonFilter` -/
  | odd (id : Nat)
  /-- `IntersectionFilter` -/
  | inter (f g : Filter)
  /-- `UnionFilter` -/
  | union (f g : Filter)
  /-- `SubtractionFilter` -/
  | sub (f g : Filter)
  /-- `XORFilter` -/
  | xor (f g : Filter)
deriving DecidableEq, Repr

namespace Filter

/-- `operator()` of the filters: `PolygonFilter` (bsp_visitor.h 24-32),
`InvertedPolygonFilter` (53-61), `OddPolygonFilter` (80-88),
`IntersectionFilter` (100-108), `UnionFilter` (128-136), `SubtractionFilter`
(157-165), `XORFilter` (220-226).  `pwn & 1` of a two's complement number is its
remainder modulo two. -/
def eval : Filter → List Info → Bool × Bool
  | polygon id, c =>
    match c[id]? with
    | none => (false, false)
    | some i => (decide (i.pwn > 0), i.hasPolygons)
  | inverted id, c =>
    match c[id]? with
    | none => (false, false)
    | some i => (decide (i.pwn ≥ 0), i.hasPolygons)
  | odd id, c =>
    match c[id]? with
    | none => (false, false)
    | some i => (decide (i.pwn % 2 ≠ 0), i.hasPolygons)
  | inter f g, c =>
    let r1 := f.eval c
    let r2 := g.eval c
    (r1.1 && r2.1, (r1.1 || r1.2) && (r2.1 || r2.2) && (r1.2 || r2.2))
  | union f g, c =>
    let r1 := f.eval c
    let r2 := g.eval c
    (r1.1 || r2.1, (!r1.1 || r1.2) && (!r2.1 || r2.2) && (r1.2 || r2.2))
  | sub f g, c =>
    let r1 := f.eval c
    let r2 := g.eval c
    (r1.1 && r2.1, (r1.1 || r1.2) && (r2.1 || r2.2) && (r1.2 || r2.2))
  | xor f g, c =>
    let r1 := f.eval c
    let r2 := g.eval c
    (r1.1 ^^ r2.1, r1.2 || r2.2)

end Filter

/-- One round of the loop of `UnionIdsFilter` (boolean_operation_filter.h
36-50). -/
def unionIdsStep (c : List Info) (total : Bool × Bool) (id : Nat) : Bool × Bool :=
  let r : Bool × Bool := match c[id]? with
    | none => (false, false)
    | some i => (decide (i.pwn > 0), i.hasPolygons)
  (total.1 || r.1, (!total.1 || total.2) && (!r.1 || r.2) && (total.2 || r.2))

/-- `UnionIdsFilter::operator()` (boolean_operation_filter.h 31-53). -/
def unionIds (ids : List Nat) (c : List Info) : Bool × Bool :=
  ids.foldl (unionIdsStep c) (false, false)

/-- One round of the loop of `IntersectIdsFilter` (boolean_operation_filter.h
75-89). -/
def intersectIdsStep (c : List Info) (total : Bool × Bool) (id : Nat) : Bool × Bool :=
  let r : Bool × Bool := match c[id]? with
    | none => (false, false)
    | some i => (decide (i.pwn > 0), i.hasPolygons)
  (total.1 && r.1, (total.1 || total.2) && (r.1 || r.2) && (total.2 || r.2))

/-- `IntersectIdsFilter::operator()` (boolean_operation_filter.h 70-92). -/
def intersectIds (ids : List Nat) (c : List Info) : Bool × Bool :=
  ids.foldl (intersectIdsStep c) (true, false)

/-- One round of the loop of `SubtractIdsFilter` (boolean_operation_filter.h
124-139). -/
def subtractIdsStep (c : List Info) (total : Bool × Bool) (id : Nat) : Bool × Bool :=
  let r : Bool × Bool := match c[id]? with
    | none => (false, false)
    | some i => (decide (i.pwn ≥ 0), i.hasPolygons)
  (total.1 && r.1, (total.1 || total.2) && (r.1 || r.2) && (total.2 || r.2))

/-- `SubtractIdsFilter::operator()` (boolean_operation_filter.h 111-142).  The
code reads the information of id `0` (lines 121-122), whatever the first listed
id is; `ids_[0] < size()` makes that access defined. -/
def subtractIds (ids : List Nat) (c : List Info) : Bool × Bool :=
  match ids with
  | [] => (false, false)
  | id0 :: rest =>
    if id0 ≥ c.length then (false, false)
    else
      match c with
      | [] => (false, false)
      | i :: _ => rest.foldl (subtractIdsStep c) (decide (i.pwn > 0), i.hasPolygons)

end Walnut.Bsp
