/-
Model of the event points of the k-d split: `MakeEventPoints`, `GetLowestCost` and `DiscountBorderPolygons`
(polygon_event_point.h).

A polygon is represented by its mesh and its vertices with the least and the greatest component in the dimension in question.
`none` is a failed assertion, an access outside of an array, or a `size_t` that is decremented below zero.
-/
import Verif.Geom.Model
import Verif.Bsp.Estimator

namespace Walnut.Bsp
open Walnut.Geom

/-- What a `BSPPolygon<AABBConvexPolygon>` is to the functions below: `id`, `min_vertex(dimension)` and
`max_vertex(dimension)` (bsp_polygon.h 251, aabb_convex_polygon.h 127-150). -/
structure EPoly where
  id : Nat
  lo : HP3
  hi : HP3
deriving DecidableEq

/-- `PolygonEventPoint` (polygon_event_point.h 13-69); `index` is `index.partner` or `index.content`. -/
structure EP where
  newLoc : Bool
  start : Bool
  index : Nat
deriving DecidableEq

/-- `GetLocation` (polygon_event_point.h 36-50). -/
def EP.location (polys : List EPoly) (mem : List EP) (e : EP) : Option HP3 :=
  if e.start then
    match mem[e.index]? with
    | none => none
    | some p => if p.start then none else (polys[p.index]?).map EPoly.lo
  else (polys[e.index]?).map EPoly.hi

/-- `event_point_compare` (polygon_event_point.h 342-356). -/
def eventLess (dim : Fin 3) (polys : List EPoly) (mem : List EP) (a b : EP) : Bool :=
  match a.location polys mem, b.location polys mem with
  | some x, some y =>
    if x.compareComponent dim y = 0 then !a.start && b.start else decide (x.compareComponent dim y < 0)
  | _, _ => false

/-- `end_point_compare` (polygon_event_point.h 330-338). -/
def endLess (dim : Fin 3) (polys : List EPoly) (a b : EP) : Bool :=
  match polys[a.index]?, polys[b.index]? with
  | some x, some y => x.hi.isLessThanComponent dim y.hi
  | _, _ => false

/-- `std::make_heap`, `std::pop_heap` and `std::push_heap` as functions of the comparison and the range.  The standard
library functions called at polygon_event_point.h 339, 364 and 373. -/
structure HeapOps where
  make : (EP → EP → Bool) → List EP → List EP
  pop : (EP → EP → Bool) → List EP → List EP
  push : (EP → EP → Bool) → List EP → List EP

/-- The main loop (polygon_event_point.h 361-376): `f` is `finished_begin - event_points`, `h` is `heap_last - event_points`.
The comparison reads only entries from `finished_begin` on, which the heap functions do not move. -/
def makeLoop (o : HeapOps) (dim : Fin 3) (polys : List EPoly) : Nat → List EP → Nat → Option (List EP)
  | 0, mem, h => if h = 0 then some mem else none
  | f + 1, mem, h =>
    if h = 0 then none
    else if !(mem.take h).all (fun e => (e.location polys mem).isSome) then none
    else
      let mem := o.pop (eventLess dim polys mem) (mem.take h) ++ mem.drop h
      let h := h - 1
      match mem[h]? with
      | none => none
      | some m =>
        let mem := mem.set f m
        if !m.start then
          let mem := mem.set h { m with start := true, index := f }
          let mem := o.push (eventLess dim polys mem) (mem.take (h + 1)) ++ mem.drop (h + 1)
          makeLoop o dim polys f mem (h + 1)
        else makeLoop o dim polys f mem h

/-- The end events (polygon_event_point.h 324-327) written to memory with any contents. -/
def fillEnds (mem : List EP) (n : Nat) : List EP :=
  mem.mapIdx fun i e => if i < n then { e with start := false, index := i } else e

/-- The entry `i` in the last loop (polygon_event_point.h 380-386). -/
def markNew (dim : Fin 3) (polys : List EPoly) (mem : List EP) (i : Nat) : Option EP :=
  match mem[i]? with
  | none => none
  | some e =>
    if i = 0 then some { e with newLoc := true }
    else
      match mem[i - 1]? with
      | none => none
      | some p =>
        match p.location polys mem, e.location polys mem with
        | some x, some y => some { e with newLoc := x.isLessThanComponent dim y }
        | _, _ => none

/-- `MakeEventPoints` (polygon_event_point.h 312-388) on an array with any contents. -/
def makeEvents (o : HeapOps) (dim : Fin 3) (polys : List EPoly) (mem : List EP) : Option (List EP) :=
  if mem.length ≠ 2 * polys.length then none
  else
    let mem := fillEnds mem polys.length
    let mem := o.make (endLess dim polys) (mem.take polys.length) ++ mem.drop polys.length
    match makeLoop o dim polys (2 * polys.length) mem polys.length with
    | none => none
    | some mem => (List.range (2 * polys.length)).mapM (markNew dim polys mem)

/-- The loop of `GetCostExclude` (bsp_node.h 216-227) over the entries of `content_info_by_id_`, of which only
`has_interior_polygons` is used; the state is `best` and `count`. -/
def excludeLoop : Nat → List Nat → (Option Nat × Nat) → Nat → (Option Nat × Nat) × Nat
  | _, [], best, count => (best, count)
  | id, c :: l, best, count =>
    if c ≠ 0 then excludeLoop (id + 1) l (if best.2 < c then (some id, c) else best) (count + 1)
    else excludeLoop (id + 1) l best count

/-- `GetCostExclude` (bsp_node.h 215-233). -/
def costExclude (counts : List Nat) : Option Nat × Nat :=
  let r := excludeLoop 0 counts (none, 0) 0
  if 1 < r.2 then r.1 else (none, 0)

/-- `PolygonEventPointPartition` (polygon_event_point.h 137-166). The counts that `GetLowestCost` leaves uninitialised when
there are no polygons are 0. -/
structure EPart where
  split : Word
  cost : Word
  negCost : Word
  posCost : Word
  neg : Nat := 0
  pos : Nat := 0
  border : Nat := 0
  locBegin : Nat := 0
  locEnd : Nat := 0
deriving DecidableEq

/-- The variables of the loop of `GetLowestCost` (polygon_event_point.h 405-416); the estimators are their members. -/
structure Scan where
  neg : Nat
  pos : Nat
  negLog : Nat
  posLog : Nat
  best : EPart
  negEst : Int
  posEst : Int
  lastEnd : Bool
deriving DecidableEq

/-- The evaluation of the split after the event `i - 1` (polygon_event_point.h 421-433 and 446-459). -/
def Scan.consider (st : Scan) (i : Nat) : Option Scan :=
  match estimate st.negEst (BitVec.ofNat 64 st.neg) (BitVec.ofNat 64 st.negLog) with
  | none => none
  | some (nc, ne) =>
    match estimate st.posEst (BitVec.ofNat 64 st.pos) (BitVec.ofNat 64 st.posLog) with
    | none => none
    | some (pc, pe) =>
      let cost := nc + pc
      some { st with
        negEst := ne
        posEst := pe
        best := if cost.toNat < st.best.cost.toNat then
            { st.best with cost := cost, negCost := nc, posCost := pc, split := BitVec.ofNat 64 i - 1#64, neg := st.neg, pos := st.pos }
          else st.best }

/-- One iteration of the loop (polygon_event_point.h 418-444). -/
def Scan.step (excl : Option Nat) (polys : List EPoly) (ev : List EP) (st : Scan) (i : Nat) : Option Scan :=
  match ev[i]? with
  | none => none
  | some e =>
    if e.start then
      match (if st.lastEnd then (st.consider i).map fun st => { st with lastEnd := false } else some st) with
      | none => none
      | some st =>
        match ev[e.index]? with
        | none => none
        | some p =>
          match polys[p.index]? with
          | none => none
          | some q => some { st with neg := st.neg + 1, negLog := if some q.id ≠ excl then st.negLog + 1 else st.negLog }
    else
      match polys[e.index]? with
      | none => none
      | some q =>
        if st.pos = 0 ∨ some q.id ≠ excl ∧ st.posLog = 0 then none
        else some { st with
          pos := st.pos - 1
          posLog := if some q.id ≠ excl then st.posLog - 1 else st.posLog
          lastEnd := true }

/-- `GetLowestCost` (polygon_event_point.h 401-461). `excl` is `exclude_id`; `none` is the id -1, which no polygon has. -/
def lowestCost (excl : Option Nat) (exclCount : Nat) (polys : List EPoly) (ev : List EP) : Option EPart :=
  if polys.length < exclCount then none
  else
    let max : Word := BitVec.allOnes 64
    let st : Scan := ⟨0, polys.length, 1, polys.length - exclCount + 1, { split := max, cost := max, negCost := max, posCost := max }, 0, 0, false⟩
    match (List.range (2 * polys.length)).foldlM (Scan.step excl polys ev) st with
    | none => none
    | some st =>
      if st.lastEnd then (st.consider (2 * polys.length)).map Scan.best else some st.best

/-- The first loop of `DiscountBorderPolygons` (polygon_event_point.h 466-475), from `split_location_begin` = the first argument;
the result is `split_location_begin`, `neg_poly_count` and `border_poly_count`. -/
def discountBack (ev : List EP) : Nat → Nat → Nat → Option (Nat × Nat × Nat)
  | 0, neg, border =>
    match ev[0]? with
    | none => none
    | some e => if e.newLoc then some (0, neg, border) else none
  | b + 1, neg, border =>
    match ev[b + 1]? with
    | none => none
    | some e =>
      if e.newLoc then some (b + 1, neg, border)
      else
        match ev[b]? with
        | none => none
        | some p =>
          if p.start then
            if neg = 0 then none else discountBack ev b (neg - 1) (border + 1)
          else discountBack ev b neg border

/-- The second loop (polygon_event_point.h 476-483); the first argument is the number of remaining events. -/
def discountFwd (ev : List EP) : Nat → Nat → Nat → Option (Nat × Nat)
  | 0, e, pos => some (e, pos)
  | r + 1, e, pos =>
    match ev[e]? with
    | none => none
    | some p =>
      if p.newLoc then some (e, pos)
      else if !p.start then
        if pos = 0 then none else discountFwd ev r (e + 1) (pos - 1)
      else discountFwd ev r (e + 1) pos

/-- The condition in the third loop (polygon_event_point.h 485-486) for the event `i`. -/
def startsBorder (ev : List EP) (e i : Nat) : Bool :=
  match ev[i]? with
  | some x => x.start && decide (x.index < e)
  | none => false

/-- `DiscountBorderPolygons` (polygon_event_point.h 463-490). -/
def discountBorder (ev : List EP) (n : Nat) (p : EPart) : Option EPart :=
  let k := p.split.toNat
  match discountBack ev k p.neg p.border with
  | none => none
  | some (b, neg, border) =>
    match discountFwd ev (2 * n - (k + 1)) (k + 1) p.pos with
    | none => none
    | some (e, pos) =>
      let extra := (List.range e).countP fun i => decide (k ≤ i) && startsBorder ev e i
      some { p with neg := neg, pos := pos, border := border + extra, locBegin := b, locEnd := e }

/-- `GetSplitPlane` (polygon_event_point.h 186-204) with `HalfSpace3::GetAxisAligned`. -/
def eventPlane (dim : Fin 3) (polys : List EPoly) (ev : List EP) (p : EPart) : Option HS3 :=
  match ev[p.split.toNat]? with
  | none => none
  | some e =>
    if e.start then none
    else
      match e.location polys ev with
      | none => none
      | some x =>
        let num := x.v.comp dim
        if x.w < 0 then some (HS3.axisAligned dim (-num) (-x.w)) else some (HS3.axisAligned dim num x.w)

end Walnut.Bsp
