/-
Model of connecting half-edges along a line: `EdgeLineConnector::ConnectEdgesInLine` (edge_line_connector.h) and the parts of
`ConnectedEdge` (connected_polygon.h) and `ConvexPolygon::SplitEdge` (convex_polygon.h) that it uses.

An edge is identified by a number that it keeps when it is moved in memory; so a `Deed` (C41) and the pointers in `partner_` are
numbers.  That moving an edge carries its partner along is modelled in Conn/Move.lean.  `none` is a failed assertion, an edge that
is not in its polygon, or an undefined comparison.
-/
import Verif.Geom.Model
import Mathlib.Logic.Function.Basic

namespace Walnut.Conn
open Walnut.Geom

/-- The polygons (`ConnectedPolygon`) and their half-edges (`ConnectedEdge`, connected_polygon.h 18-226), numbered from 0 to
`count`.  `cycle p` are the edges of polygon `p` in order (`edges_`), `poly e` is `polygon_`, `partner e` is `partner_`. -/
structure Net where
  count : Nat
  vertex : Nat → HP3
  line : Nat → PL
  poly : Nat → Nat
  partner : Nat → Option Nat
  cycle : Nat → List Nat
  normal : Nat → V3

/-- The element after `e` in a list that is read as a cycle.  The index `(i + 1) % vertex_count()` of connected_polygon.h 121-127. -/
def succIn (l : List Nat) (e : Nat) : Option Nat :=
  if e ∈ l then l[(l.idxOf e + 1) % l.length]? else none

namespace Net

/-- `IsPositive` (connected_polygon.h 80-84). -/
def isPositive (N : Net) (k : Fin 3) (e : Nat) : Bool := decide (0 ≤ (N.line e).d.comp k)

/-- `next_vertex` (connected_polygon.h 87-92), with `edge_index` (connected_polygon.h 74-77). -/
def nextVertex (N : Net) (e : Nat) : Option HP3 := (succIn (N.cycle (N.poly e)) e).map N.vertex

/-- `GetBeginLocation` (connected_polygon.h 103-110). -/
def beginLoc (N : Net) (k : Fin 3) (e : Nat) : Option HP3 :=
  if N.isPositive k e then some (N.vertex e) else N.nextVertex e

/-- `GetEndLocation` (connected_polygon.h 131-141). -/
def endLoc (N : Net) (k : Fin 3) (e : Nat) : Option HP3 :=
  if N.isPositive k e then N.nextVertex e else some (N.vertex e)

/-- The assertions of `SplitEdge` (convex_polygon.h 577-594). -/
def splitOk (N : Net) (e : Nat) (mid next : HP3) : Bool :=
  (N.line e).isCoincident mid &&
  lessThan (hasDifferentSign (N.vertex e).w mid.w) ((N.line e).d.dot (N.vertex e).v * mid.w)
    ((N.line e).d.dot mid.v * (N.vertex e).w) &&
  lessThan (hasDifferentSign mid.w next.w) ((N.line e).d.dot mid.v * next.w) ((N.line e).d.dot (next.v.scale mid.w))

/-- `SplitEdge` (convex_polygon.h 575-597); the new edge is made by `ConnectedEdge(parent_edge, vertex)`
(connected_polygon.h 42-44) and gets the number `count`. -/
def splitEdge (N : Net) (e : Nat) (mid : HP3) : Option Net :=
  match N.nextVertex e with
  | none => none
  | some next =>
    if N.splitOk e mid next then
      some { N with
        count := N.count + 1
        vertex := Function.update N.vertex N.count mid
        line := Function.update N.line N.count (N.line e)
        poly := Function.update N.poly N.count (N.poly e)
        partner := Function.update N.partner N.count none
        cycle := Function.update N.cycle (N.poly e)
          ((N.cycle (N.poly e)).insertIdx ((N.cycle (N.poly e)).idxOf e + 1) N.count) }
    else none

end Net

/-- `ActiveEdgeKey` (edge_line_connector.h 323-346). -/
structure Key where
  pos : Bool
  normal : V2
deriving DecidableEq

/-- `ActiveEdgeKey::operator<` (edge_line_connector.h 331-342). -/
def keyLess (a b : Key) : Option Bool :=
  match a.normal.isSameDir b.normal with
  | none => none
  | some false => some (a.normal.isRotationLessThan b.normal)
  | some true => some (a.pos && !b.pos)

/-- `std::pop_heap` and `std::push_heap` as functions of the comparison and the range.  The standard library functions
called at edge_line_connector.h 249 and 428. -/
structure HeapFns where
  pop : (Nat → Nat → Bool) → List Nat → List Nat
  push : (Nat → Nat → Bool) → List Nat → List Nat

/-- The variables of `ConnectEdgesInLine` (edge_line_connector.h 171-263).  An entry of `active_edges` is identified by the number
that its edge had when it was added; `order` are the entries in the order of the map, `key`, `edge`, `mate` and `cur` are
`first`, `second.edge`, `second.partner` (`none` is `active_edges.end()`) and `second.current_endpoint` of each.  `ends` is
`end_events_`, `need` is `need_partners_` with its last element first, `errors` is the number of calls of `error`. -/
structure St where
  net : Net
  order : List Nat
  key : Nat → Key
  edge : Nat → Nat
  mate : Nat → Option Nat
  cur : Nat → Bool
  ends : List Nat
  need : List Nat
  errors : Nat

/-- `IsLocationLessThan` (edge_line_connector.h 315-320). -/
def isLocationLess (k : Fin 3) (a b : HP3) : Bool := Rational.isLessThan (a.v.comp k) a.w (b.v.comp k) b.w

/-- `EndEventsCompare` (edge_line_connector.h 377-390). -/
def endLess (k : Fin 3) (s : St) (a b : Nat) : Bool :=
  match s.net.endLoc k (s.edge b), s.net.endLoc k (s.edge a) with
  | some y, some x => isLocationLess k y x
  | _, _ => false

/-- `active_edges.emplace` for the entry `h` with the key `c`, in the list of the entries in order; the second result is
whether it was inserted (edge_line_connector.h 222-228).  The position is sought from the beginning. -/
def emplace (key : Nat → Key) (c : Key) (h : Nat) : List Nat → Option (List Nat × Bool)
  | [] => some ([h], true)
  | g :: l =>
    match keyLess (key g) c, keyLess c (key g) with
    | some true, some _ => (emplace key c h l).map fun r => (g :: r.1, r.2)
    | some false, some true => some (h :: g :: l, true)
    | some false, some false => some (g :: l, false)
    | _, _ => none

/-- The inside of the `if` in `ProcessEndEvents` (edge_line_connector.h 418-424). -/
def unmate (s : St) (h : Nat) : Option St :=
  match s.mate h with
  | none => some s
  | some p =>
    if s.mate p = some h then
      some { s with need := p :: p :: s.need, mate := Function.update s.mate p none }
    else none

/-- The first loop of `ProcessEndEvents` (edge_line_connector.h 407-430): `heap` is `end_events_` up to `heap_end`, `done` the
rest.  The first argument is the size of the heap. -/
def endLoop (o : HeapFns) (k : Fin 3) (loc : HP3) : Nat → St → List Nat → List Nat → Option (St × List Nat × List Nat)
  | _, s, [], done => some (s, [], done)
  | 0, _, _ :: _, _ => none
  | n + 1, s, h :: t, done =>
    if !(h :: t).all (fun g => (s.net.endLoc k (s.edge g)).isSome) then none
    else
      match s.net.endLoc k (s.edge h) with
      | none => none
      | some y =>
        if y.eq loc then
          match unmate s h with
          | none => none
          | some s =>
            let s := { s with mate := Function.update s.mate h (some h) }
            let l := o.pop (endLess k s) (h :: t)
            match l.getLast? with
            | none => none
            | some m => endLoop o k loc n s l.dropLast (m :: done)
        else some (s, h :: t, done)

/-- `ProcessEndEvents` (edge_line_connector.h 399-446) with `RemoveFinishedEdgesFromNeedPartners`
(edge_line_connector.h 541-547). -/
def processEnds (o : HeapFns) (k : Fin 3) (loc : HP3) (s : St) : Option St :=
  match endLoop o k loc s.ends.length s s.ends [] with
  | none => none
  | some (s, heap, done) =>
    if done.all fun h => decide (s.mate h = some h) then
      some { s with
        need := s.need.filter fun h => decide (s.mate h ≠ some h)
        order := s.order.filter fun h => decide (h ∉ done)
        ends := heap }
    else none

/-- `MaybeSplitEdge` (edge_line_connector.h 518-537). -/
def maybeSplit (s : St) (h : Nat) (loc : HP3) : Option St :=
  if s.cur h then some s
  else
    match s.net.splitEdge (s.edge h) loc with
    | none => none
    | some N =>
      let n := s.net.count
      if (s.key h).pos then some { s with net := N, edge := Function.update s.edge h n }
      else
        let q := N.partner (s.edge h)
        let p := Function.update (Function.update N.partner n q) (s.edge h) none
        let p := match q with
          | none => p
          | some q => Function.update p q (some n)
        some { s with net := { N with partner := p } }

/-- The neighbour of the entry `h` that should be its partner (edge_line_connector.h 455-471): the previous entry for a positive
edge, the next one for a negative edge. -/
def neighbour (order : List Nat) (pos : Bool) (h : Nat) : Option Nat :=
  if pos then succIn order.reverse h else succIn order h

/-- An entry gives up its partner, which is put into `need_partners_` (edge_line_connector.h 478-484 and 500-506); `p` is the
new partner, which the old one must differ from. -/
def release (s : St) (h p : Nat) : Option St :=
  match s.mate h with
  | none => some s
  | some o =>
    if o = h ∨ o = p then none else some { s with need := o :: s.need, mate := Function.update s.mate h none }

/-- The inside of the loop of `ProcessNeedPartners` (edge_line_connector.h 453-514) for the entry `h` that was removed from
`need_partners_`. -/
def repartner (loc : HP3) (s : St) (h : Nat) : Option St :=
  match neighbour s.order (s.key h).pos h with
  | none => none
  | some p =>
    if s.mate h = some p then some s
    else
      match release s h p with
      | none => none
      | some s =>
        if (s.key h).pos = (s.key p).pos then
          match maybeSplit { s with errors := s.errors + 1 } h loc with
          | none => none
          | some s => if s.net.partner (s.edge h) = none then some s else none
        else
          match release s p h with
          | none => none
          | some s =>
            match maybeSplit { s with mate := Function.update (Function.update s.mate h (some p)) p (some h) } h loc with
            | none => none
            | some s =>
              match maybeSplit s p loc with
              | none => none
              | some s =>
                if s.net.partner (s.edge h) = none ∧ s.net.partner (s.edge p) = none then
                  some { s with net := { s.net with
                    partner := Function.update (Function.update s.net.partner (s.edge h) (some (s.edge p))) (s.edge p)
                      (some (s.edge h)) } }
                else none

/-- `ProcessNeedPartners` (edge_line_connector.h 449-516), with a bound on the number of iterations; it is reached by no
execution that theorem `C53_closed` is about. -/
def processNeed (loc : HP3) : Nat → St → Option St
  | n, s =>
    match s.need with
    | [] => some s
    | h :: need =>
      match n with
      | 0 => none
      | n + 1 =>
        match repartner loc { s with need := need } h with
        | none => none
        | some s => processNeed loc n s

/-- The key of an edge (edge_line_connector.h 214-224). -/
def keyOf (N : Net) (k : Fin 3) (e : Nat) : Key :=
  ⟨N.isPositive k e, if N.isPositive k e then (N.normal (N.poly e)).dropDimension k
    else ((N.normal (N.poly e)).dropDimension k).neg⟩

/-- The loop over the edges that begin at the current location (edge_line_connector.h 211-241); the second result are the
edges that remain. -/
def beginLoop (k : Fin 3) (loc : HP3) : List Nat → St → Option (St × List Nat)
  | [], s => some (s, [])
  | e :: r, s =>
    match s.net.beginLoc k e with
    | none => none
    | some b =>
      if b.eq loc then
        match emplace s.key (keyOf s.net k e) e s.order with
        | none => none
        | some (_, false) => beginLoop k loc r { s with errors := s.errors + 1 }
        | some (order, true) =>
          beginLoop k loc r { s with
            net := { s.net with partner := Function.update s.net.partner e none }
            order := order
            key := Function.update s.key e (keyOf s.net k e)
            edge := Function.update s.edge e e
            mate := Function.update s.mate e none
            cur := Function.update s.cur e true
            ends := s.ends ++ [e]
            need := e :: s.need }
      else some (s, e :: r)

/-- The loop that adds the new end events to the heap (edge_line_connector.h 245-250). -/
def pushLoop (o : HeapFns) (k : Fin 3) : List Nat → List Nat → St → St
  | heap, [], s => { s with ends := heap }
  | heap, h :: t, s =>
    let s := { s with cur := Function.update s.cur h false }
    pushLoop o k (o.push (endLess k s) (heap ++ [h])) t s

/-- The number of iterations after which `processNeed` gives up.  Not in the code: bounds the loop of `ProcessNeedPartners`,
called at edge_line_connector.h 243. -/
def needFuel (s : St) : Nat := 2 * s.order.length + s.need.length

/-- One iteration of the outer loop at the current location, after the end events (edge_line_connector.h 205-250). -/
def roundAt (o : HeapFns) (k : Fin 3) (loc : HP3) (s : St) (range : List Nat) : Option (St × List Nat) :=
  if s.ends.length ≠ s.order.length then none
  else
    let size := s.ends.length
    match beginLoop k loc range s with
    | none => none
    | some (s, rest) =>
      match processNeed loc (needFuel s) s with
      | none => none
      | some s => some (pushLoop o k (s.ends.take size) (s.ends.drop size) s, rest)

/-- The choice of the current location (edge_line_connector.h 184-197): the begin of the first remaining edge, or the first end
event, which is then processed. -/
def nextLocation (o : HeapFns) (k : Fin 3) (s : St) (e : Nat) : Option (HP3 × St) :=
  match s.net.beginLoc k e with
  | none => none
  | some b =>
    match s.ends with
    | [] => some (b, s)
    | h :: _ =>
      match s.net.endLoc k (s.edge h) with
      | none => none
      | some y =>
        if isLocationLess k b y then some (b, s)
        else (processEnds o k y s).map fun s => (y, s)

/-- Both outer loops (edge_line_connector.h 183-262).  The first argument bounds the number of iterations, `prev` is
`prev_location`. -/
def connectLoop (o : HeapFns) (k : Fin 3) : Nat → Option HP3 → St → List Nat → Option St
  | 0, _, _, _ => none
  | n + 1, prev, s, e :: range =>
    match nextLocation o k s e with
    | none => none
    | some (loc, s) =>
      if prev.any (fun p => !isLocationLess k p loc && isLocationLess k loc p) then none
      else
        match roundAt o k loc s (e :: range) with
        | none => none
        | some (s, rest) => connectLoop o k n (some loc) s rest
  | n + 1, prev, s, [] =>
    match s.ends with
    | [] => if s.order = [] ∧ s.need = [] then some s else none
    | h :: _ =>
      match s.net.endLoc k (s.edge h) with
      | none => none
      | some loc =>
        match processEnds o k loc s with
        | none => none
        | some s =>
          match processNeed loc (needFuel s) s with
          | none => none
          | some s => connectLoop o k n prev s []

/-- The state at the beginning (edge_line_connector.h 174-182); the members of entries that do not exist are arbitrary. -/
def St.init (N : Net) : St :=
  ⟨N, [], fun _ => ⟨false, ⟨0, 0⟩⟩, id, fun _ => none, fun _ => false, [], [], 0⟩

/-- `ConnectEdgesInLine` (edge_line_connector.h 170-263).  The results are the polygons and the number of errors.  The outer
loops have at most two iterations for every edge, see `C53_closed`. -/
def connectLine (o : HeapFns) (k : Fin 3) (N : Net) (range : List Nat) : Option (Net × Nat) :=
  (connectLoop o k (2 * range.length + 1) none (St.init N) range).map fun s => (s.net, s.errors)

end Walnut.Conn
