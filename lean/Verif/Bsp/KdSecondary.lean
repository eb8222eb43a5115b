/-
Model of `ApplySecondary` (polygon_event_point.h), which divides the event points of the two dimensions that a k-d split does
not use.

`none` is a failed assertion, an access outside of an array or not enough fuel.
-/
import Verif.Bsp.KdSplit

namespace Walnut.Bsp
open Walnut.Geom Walnut.Poly

/-- `PolygonMergeEvent` (polygon_event_point.h 71-84). -/
structure MEvent where
  start : Bool
  posChild : Bool
  poly : Nat
  partner : Nat
deriving DecidableEq

/-- `GetLocation` (polygon_event_point.h 86-100). -/
def MEvent.location (ns ps : List EPoly) (m : MEvent) : Option HP3 :=
  ((if m.posChild then ps else ns)[m.poly]?).map fun x => if m.start then x.lo else x.hi

/-- `PolygonMergeEventCompare` (polygon_event_point.h 103-135). -/
def mergeGreater (dim : Fin 3) (ns ps : List EPoly) (a b : MEvent) : Bool :=
  match a.location ns ps, b.location ns ps with
  | some x, some y =>
    if x.compareComponent dim y > 0 then true
    else if x.compareComponent dim y < 0 then false
    else a.start && !b.start
  | _, _ => false

/-- `std::pop_heap` and `std::push_heap` on merge events.  The standard library functions called at polygon_event_point.h
893, 976, 981, 1018 and 1029. -/
structure MergeOps where
  pop : (MEvent → MEvent → Bool) → List MEvent → List MEvent
  push : (MEvent → MEvent → Bool) → List MEvent → List MEvent

/-- The arrays and variables of `ApplySecondary` (polygon_event_point.h 810-851). `heap` is the range from `heap_start` to
`heap_end`, `cur` is `event_points_pos - event_points`. -/
structure Sec where
  ev : List EP
  negEv : List EP
  posEv : List EP
  heap : List MEvent := []
  cur : Nat := 0
  negUsed : Nat := 0
  posUsed : Nat := 0
  negNew : Bool := true
  posNew : Bool := true
  heapLoc : Option HP3 := none
  doHeap : Bool := false
  doMain : Bool := false

/-- What does not change: the dimension, the extents of the children's polygons, `polygon_index_map`, the number of the
parent's polygons and `extra_poly_count`.  The parameters, polygon_event_point.h 799-809. -/
structure SecEnv where
  ops : MergeOps
  dim : Fin 3
  ns : List EPoly
  ps : List EPoly
  map : List Nat
  parent : Nat
  extra : Nat

/-- The event that is appended to a child's array (polygon_event_point.h 876-937 and after). -/
def Sec.emit (pos start : Bool) (index : Nat) (st : Sec) : Option Sec :=
  if pos then
    (putAt st.posEv st.posUsed ⟨st.posNew, start, index⟩).map fun l =>
      { st with posEv := l, posUsed := st.posUsed + 1, posNew := false }
  else
    (putAt st.negEv st.negUsed ⟨st.negNew, start, index⟩).map fun l =>
      { st with negEv := l, negUsed := st.negUsed + 1, negNew := false }

/-- The number of events in a child's array (`neg_event_points` and `pos_event_points`, polygon_event_point.h 810-851). -/
def Sec.used (pos : Bool) (st : Sec) : Nat := if pos then st.posUsed else st.negUsed

/-- `child_event_points[i].index.partner = x` (polygon_event_point.h 831-1057). -/
def Sec.setPartner (pos : Bool) (i x : Nat) (st : Sec) : Option Sec :=
  if pos then (setIndex st.posEv i x).map fun l => { st with posEv := l }
  else (setIndex st.negEv i x).map fun l => { st with negEv := l }

/-- Whether events of the heap are at the same location (polygon_event_point.h 895-900 and 983-988). -/
def Sec.checkHeap (E : SecEnv) (st : Sec) : Option Sec :=
  match st.heap with
  | [] => some { st with doHeap := false }
  | m :: _ =>
    match m.location E.ns E.ps, st.heapLoc with
    | some x, some y => some { st with doHeap := st.doHeap && (y.compareComponent E.dim x == 0) }
    | _, _ => none

/-- Whether the next main event is at the same location (polygon_event_point.h 939-942 and 1062-1065). -/
def Sec.next (E : SecEnv) (st : Sec) : Option Sec :=
  if st.cur + 1 = E.parent * 2 then some { st with cur := st.cur + 1, doMain := false }
  else
    match st.ev[st.cur + 1]? with
    | none => none
    | some e => some { st with cur := st.cur + 1, doMain := st.doMain && !e.newLoc }

/-- The body of the loop over the end events of the heap (polygon_event_point.h 875-900). -/
def Sec.heapEnd (E : SecEnv) (m : MEvent) (st : Sec) : Option Sec :=
  if m.posChild && ¬ st.posUsed < E.ps.length * 2 then none
  else
    (st.setPartner m.posChild m.partner (st.used m.posChild)).bind fun st =>
    (st.emit m.posChild false m.poly).bind fun st =>
    Sec.checkHeap E { st with heap := (E.ops.pop (mergeGreater E.dim E.ns E.ps) st.heap).dropLast }

/-- The loop over the end events of the heap (polygon_event_point.h 874-901). -/
def Sec.heapEnds (E : SecEnv) : Nat → Sec → Option Sec
  | 0, _ => none
  | fuel + 1, st =>
    if !st.doHeap then some st
    else
      match st.heap with
      | [] => none
      | m :: _ => if m.start then some st else (st.heapEnd E m).bind (heapEnds E fuel)

/-- The body of the loop over the main end events (polygon_event_point.h 909-942). -/
def Sec.mainEnd (E : SecEnv) (x : Nat) (st : Sec) : Option Sec :=
  if x = noIndex - 1 then st.next E
  else if x < E.ns.length * 2 then
    if ¬ x < st.negUsed then none
    else
      match st.negEv[x]? with
      | none => none
      | some s =>
        (st.setPartner false x st.negUsed).bind fun st => (st.emit false false s.index).bind fun st => st.next E
  else if ¬ st.posUsed < E.ps.length * 2 then none
  else
    let x := x - E.ns.length * 2
    if ¬ x < st.posUsed then none
    else
      match st.posEv[x]? with
      | none => none
      | some s =>
        (st.setPartner true x st.posUsed).bind fun st => (st.emit true false s.index).bind fun st => st.next E

/-- The loop over the main end events (polygon_event_point.h 907-943). -/
def Sec.mainEnds (E : SecEnv) : Nat → Sec → Option Sec
  | 0, _ => none
  | fuel + 1, st =>
    if !st.doMain then some st
    else
      match st.ev[st.cur]? with
      | none => none
      | some e => if e.start || e.index == noIndex then some st else (st.mainEnd E e.index).bind (mainEnds E fuel)

/-- The body of the loop over the start events of the heap (polygon_event_point.h 946-988). The first event of the heap may
become an end event; it is then appended again. -/
def Sec.heapStart (E : SecEnv) (m : MEvent) (rest : List MEvent) (st : Sec) : Option Sec :=
  if m.posChild && ¬ st.posUsed < E.ps.length * 2 then none
  else
    let used := st.used m.posChild
    (if m.partner ≠ noIndex then
        match st.ev[m.partner]? with
        | none => none
        | some e =>
          if m.posChild && e.start then none
          else
            (setIndex st.ev m.partner (if m.posChild then E.ns.length * 2 + used else used)).map fun ev =>
              ({ st with ev := ev }, m)
      else some (st, { m with start := false, partner := used })).bind fun r =>
    (r.1.emit m.posChild true m.poly).bind fun st =>
    let heap := E.ops.pop (mergeGreater E.dim E.ns E.ps) (r.2 :: rest)
    Sec.checkHeap E { st with
      heap := if r.2.start then heap.dropLast else E.ops.push (mergeGreater E.dim E.ns E.ps) heap }

/-- The loop over the start events of the heap (polygon_event_point.h 945-989). -/
def Sec.heapStarts (E : SecEnv) : Nat → Sec → Option Sec
  | 0, _ => none
  | fuel + 1, st =>
    if !st.doHeap then some st
    else
      match st.heap with
      | [] => none
      | m :: rest => if m.start then (st.heapStart E m rest).bind (heapStarts E fuel) else some st

/-- An event is appended to the heap (polygon_event_point.h 1009-1018). -/
def Sec.pushHeap (E : SecEnv) (m : MEvent) (st : Sec) : Option Sec :=
  if st.heap.length < 2 * E.extra then
    some { st with heap := E.ops.push (mergeGreater E.dim E.ns E.ps) (st.heap ++ [m]) }
  else none

/-- The body of the loop over the main start events (polygon_event_point.h 992-1065); `t` is `end_event_index`. -/
def Sec.mainStart (E : SecEnv) (t : Nat) (st : Sec) : Option Sec :=
  match st.ev[t]? with
  | none => none
  | some y =>
    match E.map[y.index]? with
    | none => none
    | some k =>
      if k = noIndex then
        (setIndex st.ev t (noIndex - 1)).bind fun ev => Sec.next E { st with ev := ev }
      else if k < E.extra then
        match E.ns[k]?, E.ps[k]? with
        | some n, some p =>
          let c := n.hi.compareComponent E.dim p.hi
          (st.pushHeap E ⟨true, false, k, if c ≤ 0 then noIndex else t⟩).bind fun st =>
          (st.pushHeap E ⟨true, true, k, if c > 0 then noIndex else t⟩).bind fun st =>
          (setIndex st.ev t noIndex).bind fun ev =>
            match st.heap with
            | [] => none
            | m :: _ => Sec.next E { st with ev := ev, doHeap := true, heapLoc := m.location E.ns E.ps }
        | _, _ => none
      else if k < E.ns.length then
        (setIndex st.ev t st.negUsed).bind fun ev =>
        (Sec.emit false true k { st with ev := ev }).bind fun st => st.next E
      else if ¬ st.posUsed < E.ps.length * 2 then none
      else
        (setIndex st.ev t (st.posUsed + E.ns.length * 2)).bind fun ev =>
        (Sec.emit true true (k - E.ns.length) { st with ev := ev }).bind fun st => st.next E

/-- The loop over the main start events (polygon_event_point.h 991-1066). -/
def Sec.mainStarts (E : SecEnv) : Nat → Sec → Option Sec
  | 0, _ => none
  | fuel + 1, st =>
    if !st.doMain then some st
    else
      match st.ev[st.cur]? with
      | none => none
      | some e => if e.start then (st.mainStart E e.index).bind (mainStarts E fuel) else some st

/-- The loop over the events at one location (polygon_event_point.h 872-1067). -/
def Sec.atLocation (E : SecEnv) : Nat → Sec → Option Sec
  | 0, _ => none
  | fuel + 1, st =>
    if !st.doHeap && !st.doMain then some st
    else
      (st.heapEnds E fuel).bind fun st => (st.mainEnds E fuel).bind fun st =>
      (st.heapStarts E fuel).bind fun st => (st.mainStarts E fuel).bind (atLocation E fuel)

/-- The loop that skips the main events of border polygons (polygon_event_point.h 825-845). -/
def Sec.skip (E : SecEnv) : Nat → Sec → Option Sec
  | 0, _ => none
  | fuel + 1, st =>
    if st.cur = E.parent * 2 then some st
    else
      match st.ev[st.cur]? with
      | none => none
      | some e =>
        if e.start then
          match st.ev[e.index]? with
          | none => none
          | some y =>
            match E.map[y.index]? with
            | none => none
            | some k =>
              if k = noIndex then
                (setIndex st.ev e.index (noIndex - 1)).bind fun ev => skip E fuel { st with ev := ev, cur := st.cur + 1 }
              else some st
        else if e.index = noIndex - 1 then skip E fuel { st with cur := st.cur + 1 }
        else some st

/-- `CompareHeapLocationToMain` (polygon_event_point.h 740-796). -/
def Sec.compareMain (E : SecEnv) (x : HP3) (e : EP) (st : Sec) : Option Int :=
  (if e.start then
      match st.ev[e.index]? with
      | none => none
      | some y =>
        match E.map[y.index]? with
        | none => none
        | some k =>
          if k < E.extra then
            match E.ns[k]?, E.ps[k]? with
            | some n, some p => some (some (if n.lo.isLessThanComponent E.dim p.lo then n.lo else p.lo))
            | _, _ => none
          else if k < E.ns.length then (E.ns[k]?).map fun n => some n.lo
          else (E.ps[k - E.ns.length]?).map fun p => some p.lo
    else if e.index = noIndex then some none
    else if e.index < E.ns.length * 2 then
      match st.negEv[e.index]? with
      | none => none
      | some s => (E.ns[s.index]?).map fun n => some n.hi
    else
      match st.posEv[e.index - E.ns.length * 2]? with
      | none => none
      | some s => (E.ps[s.index]?).map fun p => some p.hi).map fun y =>
  match y with
  | none => -1
  | some y => x.compareComponent E.dim y

/-- One iteration of the outer loop (polygon_event_point.h 823-1067). -/
def Sec.round (E : SecEnv) (fuel : Nat) (st : Sec) : Option Sec :=
  match st.ev[st.cur]? with
  | none => none
  | some e =>
    if !e.newLoc then none
    else
      (st.skip E fuel).bind fun st =>
        if st.cur = E.parent * 2 then some st
        else
          let st := { st with negNew := true, posNew := true }
          match st.heap with
          | [] => Sec.atLocation E fuel { st with doHeap := false, doMain := true, heapLoc := none }
          | m :: _ =>
            match m.location E.ns E.ps, st.ev[st.cur]? with
            | some x, some e =>
              (st.compareMain E x e).bind fun c =>
                Sec.atLocation E fuel { st with heapLoc := some x, doHeap := decide (c ≤ 0), doMain := decide (0 ≤ c) }
            | _, _ => none

/-- The outer loop (polygon_event_point.h 822-1068). -/
def Sec.rounds (E : SecEnv) : Nat → Sec → Option Sec
  | 0, _ => none
  | fuel + 1, st => if st.cur < E.parent * 2 then (st.round E fuel).bind (rounds E fuel) else some st

/-- `ApplySecondary` (polygon_event_point.h 798-1072): `ns` and `ps` are the extents of the children's polygons in the
dimension, `negMem` and `posMem` are the children's arrays with any contents. Returns the children's arrays. -/
def applySecondary (o : MergeOps) (dim : Fin 3) (part : EPart) (n : Nat) (ns ps : List EPoly) (map : List Nat)
    (ev negMem posMem : List EP) (fuel : Nat) : Option (List EP × List EP) :=
  let E : SecEnv := ⟨o, dim, ns, ps, map, n, part.neg + part.pos + part.border - n⟩
  match Sec.rounds E fuel { ev := ev, negEv := negMem, posEv := posMem } with
  | none => none
  | some st =>
    if !st.heap.isEmpty then none
    else if newLocCorrect dim ns st.negEv && newLocCorrect dim ps st.posEv then some (st.negEv, st.posEv) else none

end Walnut.Bsp
