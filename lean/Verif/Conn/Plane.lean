/-
Model of `ConnectUnsorted` (edge_line_connector.h 42-138 and 265-310): the half-edges in a plane are sorted, divided into lines and
connected.
-/
import Verif.Conn.Model

namespace Walnut.Conn
open Walnut.Geom

/-- `sorted_dimension` of a line in a plane (edge_line_connector.h 58-60 and 300-303). -/
def sortedDim (N : Net) (drop : Fin 3) (e : Nat) : Fin 3 := if (N.line e).d.comp (drop + 1) = 0 then drop + 2 else drop + 1

/-- `EdgeCompare` for deeds that are not empty (edge_line_connector.h 50-75); undefined if an assertion fails. -/
def edgeLess (N : Net) (drop : Fin 3) (e1 e2 : Nat) : Option Bool :=
  if 3 ≤ (N.cycle (N.poly e1)).length ∧ 3 ≤ (N.cycle (N.poly e2)).length then
    let d1 := (N.line e1).d.dropDimension drop
    let d2 := (N.line e2).d.dropDimension drop
    if !d1.isSameOrOppositeDir d2 then some (d1.isHalfRotationLessThan d2)
    else
      let s := sortedDim N drop e1
      let dist1 := (N.line e1).m.comp drop * (N.line e2).d.comp s
      let dist2 := (N.line e2).m.comp drop * (N.line e1).d.comp s
      if dist1 ≠ dist2 then
        if (N.line e1).d.comp s ≠ 0 ∧ (N.line e2).d.comp s ≠ 0 then
          some (lessThan (xor (decide ((N.line e2).d.comp s < 0)) (decide ((N.line e1).d.comp s < 0))) dist1 dist2)
        else none
      else
        match N.beginLoc s e1, N.beginLoc s e2 with
        | some b1, some b2 => some (isLocationLess s b1 b2)
        | _, _ => none
  else none

/-- `EdgeCompare` (edge_line_connector.h 45-75).  A deed is empty (`none`) or refers to an edge. -/
def deedLess (N : Net) (drop : Fin 3) : Option Nat → Option Nat → Option Bool
  | some e1, some e2 => edgeLess N drop e1 e2
  | d1, d2 => some (d1.isNone && d2.isSome)

/-- `std::sort`, a function of a comparison and a list.  The standard library function called at edge_line_connector.h 274. -/
structure SortFn where
  sort : (Option Nat → Option Nat → Bool) → List (Option Nat) → List (Option Nat)

/-- `SortEdgesInPlane` (edge_line_connector.h 271-275); undefined if the comparison of any two deeds in the range is. -/
def sortEdges (S : SortFn) (N : Net) (drop : Fin 3) (range : List (Option Nat)) : Option (List (Option Nat)) :=
  if ∀ a ∈ range, ∀ b ∈ range, deedLess N drop a b ≠ none then some (S.sort (fun a b => (deedLess N drop a b).getD false) range)
  else none

/-- The loop of `FindNextLineStart` (edge_line_connector.h 299-312), for the range that begins with `e`: the other edges before the
returned position, and those from it on. -/
def findLine (N : Net) (drop : Fin 3) (e : Nat) (rest : List Nat) : List Nat × List Nat :=
  rest.span fun f => ((N.line f).project2D drop).hasSameLine ((N.line e).project2D drop)

/-- The second loop of `ConnectSorted` (edge_line_connector.h 131-137), with a bound on the number of iterations, of which there are
at most as many as edges. -/
def connectLines (o : HeapFns) (drop : Fin 3) : Nat → Net → List Nat → Option (Net × Nat)
  | _, N, [] => some (N, 0)
  | 0, _, _ :: _ => none
  | n + 1, N, e :: rest =>
    match connectLine o (sortedDim N drop e) N (e :: (findLine N drop e rest).1) with
    | none => none
    | some (N1, errors) => (connectLines o drop n N1 (findLine N drop e rest).2).map fun r => (r.1, errors + r.2)

/-- `ConnectSorted` (edge_line_connector.h 121-138): empty deeds at the begin are skipped, others must not be empty. -/
def connectSorted (o : HeapFns) (drop : Fin 3) (N : Net) (range : List (Option Nat)) : Option (Net × Nat) :=
  match (range.dropWhile Option.isNone).mapM id with
  | none => none
  | some l => connectLines o drop l.length N l

/-- `ConnectUnsorted` (edge_line_connector.h 98-104). -/
def connectUnsorted (S : SortFn) (o : HeapFns) (drop : Fin 3) (N : Net) (range : List (Option Nat)) : Option (Net × Nat) :=
  match sortEdges S N drop range with
  | none => none
  | some l => connectSorted o drop N l

end Walnut.Conn
