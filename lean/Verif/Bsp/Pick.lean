/-
Model of how a leaf chooses the plane it is split along: `PickSplitPlane` and
`PickQuarterTurnSplitPlane` of bsp_node.h.

`none` is an access outside of a vector, a failed assertion or an undefined `Reduce`.
`std::nth_element` is a function `nth` of which only what the C++ standard says is used
(`IsNthElement` in Bsp/PickSpec).
-/
import Verif.Bsp.Node

namespace Walnut.Bsp
open Walnut.Geom Walnut.Poly

/-- `content_info_by_id_[contents_[i].id].has_interior_polygons` (bsp_node.h 333-334). -/
def NodeData.meshCount (d : NodeData) (i : Nat) : Option Nat :=
  match d.contents[i]? with
  | none => none
  | some p => (d.info[p.id]?).map Info.interior

/-- `consider_split` (bsp_node.h 333-338): `cur` is the index of `*split`. -/
def NodeData.consider (d : NodeData) (cur i : Nat) : Option Nat :=
  match d.meshCount i, d.meshCount cur with
  | some a, some b => some (if a < b then i else cur)
  | _, _ => none

/-- `consider_split` for one index after the other (bsp_node.h 338-345). -/
def NodeData.considerAll (d : NodeData) : Nat → List Nat → Option Nat
  | cur, [] => some cur
  | cur, i :: l =>
    match d.consider cur i with
    | none => none
    | some cur => d.considerAll cur l

/-- The indices considered after the middle one (bsp_node.h 332 and 339-346); `offset` is
`max 1 mid` after the loop. -/
def pickOrder (n : Nat) : List Nat :=
  let mid := n / 2
  ((List.range' 1 (mid - 1)).flatMap fun offset => [mid + offset, mid - offset - 1]) ++
    (if n % 2 = 1 then [mid + max 1 mid] else [])

/-- The index of `*split` (bsp_node.h 327-346), for a node with contents. -/
def NodeData.pickIndex (d : NodeData) : Option Nat :=
  if d.contents.length = 1 then some 0
  else d.considerAll (d.contents.length / 2) (pickOrder d.contents.length)

/-- The index of `second_seed` (bsp_node.h 357-369); `none` if there is no such polygon. -/
def NodeData.secondSeed (d : NodeData) (i : Nat) (seed : BPoly) : Option BPoly :=
  (List.range (d.contents.length - 1)).findSome? fun k =>
    match d.contents[(i + k + 1) % d.contents.length]? with
    | none => none
    | some p => if p.id == seed.id && !p.poly.plane.n.isSameOrOppositeDir seed.poly.plane.n then some p else none

/-- An entry of `distances`: a numerator and a denominator (bsp_node.h 376-383). -/
abbrev Dist := Int × Int

/-- `compare` (bsp_node.h 387-391). -/
def distLess (a b : Dist) : Bool := Rational.isLessThan a.1 a.2 b.1 b.2

/-- `rational::Equals` of two distances (bsp_node.h 394-398). -/
def distEq (a b : Dist) : Bool := Rational.equals a.1 a.2 b.1 b.2

/-- One entry (bsp_node.h 379-383). -/
def distOf (turned : V3) (p : BPoly) : Option Dist :=
  if p.poly.count < 3 then none else p.poly.edges.head?.map fun e => (turned.dot e.vertex.v, e.vertex.w)

/-- The loop over the contents (bsp_node.h 377-385). -/
def distances (turned : V3) (id : Nat) : List BPoly → Option (List Dist)
  | [] => some []
  | p :: l =>
    if p.id = id then
      match distOf turned p with
      | none => none
      | some x => (distances turned id l).map fun t => x :: t
    else distances turned id l

/-- The plane at the middle distance (bsp_node.h 410-418). -/
def turnedPlane (turned : V3) (m : Dist) : Option HS3 :=
  let v := turned.scale m.2
  HS3.reduce (if m.2 < 0 then ⟨v.neg, -m.1⟩ else ⟨v, m.1⟩)

/-- `PickQuarterTurnSplitPlane` (bsp_node.h 354-419). -/
def NodeData.pickQuarterTurn (nth : List Dist → Nat → List Dist) (d : NodeData) (i : Nat) : Option HS3 :=
  match d.contents[i]? with
  | none => none
  | some seed =>
    match d.secondSeed i seed with
    | none => some seed.poly.plane
    | some second =>
      let a := seed.poly.plane.n
      let b := second.poly.plane.n
      match ((a.scale (a.dot b)).sub (b.scale (a.dot a))).reduce with
      | none => none
      | some turned =>
        match distances turned seed.id d.contents with
        | none => none
        | some l =>
          let r := nth l (l.length / 2)
          match r[l.length / 2]? with
          | none => none
          | some m =>
            if (r.take (l.length / 2)).all fun x => distEq x m then some seed.poly.plane
            else if (r.drop (l.length / 2 + 1)).all fun x => distEq x m then some seed.poly.plane
            else turnedPlane turned m

/-- `PickSplitPlane` (bsp_node.h 314-352) on a leaf with contents; without contents the
result is not a valid plane. -/
def NodeData.pickSplitPlane (nth : List Dist → Nat → List Dist) (d : NodeData) : Option HS3 :=
  if d.contents.isEmpty then some ⟨⟨0, 0, 0⟩, 0⟩
  else
    match d.pickIndex with
    | none => none
    | some i =>
      match d.contents[i]?, d.meshCount i with
      | some p, some c =>
        if d.contents.length = 1 then some p.poly.plane
        else if 40 < c then d.pickQuarterTurn nth i
        else some p.poly.plane
      | _, _ => none

/-- `GetCostExclude` (bsp_node.h 215-233): the id is `none` for `-1`; `best` and `count` are
the values of the variables before the `id`-th round of the loop. -/
def costExcludeLoop : List Info → Nat → Option Nat × Nat → Nat → (Option Nat × Nat) × Nat
  | [], _, best, count => (best, count)
  | i :: l, id, best, count =>
    if i.interior ≠ 0 then
      costExcludeLoop l (id + 1) (if best.2 < i.interior then (some id, i.interior) else best) (count + 1)
    else costExcludeLoop l (id + 1) best count

/-- `GetCostExclude` (bsp_node.h 215-233). -/
def NodeData.costExclude (d : NodeData) : Option Nat × Nat :=
  let r := costExcludeLoop d.info 0 (none, 0) 0
  if 1 < r.2 then r.1 else (none, 0)

end Walnut.Bsp
