/-
Model of `NudgingPlaneBuilder` (nudging_plane_builder.h, nudging_plane_builder.cpp).

The builder stores pointers to the vertices; the model stores the vertices, which do not change
while the builder is in use.
-/
import Verif.Geom.Model

namespace Walnut.Repair
open Walnut Walnut.Geom

/-- The fields (nudging_plane_builder.h 54-63).  `info` holds the first `plane_info_used_` entries of `plane_info_`:
the flag `constrained` and the vertex.  `plane` is `none` if `plane_` is not initialised. -/
structure Builder where
  info : List (Bool × HP3) := []
  constrainedCount : Nat := 0
  plane : Option HS3 := none
  planeSet : Bool := false
deriving DecidableEq

namespace Builder

/-- The loop of `BuildFromPlaneInfo` (nudging_plane_builder.cpp 10-26): `need` is `3 - accepted`.  An entry that has not been
written is read if the list ends before. -/
def filterLoop : Nat → Nat → List (Bool × HP3) → Option (List HP3)
  | 0, _, _ => some []
  | _ + 1, _, [] => none
  | need + 1, au, (true, v) :: r => do
    let q ← filterLoop need au r
    return v :: q
  | need + 1, 0, (false, _) :: r => filterLoop (need + 1) 0 r
  | need + 1, au + 1, (false, v) :: r => do
    let q ← filterLoop need au r
    return v :: q

/-- `BuildFromPlaneInfo` (nudging_plane_builder.cpp 5-31). -/
def buildFromInfo (b : Builder) : Option HS3 := do
  let vs ← filterLoop 3 (3 - b.constrainedCount) b.info
  match vs with
  | [p1, p2, p3] =>
    let h ← HS3.ofHomoPoints p1 p2 p3
    h.reduce
  | _ => none

/-- `Build` (nudging_plane_builder.h 28-46). -/
def build (b : Builder) : Option HS3 := if b.planeSet then b.plane else b.buildFromInfo

/-- `AddUnconstrained` (nudging_plane_builder.h 66-72). -/
def addUnconstrained (b : Builder) (v : HP3) : Builder :=
  if b.info.length < 3 then { b with info := b.info ++ [(false, v)] } else b

/-- `TryAddConstrained` (nudging_plane_builder.h 74-91).  `plane_info_` has six entries. -/
def tryAddConstrained (b : Builder) (v : HP3) : Option (Builder × Bool) :=
  if b.constrainedCount < 3 then
    if 6 ≤ b.info.length then none
    else
      let b := { b with info := b.info ++ [(true, v)], constrainedCount := b.constrainedCount + 1 }
      if b.constrainedCount = 3 then do
        let p ← b.buildFromInfo
        return ({ b with plane := some p, planeSet := true }, true)
      else some (b, true)
  else do
    let p ← b.plane
    return (b, p.isCoincident v)

/-- `HasLargePlane` (nudging_plane_builder.h 93-102). -/
def hasLargePlane (b : Builder) : Option (Builder × Bool) :=
  if b.info.length < 3 then some (b, false)
  else do
    let b ← (if b.planeSet then some b else do
      let p ← b.buildFromInfo
      return { b with plane := some p, planeSet := true })
    let p ← b.plane
    return (b, !BigInt.allHalfWords3 (wordsOf p.n.x) (wordsOf p.n.y) (wordsOf p.n.z) || !BigInt.isHalfWord (wordsOf p.d))

end Builder

/-- The calls of a user (nudging_plane_builder.h 16-48). -/
inductive Event
  /-- `AddUnconstrained` -/
  | free (v : HP3)
  /-- `TryAddConstrained` and its result -/
  | fixed (v : HP3) (accepted : Bool)
  /-- `HasLargePlane` and its result -/
  | large (result : Bool)

/-- The states of a builder after the calls in the list, in this order, none of which is undefined (nudging_plane_builder.h 16-48). -/
inductive History : List Event → Builder → Prop
  | start : History [] {}
  | free {evs : List Event} {b : Builder} (v : HP3) (h : History evs b) :
    History (evs ++ [.free v]) (b.addUnconstrained v)
  | fixed {evs : List Event} {b b' : Builder} (v : HP3) (r : Bool) (h : History evs b)
    (hs : b.tryAddConstrained v = some (b', r)) : History (evs ++ [.fixed v r]) b'
  | large {evs : List Event} {b b' : Builder} (r : Bool) (h : History evs b) (hs : b.hasLargePlane = some (b', r)) :
    History (evs ++ [.large r]) b'

end Walnut.Repair
