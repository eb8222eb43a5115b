/-
Model of `PlanarRange` (planar_range.h) for homogeneous points (`Point3` is the case of the
denominator one).

Iterators as in `Verif.Mono.Range`: an iterator is an index into a list of vertices.
-/
import Verif.Mono.Range

namespace Walnut.Mono
open Walnut.Geom

/-- `HalfSpace3::Zero` (half_space3.h 186-188). -/
def zeroPlane : HS3 := ⟨V3.zero, 0⟩

/-- `IsValid` (half_space3.h 138-140). -/
def planeValid (h : HS3) : Bool := !h.n.isZero

/-- `range_`, `size_`, `plane_` (planar_range.h 74-80) and the values of `remaining_begin` and
`remaining_end` after `Build`. -/
structure PRange where
  verts : List HP3
  size : Nat
  plane : HS3
  first : Nat
  last : Nat
deriving DecidableEq

/-- The loop that looks for the third point of the plane (planar_range.h 113-122) on the vertices
between the first and the last: the plane, `none` if the vertices run out, and the number of
vertices taken. -/
def planeLoop (p1 p2 : HP3) : List HP3 → Option (Option HS3 × Nat)
  | [] => some (none, 0)
  | p3 :: r => do
    let h ← HS3.ofHomoPoints p1 p2 p3
    if planeValid h then return (some h, 1)
    else
      let q ← planeLoop p1 p2 r
      return (q.1, q.2 + 1)

/-- `Build` (planar_range.h 83-158) on the range from `rb` to `re`. -/
def planarRange (vs : List HP3) (rb re : Nat) : Option PRange :=
  if rb = re then some ⟨[], 0, zeroPlane, rb, re⟩ else do
  let e ← dec? re
  let p1 ← vs[e]?
  let all ← seg? vs rb re
  if rb = e then return ⟨all, 1, zeroPlane, rb, e⟩
  else
  let p2 ← vs[rb]?
  let mid ← seg? vs (rb + 1) e
  let q ← planeLoop p1 p2 mid
  let b1 := rb + 1 + q.2
  match q.1 with
  | none => return ⟨all, 2 + q.2, zeroPlane, b1, e⟩
  | some h =>
    let rest ← seg? vs b1 e
    -- planar_range.h 126-136
    let k := (rest.takeWhile h.isCoincident).length
    if b1 + k = e then return ⟨all, 2 + q.2 + k, h, b1 + k, e⟩
    else
    -- planar_range.h 142-150; running into `remaining_begin` fails the assertion
    let rest2 ← seg? vs (b1 + k) e
    let j := (rest2.reverse.takeWhile h.isCoincident).length
    if j = rest2.length then none
    else
    let front ← seg? vs rb (b1 + k)
    let back ← seg? vs (e - j) re
    -- planar_range.h 156-157
    return ⟨front ++ back, 2 + q.2 + k + j, h, b1 + k - 1, e - j + 1⟩

end Walnut.Mono
