/-
The searches for the runs of vertices on either side of a line
(`ConvexPolygon::FindSplitRangesLinear`, `FindSplitRangesBisect` and the binary
searches they use), as functions of the comparison results.

`c i` is `half_space2.Compare(vertex(i).DropDimension(drop_dimension))`, and `e i`
is the sign of `edge(i).line().d().DropDimension(drop_dimension).Dot(v)`.  All
indices passed to them are below `n = vertex_count()` or reduced modulo `n`.
-/
import Verif.Geom.Num

namespace Walnut.Poly

/-- `ConvexPolygonSplitRanges` (convex_polygon_split_info.h 14-68). -/
structure Ranges where
  neg : Nat × Nat
  pos : Nat × Nat
deriving DecidableEq, Repr

namespace Ranges

/-- `ShouldEmitNegativeChild` (convex_polygon_split_info.h 46-48). -/
def emitNeg (r : Ranges) : Bool := r.neg.1 != r.neg.2
/-- `ShouldEmitPositiveChild` (convex_polygon_split_info.h 50-52). -/
def emitPos (r : Ranges) : Bool := r.pos.1 != r.pos.2

/-- `ConvexPolygonSplitRanges::IsValid` (convex_polygon_split_info.h 15-44). -/
def isValid (r : Ranges) (n : Nat) : Bool :=
  decide (r.neg.1 ≤ r.neg.2) && decide (r.neg.2 ≤ r.neg.1 + n) &&
  decide (r.pos.1 ≤ r.pos.2) && decide (r.pos.2 ≤ r.pos.1 + n) &&
  (!(r.emitNeg && r.emitPos) ||
    ((decide (r.neg.2 % n = r.pos.1 % n) || decide ((r.neg.2 + 1) % n = r.pos.1 % n)) &&
     (decide (r.pos.2 % n = r.neg.1 % n) || decide ((r.pos.2 + 1) % n = r.neg.1 % n))))

end Ranges

/-- `(a ^ b) < 0` for two comparison results. -/
def xorNeg (a b : Int) : Bool := decide (a < 0) != decide (b < 0)

/-- `while (i != n && P(i)) ++i;`  The loops of convex_polygon.h 1285-1449. -/
def skip (P : Nat → Bool) (n i : Nat) : Nat :=
  if _h : i < n then if P i then skip P n (i + 1) else i else i
termination_by n - i

/-- The assignment of `first_side` and `second_side` to the two ranges
(convex_polygon.h 1308-1316 and 1370-1378). -/
def sides (init : Int) (first second : Nat × Nat) : Ranges :=
  if init < 0 then ⟨first, second⟩ else ⟨second, first⟩

/-- The end of `FindSplitRangesLinear` when vertex 0 is not on the line
(convex_polygon.h 1419-1449): `index` is on the second side, `firstEnd` is
`first_side->second`.  A failed assertion is `none`. -/
def linearSecond (n : Nat) (c : Nat → Int) (index firstEnd : Nat) : Option Ranges :=
  let m := skip (fun k => decide (c k ≠ 0) && xorNeg (c 0) (c k)) n (index + 1)
  if m = n then some (sides (c 0) (0, firstEnd) (index, n))
  else
    let x := skip (fun k => decide (c k = 0)) n m
    if x = n then some (sides (c 0) (0, firstEnd) (index, m))
    else if xorNeg (c 0) (c x) then none
    else some (sides (c 0) (x, firstEnd + n) (index, m))

/-- `FindSplitRangesLinear` (convex_polygon.h 1285-1450).  A failed assertion is
`none`. -/
def linear (n : Nat) (c : Nat → Int) : Option Ranges :=
  if n = 0 then none
  else if c 0 = 0 then
    let a := skip (fun k => decide (c k = 0)) n 1
    if a = n then none
    else
      let j := skip (fun k => decide (c k ≠ 0) && !xorNeg (c a) (c k)) n (a + 1)
      if j = n then some (sides (c a) (a, j) (0, 0))
      else if c j = 0 then
        let k := skip (fun k => decide (c k = 0)) n (j + 1)
        if k = n then some (sides (c a) (a, j) (0, 0))
        else some (sides (c a) (a, j) (k, skip (fun k => decide (c k ≠ 0)) n (k + 1)))
      else some (sides (c a) (a, j) (j, skip (fun k => decide (c k ≠ 0)) n (j + 1)))
  else
    let j := skip (fun k => decide (c k ≠ 0) && !xorNeg (c 0) (c k)) n 1
    if j = n then some (sides (c 0) (0, n) (0, 0))
    else if c j = 0 then
      let k := skip (fun k => decide (c k = 0)) n (j + 1)
      if k = n then some (sides (c 0) (0, j) (0, 0))
      else if xorNeg (c 0) (c k) then linearSecond n c k j
      else
        let r := sides (c 0) (k, j + n) (0, 0)
        if r.isValid n then some r else none
    else linearSecond n c j j

/-- `GetGreaterCycleIndex` (convex_polygon.h 246-249): the subtraction wraps, the
addition of `n` undoes it. -/
def greaterCycle (n a b : Nat) : Option Nat :=
  if b + n < a ∨ n = 0 then none else some (a + (b + n - a) % n)

/-- `edge(before)` going down from `before` while the edge is perpendicular
(convex_polygon.h 879-889).  The assertion `before > 0` is `none`. -/
def dirBefore (e : Nat → Int) : Nat → Option Nat
  | 0 => none
  | b + 1 => if e (b + 1) ≠ 0 then some (b + 1) else dirBefore e b

/-- The binary search of `GetOppositeEdgeIndicesBisect` (convex_polygon.h 916-939).
`e` is the direction of the edges with respect to `v_flipped` and `far i` says that
vertex `i` is farther along `v_flipped` than vertex 0.  When the range is empty the
code reads past the end or does not terminate: `none`. -/
def oppositeLoop (e : Nat → Int) (far : Nat → Bool) (b t : Nat) : Option Nat :=
  if _h : b < t then
    if e ((b + t) / 2) < 0 then some ((b + t) / 2)
    else if far ((b + t) / 2) then oppositeLoop e far ((b + t) / 2 + 1) t
    else oppositeLoop e far b ((b + t) / 2)
  else none
termination_by t - b

/-- `GetOppositeEdgeIndicesBisect` (convex_polygon.h 871-940).  `far flip i` is the
comparison of the distance of vertex `i` with that of vertex 0 along `v`, or along
`-v` when `flip`. -/
def oppositeEdges (n : Nat) (e : Nat → Int) (far : Bool → Nat → Bool) : Option (Nat × Nat) :=
  if e 0 = 0 then
    match dirBefore e (n - 1) with
    | none => none
    | some before =>
      let after := skip (fun k => decide (e k = 0)) n 1
      if after = n then none
      else if 0 < e before then some (before, after) else some (after, before)
  else if e 0 < 0 then
    (oppositeLoop (fun i => -e i) (far true) 1 n).map fun mid => (mid, 0)
  else (oppositeLoop e (far false) 1 n).map fun mid => (0, mid)

/-- The binary search of `GetExtremeIndexBisect` (convex_polygon.h 960-968). -/
def extremeLoop (n : Nat) (e : Nat → Int) (b t : Nat) : Nat :=
  if _h : b + 1 < t then
    if 0 < e ((b + t) / 2 % n) then extremeLoop n e ((b + t) / 2) t
    else extremeLoop n e b ((b + t) / 2)
  else t
termination_by t - b

/-- `GetExtremeIndexBisect` after the test for a zero vector (convex_polygon.h
947-970). -/
def extremeIndex (n : Nat) (e : Nat → Int) (far : Bool → Nat → Bool) : Option Nat :=
  match oppositeEdges n e far with
  | none => none
  | some (same, opp) =>
    match greaterCycle n same opp with
    | none => none
    | some t => some (extremeLoop n e same t % n)

/-- The binary search of `GetPosSideVertex` (convex_polygon.h 986-998): a vertex on
the positive side (`inl`), or the final `end` (`inr`). -/
def posLoop (n : Nat) (c e : Nat → Int) (b t : Nat) : Nat ⊕ Nat :=
  if _h : b + 1 < t then
    if 0 < c ((b + t) / 2 % n) then .inl ((b + t) / 2)
    else if 0 < e ((b + t) / 2 % n) then posLoop n c e ((b + t) / 2) t
    else posLoop n c e b ((b + t) / 2)
  else .inr t
termination_by t - b

/-- `GetPosSideVertex` (convex_polygon.h 973-1002).  The index is reduced modulo the
number of vertices only when the loop ran to its end. -/
def posSide (n : Nat) (c e : Nat → Int) (same opp : Nat) : Option (Int × Nat) :=
  match greaterCycle n same opp with
  | none => none
  | some t =>
    match posLoop n c e same t with
    | .inl mid => some (1, mid)
    | .inr t => some (c (t % n), t % n)

/-- The binary search of `GetLastNegSideVertex` (convex_polygon.h 1029-1039). -/
def lastNegLoop (n : Nat) (c : Nat → Int) (b : Nat) (bt : Int) (t : Nat) : Int × Nat :=
  if _h : b + 1 < t then
    if c ((b + t) / 2 % n) ≤ 0 then lastNegLoop n c ((b + t) / 2) (c ((b + t) / 2 % n)) t
    else lastNegLoop n c b bt ((b + t) / 2)
  else (bt, b % n)
termination_by t - b

/-- `GetLastNegSideVertex` (convex_polygon.h 1014-1041). -/
def lastNeg (n : Nat) (c : Nat → Int) (neg : Nat) (negType : Int) (pos : Nat) : Option (Int × Nat) :=
  match greaterCycle n neg pos with
  | none => none
  | some t => if 0 < negType then none else some (lastNegLoop n c neg negType t)

/-- `do ++index; while (vertex(index % n) is on the line)` (convex_polygon.h 1227-1230
and 1253-1256).  It does not terminate when all vertices are on the line: `none`. -/
def skipOn (n : Nat) (c : Nat → Int) (index : Nat) : Nat → Option Nat
  | 0 => none
  | fuel + 1 => if c ((index + 1) % n) = 0 then skipOn n c (index + 1) fuel else some (index + 1)

/-- `FindSplitRangesBisect` (convex_polygon.h 1202-1282).  `c` and `cn` are the
comparisons with the half-space and with its negation, `e` and `en` the directions
with respect to the normal and the negated normal. -/
def bisect (n : Nat) (c cn e en : Nat → Int) (far : Bool → Nat → Bool) : Option Ranges :=
  match oppositeEdges n e far with
  | none => none
  | some (same, opp) =>
    -- GetNegSideVertex (1005-1011)
    match posSide n cn en opp same with
    | none => none
    | some (negT, negI) =>
      if 0 ≤ -negT then
        if -negT = 0 then
          (skipOn n c negI n).map fun index => ⟨(0, 0), (index, negI + n)⟩
        else some ⟨(0, 0), (negI, negI + n)⟩
      else
        match posSide n c e same opp with
        | none => none
        | some (posT, posI) =>
          if posT ≤ 0 then
            if posT = 0 then
              (skipOn n c posI n).map fun index => ⟨(index, posI + n), (0, 0)⟩
            else some ⟨(posI, posI + n), (0, 0)⟩
          else
            match lastNeg n c negI (-1) posI, lastNeg n cn posI (-1) negI with
            | some (qt, q), some (pt, p) =>
              match greaterCycle n p q, greaterCycle n q p with
              | some pq, some qp =>
                some ⟨(p + 1, pq + if qt ≠ 0 then 1 else 0), (q + 1, qp + if -pt ≠ 0 then 1 else 0)⟩
              | _, _ => none
            | _, _ => none

end Walnut.Poly
