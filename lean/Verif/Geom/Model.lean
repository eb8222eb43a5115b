/-
Model of the geometric primitives over integers: rational.h, vector2.h,
vector3.h, point2.h, point3.h, homo_point2.h, homo_point3.h, half_space2.h,
half_space2_sideless_compare.h, half_space3.h, plucker_line.h,
r_transformation.h and aabb.h (with their .cpp files).

`none` is undefined behaviour (see `Verif/Geom/Num.lean`).  A dimension index is
a `Fin 3`: an index outside `0..2` is an out of range array access in the code
and is not modelled.
-/
import Verif.Geom.Num

namespace Walnut.Geom

/-- `Vector2` (vector2.h 12-208). -/
structure V2 where
  x : Int
  y : Int
deriving DecidableEq, Repr

/-- `Vector3` (vector3.h 11-203); also `Point3` (point3.h 9-150), whose only
member is its vector from the origin. -/
@[ext] structure V3 where
  x : Int
  y : Int
  z : Int
deriving DecidableEq, Repr

/-- `HomoPoint2` (homo_point2.h 11-104). -/
structure HP2 where
  v : V2
  w : Int
deriving DecidableEq, Repr

/-- `HomoPoint3` (homo_point3.h 14-247). -/
@[ext] structure HP3 where
  v : V3
  w : Int
deriving DecidableEq, Repr

/-- `HalfSpace2` (half_space2.h 11-155). -/
structure HS2 where
  n : V2
  d : Int
deriving DecidableEq, Repr

/-- `HalfSpace3` (half_space3.h 16-271). -/
@[ext] structure HS3 where
  n : V3
  d : Int
deriving DecidableEq, Repr

/-- `PluckerLine` (plucker_line.h 13-167). -/
@[ext] structure PL where
  d : V3
  m : V3
deriving DecidableEq, Repr

/-! ### rational.h -/

namespace Rational

/-- `RoundUp` (rational.h 15-32). -/
def roundUp (num oldDen newDen : Int) : Option Int :=
  (divRem? (num * newDen) oldDen).map fun (q, r) =>
    -- the sign of the exclusive or of three words
    if ¬ (xor (xor (decide (r < 0)) (decide (oldDen < 0))) (decide (newDen < 0)) = true) ∧ r ≠ 0 then
      q + absMult newDen
    else q

/-- `RoundDown` (rational.h 37-56). -/
def roundDown (num oldDen newDen : Int) : Option Int :=
  (divRem? (num * newDen) oldDen).map fun (q, r) =>
    if xor (xor (decide (r < 0)) (decide (oldDen < 0))) (decide (newDen < 0)) = true ∧ r ≠ 0 then
      q - absMult newDen
    else q

/-- `IsLessThan` (rational.h 58-65). -/
def isLessThan (num1 denom1 num2 denom2 : Int) : Bool :=
  lessThan (xor (decide (denom1 < 0)) (decide (denom2 < 0))) (num1 * denom2) (num2 * denom1)

/-- `Equals` (rational.h 68-71). -/
def equals (num1 denom1 num2 denom2 : Int) : Bool := decide (num1 * denom2 = num2 * denom1)

/-- `IsHalfRotationLessThan` (rational.h 83-98).  `GetSign` is replaced by the
value itself: only its sign and whether it is zero matter. -/
def isHalfRotationLessThan (x1 y1 x2 y2 y1_x2 y2_x1 : Int) : Bool :=
  let y1_0_adjust : Int := if 0 ≤ y1 ∧ x1 < 0 then 1 else 0
  let y2_0_adjust : Int := if 0 ≤ y2 ∧ x2 < 0 then 1 else 0
  let flip := xor (decide (y1 - y1_0_adjust < 0)) (decide (y2 - y2_0_adjust < 0))
  lessThan flip y1_x2 y2_x1

end Rational

/-! ### vector2.h -/

namespace V2

/-- `operator-` (vector2.h 100-102). -/
def sub (a b : V2) : V2 := ⟨a.x - b.x, a.y - b.y⟩
/-- `Dot` (vector2.h 125-127). -/
def dot (a b : V2) : Int := a.x * b.x + a.y * b.y
/-- `Cross` (vector2.h 130-132). -/
def cross (a b : V2) : Int := a.x * b.y - a.y * b.x
/-- `Scale` (vector2.h 134-136). -/
def scale (a : V2) (s : Int) : V2 := ⟨a.x * s, a.y * s⟩
/-- `IsZero` (vector2.h 150-152). -/
def isZero (a : V2) : Bool := decide (a.x = 0 ∧ a.y = 0)
/-- `GetPerpendicular` (vector2.h 158-160). -/
def perp (a : V2) : V2 := ⟨-a.y, a.x⟩
/-- `operator-()` and `Negate` (vector2.h 172-182). -/
def neg (a : V2) : V2 := ⟨-a.x, -a.y⟩

/-- `IsSameDir` (vector2.h 210-223). -/
def isSameDir (a b : V2) : Option Bool := do
  let so ← if a.x ≠ 0 then abs? a.x else abs? a.y
  let sm ← if a.x ≠ 0 then abs? b.x else abs? b.y
  return decide (a.x * sm = b.x * so ∧ a.y * sm = b.y * so)

/-- `IsSameOrOppositeDir` (vector2.h 225-238). -/
def isSameOrOppositeDir (a b : V2) : Bool :=
  let so := if a.x ≠ 0 then a.x else a.y
  let sm := if a.x ≠ 0 then b.x else b.y
  decide (a.x * sm = b.x * so ∧ a.y * sm = b.y * so)

/-- `IsHalfRotationLessThan` (vector2.h 192-195). -/
def isHalfRotationLessThan (a b : V2) : Bool :=
  Rational.isHalfRotationLessThan a.x a.y b.x b.y (a.y * b.x) (b.y * a.x)

/-- `IsRotationLessThan` (vector2.h 240-258), with the quadrant numbers of the
code. -/
def isRotationLessThan (a b : V2) : Bool :=
  let ys : Nat := if a.y < 0 then 1 else 0
  let oys : Nat := if b.y < 0 then 1 else 0
  let packed := (ys <<< 1) ||| (if a.x < 0 then 1 else 0)
  let opacked := (oys <<< 1) ||| (if b.x < 0 then 1 else 0)
  if packed ≠ opacked then decide (packed ^^^ ys < opacked ^^^ oys)
  else decide (a.y * b.x < b.y * a.x)

end V2

/-! ### vector3.h -/

namespace V3

/-- `components()[i]` (vector3.h 59-65). -/
def comp (a : V3) (i : Fin 3) : Int :=
  match i with
  | 0 => a.x
  | 1 => a.y
  | 2 => a.z

/-- Assignment to `components()[i]` (vector3.h 59-61). -/
def set (a : V3) (i : Fin 3) (t : Int) : V3 :=
  match i with
  | 0 => { a with x := t }
  | 1 => { a with y := t }
  | 2 => { a with z := t }

/-- `Zero` (vector3.h 31-33). -/
def zero : V3 := ⟨0, 0, 0⟩
/-- `operator-` (vector3.h 79-82). -/
def sub (a b : V3) : V3 := ⟨a.x - b.x, a.y - b.y, a.z - b.z⟩
/-- `operator+`, `operator+=` (vector3.h 84-94). -/
def add (a b : V3) : V3 := ⟨a.x + b.x, a.y + b.y, a.z + b.z⟩
/-- `Dot` (vector3.h 113-118). -/
def dot (a b : V3) : Int := a.x * b.x + a.y * b.y + a.z * b.z
/-- `Cross` (vector3.h 121-126). -/
def cross (a b : V3) : V3 :=
  ⟨a.y * b.z - a.z * b.y, a.z * b.x - a.x * b.z, a.x * b.y - a.y * b.x⟩
/-- `Scale`, `operator*` (vector3.h 140-154). -/
def scale (a : V3) (s : Int) : V3 := ⟨a.x * s, a.y * s, a.z * s⟩
/-- `IsZero` (vector3.h 156-158). -/
def isZero (a : V3) : Bool := decide (a.x = 0 ∧ a.y = 0 ∧ a.z = 0)
/-- `Negate`, `operator-()` (vector3.h 183-193). -/
def neg (a : V3) : V3 := ⟨-a.x, -a.y, -a.z⟩

/-- `GetFirstNonzeroDimension` (vector3.h 160-165); `-1` is `none`. -/
def firstNonzeroDimension (a : V3) : Option (Fin 3) :=
  if a.x ≠ 0 then some 0 else if a.y ≠ 0 then some 1 else if a.z ≠ 0 then some 2 else none

/-- `DropDimension` (vector3.h 167-170). -/
def dropDimension (a : V3) (i : Fin 3) : V2 := ⟨a.comp (i + 1), a.comp (i + 2)⟩

/-- `GetComponentAfterDrop` (vector3.h 172-175). -/
def componentAfterDrop (a : V3) (c : Fin 3) (drop : Fin 3) : Int := a.comp (c + drop + 1)

/-- `IsSameDir` (vector3.h 205-222). -/
def isSameDir (a b : V3) : Option Bool := do
  let so ← if a.x ≠ 0 then abs? a.x else if a.y ≠ 0 then abs? a.y else abs? a.z
  let sm ← if a.x ≠ 0 then abs? b.x else if a.y ≠ 0 then abs? b.y else abs? b.z
  return decide (a.x * sm = b.x * so ∧ a.y * sm = b.y * so ∧ a.z * sm = b.z * so)

/-- `IsSameOrOppositeDir` (vector3.h 224-241). -/
def isSameOrOppositeDir (a b : V3) : Bool :=
  let so := if a.x ≠ 0 then a.x else if a.y ≠ 0 then a.y else a.z
  let sm := if a.x ≠ 0 then b.x else if a.y ≠ 0 then b.y else b.z
  decide (a.x * sm = b.x * so ∧ a.y * sm = b.y * so ∧ a.z * sm = b.z * so)

/-- `/=` of each component by the same factor (half_space3.cpp 19-21, homo_point3.cpp 121-123, plucker_line.cpp 96-98). -/
def div? (a : V3) (f : Int) : Option V3 := do
  let x ← Geom.div? a.x f
  let y ← Geom.div? a.y f
  let z ← Geom.div? a.z f
  return ⟨x, y, z⟩

/-- `Reduce` (vector3.cpp 13-26). -/
def reduce (a : V3) : Option V3 := do
  let f ← gcd? a.x a.y
  let f ← gcd? f a.z
  a.div? |f|

end V3

/-! ### point2.h, point3.h -/

/-- `Point2::GetTwistDir` (point2.h 57-60), as the returned word. -/
def V2.getTwistDir (p p1 p3 : V2) : Word := signWord ((p1.sub p).cross (p3.sub p))

/-- `Point3::Get2DTwistDir` (point3.h 93-97). -/
def V3.get2DTwistDir (p : V3) (drop : Fin 3) (p1 p3 : V3) : Word :=
  (p.dropDimension drop).getTwistDir (p1.dropDimension drop) (p3.dropDimension drop)

/-- `std::lexicographical_compare` with a comparator.  The standard library function called at homo_point2.h 74. -/
def lexCompare (lt : Int → Int → Bool) : List Int → List Int → Bool
  | _, [] => false
  | [], _ :: _ => true
  | a :: as, b :: bs => if lt a b then true else if lt b a then false else lexCompare lt as bs

/-- `Point3::LexicographicallyLt` (point3.cpp 8-13). -/
def V3.lexicographicallyLt (a b : V3) : Bool :=
  lexCompare (lessThan false) [a.x, a.y, a.z] [b.x, b.y, b.z]

/-! ### homo_point2.h, homo_point3.h -/

/-- `HomoPoint2::LexicographicallyLt` (homo_point2.h 71-78). -/
def HP2.lexicographicallyLt (a b : HP2) : Bool :=
  let as := a.v.scale b.w
  let bs := b.v.scale a.w
  lexCompare (lessThan false) [as.x, as.y] [bs.x, bs.y]

/-- `HomoPoint2::operator==` (homo_point2.h 81-84). -/
def HP2.eq (a b : HP2) : Bool := decide (a.v.scale b.w = b.v.scale a.w)

namespace HP3

/-- `HomoPoint3(Point3)` (homo_point3.h 34-35). -/
def ofPoint (p : V3) : HP3 := ⟨p, 1⟩

/-- `Difference` (homo_point3.h 96-100): the vector and its denominator. -/
def difference (a b : HP3) : V3 × Int :=
  ((a.v.scale b.w).sub (b.v.scale a.w), b.w * a.w)

/-- `DropDimension` (homo_point3.h 155-158). -/
def dropDimension (a : HP3) (i : Fin 3) : HP2 := ⟨a.v.dropDimension i, a.w⟩

/-- `operator==(HomoPoint3)` (homo_point3.h 182-185). -/
def eq (a b : HP3) : Bool := decide (a.v.scale b.w = b.v.scale a.w)

/-- `operator==(Point3)` (homo_point3.h 188-190). -/
def eqPoint (a : HP3) (b : V3) : Bool := decide (a.v = b.scale a.w)

/-- `AddOffset` (homo_point3.h 275-281). -/
def addOffset (a : HP3) (dir : V3) (den : Int) : HP3 :=
  ⟨⟨a.v.x * den + dir.x * a.w, a.v.y * den + dir.y * a.w, a.v.z * den + dir.z * a.w⟩, den * a.w⟩

/-- `CompareComponent` (homo_point3.h 283-294). -/
def compareComponent (a : HP3) (i : Fin 3) (b : HP3) : Int :=
  cmp (a.v.comp i * b.w) (b.v.comp i * a.w) * absMult2 b.w a.w

/-- `IsLessThanComponent` (homo_point3.h 296-302). -/
def isLessThanComponent (a : HP3) (i : Fin 3) (b : HP3) : Bool :=
  Rational.isLessThan (a.v.comp i) a.w (b.v.comp i) b.w

/-- `IsEquivalentComponent` (homo_point3.h 304-311). -/
def isEquivalentComponent (a : HP3) (i : Fin 3) (b : HP3) : Bool :=
  decide (a.v.comp i * b.w = b.v.comp i * a.w)

/-- `LexicographicallyLt` (homo_point3.cpp 52-64). -/
def lexicographicallyLt (a b : HP3) : Bool :=
  let flip := absMult2 b.w a.w
  let as := a.v.scale (b.w * flip)
  let bs := b.v.scale (a.w * flip)
  lexCompare (lessThan false) [as.x, as.y, as.z] [bs.x, bs.y, bs.z]

/-- `TopnessLt` (homo_point3.cpp 66-79). -/
def topnessLt (a b : HP3) : Bool :=
  let as := a.v.scale b.w
  let bs := b.v.scale a.w
  lexCompare (lessThan (hasDifferentSign b.w a.w)) [as.z, as.y, as.x] [bs.z, bs.y, bs.x]

/-- The cross product computed by `Get2DTwistDir` (homo_point3.cpp 94-103). -/
def twistCross (p : HP3) (drop : Fin 3) (p1 p3 : HP3) : Int :=
  (((p1.v.dropDimension drop).scale p.w).sub ((p.v.dropDimension drop).scale p1.w)).cross
    (((p3.v.dropDimension drop).scale p.w).sub ((p.v.dropDimension drop).scale p3.w))

/-- `Get2DTwistDir` (homo_point3.cpp 81-105), as the returned word. -/
def get2DTwistDir (p : HP3) (drop : Fin 3) (p1 p3 : HP3) : Word :=
  signWord (twistCross p drop p1 p3) ^^^ signExt p1.w ^^^ signExt p3.w

/-- `Get2DTwistDirReduced` (homo_point3.h 143-153). -/
def get2DTwistDirReduced (p : HP3) (drop : Fin 3) (p1 p3 : HP3) : Int :=
  let t := (get2DTwistDir p drop p1 p3).toInt
  if 0 < t then 1 else if t < 0 then -1 else 0

/-- `Reduce` (homo_point3.cpp 107-124). -/
def reduce (a : HP3) : Option HP3 := do
  let f ← gcd? a.w a.v.x
  let f ← gcd? f a.v.y
  let f ← gcd? f a.v.z
  let f := if (decide (f < 0)) ≠ (decide (a.w < 0)) then -f else f
  let w ← div? a.w f
  let v ← a.v.div? f
  return ⟨v, w⟩

end HP3

/-! ### half_space2.h, half_space2_sideless_compare.h -/

namespace HS2

/-- `HalfSpace2(p1, p2)` (half_space2.h 51-53). -/
def ofPoints (p1 p2 : V2) : HS2 :=
  let n := (p2.sub p1).perp
  ⟨n, n.dot p1⟩

/-- `Compare(Point2)` (half_space2.h 57-59). -/
def compare (h : HS2) (v : V2) : Int := cmp (h.n.dot v) h.d

/-- `Compare(HomoPoint2)` (half_space2.h 68-71). -/
def compareHomo (h : HS2) (v : HP2) : Int := cmp (h.n.dot v.v) (v.w * h.d) * absMult v.w

/-- `operator==` (half_space2.h 90-107). -/
def eq (a b : HS2) : Option Bool := do
  let so ← if a.d ≠ 0 then abs? a.d else if a.n.x ≠ 0 then abs? a.n.x else abs? a.n.y
  let sm ← if a.d ≠ 0 then abs? b.d else if a.n.x ≠ 0 then abs? b.n.x else abs? b.n.y
  return decide (a.n.x * sm = b.n.x * so ∧ a.n.y * sm = b.n.y * so ∧ a.d * sm = b.d * so)

/-- `HasSameLine` (half_space2.h 116-133). -/
def hasSameLine (a b : HS2) : Bool :=
  let so := if a.d ≠ 0 then a.d else if a.n.x ≠ 0 then a.n.x else a.n.y
  let sm := if a.d ≠ 0 then b.d else if a.n.x ≠ 0 then b.n.x else b.n.y
  decide (a.n.x * sm = b.n.x * so ∧ a.n.y * sm = b.n.y * so ∧ a.d * sm = b.d * so)

/-- `HalfSpace2SidelessCompare::operator()` (half_space2_sideless_compare.h 14-31). -/
def sidelessCompare (h1 h2 : HS2) : Bool :=
  if h1.n.isHalfRotationLessThan h2.n then true
  else if h2.n.isHalfRotationLessThan h1.n then false
  else if h1.n.x ≠ 0 then
    lessThan (hasDifferentSign h1.n.x h2.n.x) (h1.d * h2.n.x) (h2.d * h1.n.x)
  else
    lessThan (hasDifferentSign h1.n.y h2.n.x) (h1.d * h2.n.y) (h2.d * h1.n.y)

/-- `Negate`, `operator-()` (half_space2.h 140-147). -/
def neg (a : HS2) : HS2 := ⟨a.n.neg, -a.d⟩

end HS2

/-! ### half_space3.h -/

namespace HS3

/-- `HalfSpace3(normal, coincident)` (half_space3.h 36-43). -/
def ofNormalPoint (n : V3) (p : HP3) : HS3 :=
  let d := n.dot p.v
  ⟨n.scale |p.w|, if p.w < 0 then -d else d⟩

/-- `HalfSpace3(Point3, Point3, Point3)` (half_space3.h 61-66). -/
def ofPoints (p1 p2 p3 : V3) : HS3 :=
  let n := (p3.sub p2).cross (p1.sub p2)
  ⟨n, n.dot p2⟩

/-- `HalfSpace3(HomoPoint3, HomoPoint3, HomoPoint3)` (half_space3.h 68-80). -/
def ofHomoPoints (p1 p2 p3 : HP3) : Option HS3 := do
  let un := (((p3.v.scale p2.w).sub (p2.v.scale p3.w)).cross
    ((p1.v.scale p2.w).sub (p2.v.scale p1.w))).scale (absMult2 p1.w p3.w)
  let a ← abs? p2.w
  return ⟨un.scale a, un.dot p2.v * absMult p2.w⟩

/-- `HalfSpace3(HalfSpace2, add_dimension)` (half_space3.h 89-96). -/
def extrude (p : HS2) (i : Fin 3) : HS3 :=
  ⟨(V3.zero.set (i + 1) p.n.x).set (i + 2) p.n.y, p.d⟩

/-- `GetAxisAligned` (half_space3.h 104-109). -/
def axisAligned (i : Fin 3) (num den : Int) : HS3 := ⟨V3.zero.set i den, num⟩

/-- `Compare(Point3)` (half_space3.h 144-146). -/
def compare (h : HS3) (v : V3) : Int := cmp (h.n.dot v) h.d

/-- `Compare(HomoPoint3)` (half_space3.h 155-158). -/
def compareHomo (h : HS3) (v : HP3) : Int := cmp (h.n.dot v.v) (v.w * h.d) * absMult v.w

/-- `IsCoincident(HomoPoint3)` (half_space3.h 161-163). -/
def isCoincident (h : HS3) (v : HP3) : Bool := decide (h.compareHomo v = 0)

/-- `Compare(HalfSpace3, nonzero_dimension)` (half_space3.h 176-180). -/
def compareParallel (h p : HS3) (i : Fin 3) : Int :=
  cmp (h.d * p.n.comp i) (p.d * h.n.comp i) * absMult (p.n.comp i)

/-- `operator==` (half_space3.h 193-214). -/
def eq (a b : HS3) : Option Bool := do
  let so ← if a.d ≠ 0 then abs? a.d else if a.n.x ≠ 0 then abs? a.n.x
    else if a.n.y ≠ 0 then abs? a.n.y else abs? a.n.z
  let sm ← if a.d ≠ 0 then abs? b.d else if a.n.x ≠ 0 then abs? b.n.x
    else if a.n.y ≠ 0 then abs? b.n.y else abs? b.n.z
  return decide (a.n.x * sm = b.n.x * so ∧ a.n.y * sm = b.n.y * so ∧ a.n.z * sm = b.n.z * so ∧
    a.d * sm = b.d * so)

/-- `IsSameOrOpposite` (half_space3.h 216-237). -/
def isSameOrOpposite (a b : HS3) : Bool :=
  let so := if a.d ≠ 0 then a.d else if a.n.x ≠ 0 then a.n.x
    else if a.n.y ≠ 0 then a.n.y else a.n.z
  let sm := if a.d ≠ 0 then b.d else if a.n.x ≠ 0 then b.n.x
    else if a.n.y ≠ 0 then b.n.y else b.n.z
  decide (a.n.x * sm = b.n.x * so ∧ a.n.y * sm = b.n.y * so ∧ a.n.z * sm = b.n.z * so ∧
    a.d * sm = b.d * so)

/-- `Negate`, `operator-()` (half_space3.h 246-256). -/
def neg (a : HS3) : HS3 := ⟨a.n.neg, -a.d⟩

/-- `Reduce` (half_space3.cpp 5-22). -/
def reduce (a : HS3) : Option HS3 := do
  let f ← gcd? a.n.x a.n.y
  let f ← gcd? f a.n.z
  let f ← gcd? f a.d
  let d ← div? a.d |f|
  let n ← a.n.div? |f|
  return ⟨n, d⟩

/-- `ProjectOntoPlane` (half_space3.cpp 24-43). -/
def projectOntoPlane (h : HS3) (p : HP2) (i : Fin 3) : HP3 :=
  let c := h.n.comp i
  let v := (((V3.zero.set (0 + i + 1) (p.v.x * c)).set (1 + i + 1) (p.v.y * c)).set i
    (h.d * p.w - p.v.x * h.n.componentAfterDrop 0 i - p.v.y * h.n.componentAfterDrop 1 i))
  ⟨v, p.w * c⟩

/-- `HalfSpace3Compare::operator()` (half_space3.h 279-293): comparison of tuples. -/
def setCompare (a b : HS3) : Option Bool := do
  let sa ← abs? (b.n.x + b.n.y + b.n.z)
  let sb ← abs? (a.n.x + a.n.y + a.n.z)
  return lexCompare (lessThan false) [a.n.x * sa, a.n.y * sa, a.n.z * sa, a.d * sa]
    [b.n.x * sb, b.n.y * sb, b.n.z * sb, b.d * sb]

end HS3

/-! ### plucker_line.h -/

namespace PL

/-- `PluckerLine(Point3, Point3)` (plucker_line.h 63-64). -/
def ofPoints (p1 p2 : V3) : PL := ⟨p2.sub p1, p1.cross p2⟩

/-- `PluckerLine(HomoPoint3, HomoPoint3)` (plucker_line.h 66-70). -/
def ofHomoPoints (p1 p2 : HP3) : PL :=
  ⟨((p2.v.scale p1.w).sub (p1.v.scale p2.w)).scale (absMult2 p1.w p2.w),
   (p1.v.cross p2.v).scale (absMult2 p1.w p2.w)⟩

/-- `PluckerLine(HalfSpace3, HalfSpace3)` (plucker_line.cpp 5-58). -/
def ofPlanes (a b : HS3) : PL :=
  ⟨a.n.cross b.n,
   ⟨a.n.x * b.d - a.d * b.n.x, a.n.y * b.d - a.d * b.n.y, a.n.z * b.d - a.d * b.n.z⟩⟩

/-- `IsValid` (plucker_line.h 49-52). -/
def isValid (l : PL) : Bool := !l.d.isZero

/-- `IsCoincident(Point3)` (plucker_line.h 82-89). -/
def isCoincidentPoint (l : PL) (p : V3) : Bool := decide (p.cross l.d = l.m)

/-- `IsCoincident(HomoPoint3)` (plucker_line.h 92-99). -/
def isCoincident (l : PL) (p : HP3) : Bool := decide (p.v.cross l.d = l.m.scale p.w)

/-- `IsCoincident(HalfSpace3)` (plucker_line.h 102-105). -/
def isCoincidentPlane (l : PL) (p : HS3) : Bool :=
  decide (l.d.dot p.n = 0 ∧ l.d.scale p.d = l.m.cross p.n)

/-- `operator==` (plucker_line.cpp 60-82). -/
def eq (a b : PL) : Bool :=
  let so := if a.d.x ≠ 0 then |a.d.x| else if a.d.y ≠ 0 then |a.d.y| else |a.d.z|
  let sm := if a.d.x ≠ 0 then |b.d.x| else if a.d.y ≠ 0 then |b.d.y| else |b.d.z|
  decide (a.d.x * sm = b.d.x * so ∧ a.d.y * sm = b.d.y * so ∧ a.d.z * sm = b.d.z * so ∧
    a.m.x * sm = b.m.x * so ∧ a.m.y * sm = b.m.y * so ∧ a.m.z * sm = b.m.z * so)

/-- `Intersect` (plucker_line.h 122-126). -/
def intersect (l : PL) (p : HS3) : HP3 := ⟨(p.n.cross l.m).add (l.d.scale p.d), p.n.dot l.d⟩

/-- `Project2D` (plucker_line.h 140-144). -/
def project2D (l : PL) (i : Fin 3) : HS2 := ⟨(l.d.dropDimension i).perp, -l.m.comp i⟩

/-- `operator-()`, `Negate` (plucker_line.h 148-162). -/
def neg (l : PL) : PL := ⟨l.d.neg, l.m.neg⟩

/-- `Reduce` (plucker_line.cpp 84-103). -/
def reduce (l : PL) : Option PL := do
  let f ← gcd? l.d.x l.d.y
  let f ← gcd? f l.d.z
  let f ← gcd? f l.m.x
  let f ← gcd? f l.m.y
  let f ← gcd? f l.m.z
  let d ← l.d.div? |f|
  let m ← l.m.div? |f|
  return ⟨d, m⟩

end PL

/-! ### r_transformation.h -/

/-- `RTransform` (r_transformation.h 28-36). -/
def rTransform (p : HP3) (epsInv : Int) : HP3 :=
  let e2 := epsInv * epsInv
  ⟨⟨p.v.x * e2, p.v.y * e2, (p.v.z * epsInv + p.v.y) * epsInv + p.v.x⟩, p.w * e2⟩

/-- `RXYCompareBivector(Vector3, Vector3)` (r_transformation.cpp 5-16). -/
def rxyCompareBivector (u v : V3) : Int :=
  let xy := cmp (u.x * v.y) (u.y * v.x)
  if xy ≠ 0 then xy
  else
    let xz := cmp (u.z * v.x) (u.x * v.z)
    if xz ≠ 0 then xz else cmp (u.y * v.z) (u.z * v.y)

/-- `RXYCompareBivector(Vector3, SplitSide)` (r_transformation.cpp 18-20). -/
def rxyCompareSplitSide (u : V3) (split : HS3) (posSide : Bool) : Int :=
  rxyCompareBivector u split.n * (if posSide then -1 else 1)

/-! ### aabb.h -/

/-- `AABB` (aabb.h 14-178). -/
structure AABB where
  lo : V3
  hi : V3
  den : Int
deriving DecidableEq, Repr

namespace AABB

/-- `AABB()` (aabb.h 17). -/
def empty : AABB := ⟨⟨1, 1, 1⟩, ⟨0, 0, 0⟩, 1⟩

/-- `AABB(min, max, denom)` (aabb.h 23-31). -/
def make (lo hi : V3) (den : Int) : AABB :=
  if den < 0 then ⟨lo.neg, hi.neg, -den⟩ else ⟨lo, hi, den⟩

/-- `IsInside(Point3)` (aabb.h 82-90). -/
def isInsidePoint (b : AABB) (p : V3) : Bool :=
  [0, 1, 2].all fun i => !(decide (p.comp i * b.den < b.lo.comp i) || decide (p.comp i * b.den > b.hi.comp i))

/-- `IsInside(HomoPoint3)` (aabb.h 93-105). -/
def isInside (b : AABB) (p : HP3) : Bool :=
  let flip := decide (p.w < 0)
  [0, 1, 2].all fun i =>
    !(lessThan flip (p.v.comp i * b.den) (b.lo.comp i * p.w)) &&
    !(lessThan flip (b.hi.comp i * p.w) (p.v.comp i * b.den))

/-- `IsOnBorder(HomoPoint3)` (aabb.h 70-79). -/
def isOnBorder (b : AABB) (p : HP3) : Bool :=
  b.isInside p && [0, 1, 2].any fun i =>
    decide (p.v.comp i * b.den = b.lo.comp i * p.w) || decide (p.v.comp i * b.den = b.hi.comp i * p.w)

/-- `GetPlaneSide` (aabb.h 253-289). -/
def getPlaneSide (b : AABB) (pl : HS3) : Int :=
  let mn := (if 0 < pl.n.x then b.lo.x else b.hi.x) * pl.n.x +
    (if 0 < pl.n.y then b.lo.y else b.hi.y) * pl.n.y + (if 0 < pl.n.z then b.lo.z else b.hi.z) * pl.n.z
  let sd := pl.d * b.den
  if cmp mn sd * absMult b.den > 0 then 1
  else
    let mx := (if 0 < pl.n.x then b.hi.x else b.lo.x) * pl.n.x +
      (if 0 < pl.n.y then b.hi.y else b.lo.y) * pl.n.y + (if 0 < pl.n.z then b.hi.z else b.lo.z) * pl.n.z
    if cmp mx sd * absMult b.den < 0 then -1 else 0

/-- `operator==` (aabb.h 150-158). -/
def eq (a b : AABB) : Bool :=
  decide (a.lo.scale b.den = b.lo.scale a.den) && decide (a.hi.scale b.den = b.hi.scale a.den)

end AABB

end Walnut.Geom
