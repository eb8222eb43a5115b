/-
Model of `MonotoneTriangulator` (monotone_triangulator.h).

A vertex is a homogeneous point; a `Point3` is the homogeneous point with
denominator 1 (`HP3.ofPoint`).  The reflex stack holds pointers to vertices; the
model holds the vertices, the back of the stack first.  The calls of the virtual
function `EmitTriangle` are collected in a list in the order of the calls.  A failed
assertion or a read past the end of a range is `none`.
-/
import Verif.Geom.Model

namespace Walnut.Mono
open Walnut.Geom

/-- The arguments of a call of `EmitTriangle` (monotone_triangulator.h 67-68). -/
structure Tri where
  isTop : Bool
  p1 : HP3
  p2 : HP3
  p3 : HP3
deriving DecidableEq

/-- `reflex_stack_` (monotone_triangulator.h 92), back first, and
`top_chain_is_current_` (96). -/
structure TriState where
  stack : List HP3
  top : Bool
deriving DecidableEq

/-- The triangles emitted by the loop of `SwitchChains`
(monotone_triangulator.h 192-204); the argument is the stack, front first. -/
def switchTris (topCur : Bool) (next : HP3) : List HP3 → List Tri
  | a :: b :: r =>
    (if topCur then ⟨!topCur, b, a, next⟩ else ⟨!topCur, a, b, next⟩) :: switchTris topCur next (b :: r)
  | _ => []

/-- `SwitchChains` (monotone_triangulator.h 189-207). -/
def switchChains (next : HP3) (s : TriState) : Option (List Tri × TriState) :=
  match s.stack with
  | [] => none
  | back :: r => some (switchTris s.top next (back :: r).reverse, ⟨[back], s.top⟩)

/-- The loop of `ProcessVertex` (monotone_triangulator.h 163-182): the emitted
triangles and the remaining stack, back first. -/
def popConvex (drop : Fin 3) (isTop : Bool) (v : HP3) : List HP3 → List Tri × List HP3
  | a :: b :: r =>
    let p1 := if isTop then a else b
    let p2 := if isTop then b else a
    if (p2.get2DTwistDir drop p1 v).toInt ≤ 0 then
      let rest := popConvex drop isTop v (b :: r)
      (⟨isTop, p1, p2, v⟩ :: rest.1, rest.2)
    else ([], a :: b :: r)
  | s => ([], s)

/-- `ProcessVertex` (monotone_triangulator.h 152-187). -/
def processVertex (drop : Fin 3) (isTop : Bool) (v : HP3) (s : TriState) :
    Option (List Tri × TriState) :=
  if s.stack.length < 2 then none
  else if isTop ≠ s.top then do
    let r ← switchChains v s
    return (r.1, ⟨v :: r.2.stack, isTop⟩)
  else
    let r := popConvex drop isTop v s.stack
    some (r.1, ⟨v :: r.2, s.top⟩)

/-- The end of `Build` from the point where the top chain is used up
(monotone_triangulator.h 138-149). -/
def finishBottom (drop : Fin 3) : List HP3 → TriState → Option (List Tri × List HP3)
  | [], _ => none
  | [last], s => do
    let r ← switchChains last s
    if r.2.stack.length = 1 then return (r.1, []) else none
  | v :: w :: rest, s => do
    let r ← processVertex drop false v s
    let q ← finishBottom drop (w :: rest) r.2
    return (r.1 ++ q.1, q.2)

/-- The main loop of `Build` (monotone_triangulator.h 125-135) and what follows. -/
def mainLoop (drop mono : Fin 3) : List HP3 → List HP3 → TriState → Option (List Tri × List HP3)
  | [], bottom, s => finishBottom drop bottom s
  | _ :: _, [], _ => none
  | t :: ts, b :: bs, s =>
    if b.compareComponent mono t < 0 then do
      let r ← processVertex drop false b s
      let q ← mainLoop drop mono (t :: ts) bs r.2
      return (r.1 ++ q.1, q.2)
    else do
      let r ← processVertex drop true t s
      let q ← mainLoop drop mono ts (b :: bs) r.2
      return (r.1 ++ q.1, q.2)
termination_by top bottom => top.length + bottom.length

/-- `Build` (monotone_triangulator.h 98-150) of an object whose `reflex_stack_` is
`stack0`: the emitted triangles, and `reflex_stack_` at the end. -/
def triangulate (drop mono : Fin 3) (stack0 top bottom : List HP3) : Option (List Tri × List HP3) :=
  if stack0 ≠ [] then none
  else match top, bottom with
  | [], _ => none
  | _, [] => none
  | t0 :: [], b :: bs => mainLoop drop mono [] bs ⟨[b, t0], false⟩
  | t0 :: t :: ts, b :: bs =>
    if b.compareComponent mono t < 0 then mainLoop drop mono (t :: ts) bs ⟨[b, t0], false⟩
    else mainLoop drop mono ts (b :: bs) ⟨[t, t0], true⟩

end Walnut.Mono
