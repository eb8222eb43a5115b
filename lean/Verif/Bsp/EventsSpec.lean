/-
Specification of the event points, and what is assumed of the heap functions of the standard library.
-/
import Verif.Bsp.Events
import Verif.Geom.Spec
import Mathlib.Data.Prod.Lex
import Mathlib.Data.Rat.Defs
import Mathlib.Algebra.Order.Ring.Rat

namespace Walnut.Bsp
open Walnut.Geom

/-- The comparison orders the elements of the list by keys, so that it is a strict weak ordering. -/
def ByKey {α : Type} (less : α → α → Bool) (l : List α) : Prop :=
  ∃ key : α → ℚ ×ₗ Bool, ∀ a ∈ l, ∀ b ∈ l, (less a b = true ↔ key a < key b)

/-- The C++ standard's definition of a heap: no element is greater than its parent. -/
def IsHeap {α : Type} (less : α → α → Bool) (l : List α) : Prop :=
  ∀ (i : Nat) (a b : α), l[i / 2]? = some a → l[i + 1]? = some b → less a b = false

/-- What the C++ standard says about the heap functions: `make_heap` rearranges a range to a heap; `pop_heap` moves the first
element of a heap to the end and makes the others a heap; `push_heap` makes a range a heap whose elements but the last are
one. -/
structure HeapOk (o : HeapOps) : Prop where
  make : ∀ less l, ByKey less l → (o.make less l).Perm l ∧ IsHeap less (o.make less l)
  pop : ∀ less x l, ByKey less (x :: l) → IsHeap less (x :: l) → ∃ q, o.pop less (x :: l) = q ++ [x] ∧ q.Perm l ∧ IsHeap less q
  push : ∀ less q x, ByKey less (q ++ [x]) → IsHeap less q → (o.push less (q ++ [x])).Perm (q ++ [x]) ∧ IsHeap less (o.push less (q ++ [x]))

/-- The polygons' vertices are finite, and the least component does not exceed the greatest. -/
def Extents (dim : Fin 3) (polys : List EPoly) : Prop :=
  ∀ p ∈ polys, p.lo.w ≠ 0 ∧ p.hi.w ≠ 0 ∧ p.lo.pt dim ≤ p.hi.pt dim

/-- `ev` is an array of the event points of the polygons: polygon `i` has its start at position `s i` and its end at position
`t i`; `loc` is the location of each event. -/
structure EventsOk (dim : Fin 3) (polys : List EPoly) (ev : List EP) (s t : Nat → Nat) (loc : Nat → ℚ) : Prop where
  length : ev.length = 2 * polys.length
  /-- the start of polygon `i` refers to its end and has the location of the least vertex -/
  starts : ∀ i p, polys[i]? = some p → ∃ b, ev[s i]? = some ⟨b, true, t i⟩ ∧ loc (s i) = p.lo.pt dim
  /-- the end of polygon `i` refers to the polygon and has the location of the greatest vertex -/
  ends : ∀ i p, polys[i]? = some p → ∃ b, ev[t i]? = some ⟨b, false, i⟩ ∧ loc (t i) = p.hi.pt dim
  /-- there are no other events -/
  all : ∀ k < ev.length, ∃ i < polys.length, k = s i ∨ k = t i
  before : ∀ i < polys.length, s i < t i
  sorted : ∀ j k, j ≤ k → k < ev.length → loc j ≤ loc k
  /-- at the same location the starts of polygons that are not flat come after all ends -/
  ties : ∀ i < polys.length, ∀ j < polys.length, loc (s i) = loc (t j) → s i < t j → loc (s i) = loc (t i)
  /-- the end of a flat polygon directly follows its start -/
  flat : ∀ i < polys.length, loc (s i) = loc (t i) → t i = s i + 1
  newLoc : ∀ k e, ev[k]? = some e → (e.newLoc = true ↔ k = 0 ∨ loc (k - 1) < loc k)

end Walnut.Bsp
