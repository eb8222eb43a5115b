/-
Specification of connected half-edges, and what is assumed of the heap functions of the standard library.
-/
import Verif.Conn.Model
import Verif.Geom.Spec
import Mathlib.Algebra.Order.Ring.Rat

namespace Walnut.Conn
open Walnut.Geom

/-- The comparison orders the elements of the list by keys, so that it is a strict weak ordering. -/
def ByKey (less : Nat → Nat → Bool) (l : List Nat) : Prop :=
  ∃ key : Nat → ℚ, ∀ a ∈ l, ∀ b ∈ l, (less a b = true ↔ key a < key b)

/-- The C++ standard's definition of a heap: no element is greater than its parent. -/
def IsHeap (less : Nat → Nat → Bool) (l : List Nat) : Prop :=
  ∀ (i : Nat) (a b : Nat), l[i / 2]? = some a → l[i + 1]? = some b → less a b = false

/-- What the C++ standard says about `pop_heap` and `push_heap`: `pop_heap` moves the first element of a heap to the end and makes
the others a heap; `push_heap` makes a range a heap whose elements but the last are one. -/
structure HeapOk (o : HeapFns) : Prop where
  pop : ∀ less x l, ByKey less (x :: l) → IsHeap less (x :: l) → ∃ q, o.pop less (x :: l) = q ++ [x] ∧ q.Perm l ∧ IsHeap less q
  push : ∀ less q x, ByKey less (q ++ [x]) → IsHeap less q → (o.push less (q ++ [x])).Perm (q ++ [x]) ∧ IsHeap less (o.push less (q ++ [x]))

namespace Net

/-- The vertex where the edge `e` ends. -/
def target (N : Net) (e : Nat) : HP3 := (N.nextVertex e).getD (N.vertex e)

/-- The lower and the upper end of an edge on a line that is ordered by the component `k`. -/
def loPt (N : Net) (k : Fin 3) (e : Nat) : HP3 := if N.isPositive k e then N.vertex e else N.target e
def hiPt (N : Net) (k : Fin 3) (e : Nat) : HP3 := if N.isPositive k e then N.target e else N.vertex e
def lo (N : Net) (k : Fin 3) (e : Nat) : ℚ := (N.loPt k e).pt k
def hi (N : Net) (k : Fin 3) (e : Nat) : ℚ := (N.hiPt k e).pt k

/-- The polygons are disjoint cycles of the edges, and the vertices are finite points.  Partners are mutual. -/
structure Ok (N : Net) : Prop where
  mem : ∀ e < N.count, e ∈ N.cycle (N.poly e)
  own : ∀ p e, e ∈ N.cycle p → e < N.count ∧ N.poly e = p
  nodup : ∀ p, (N.cycle p).Nodup
  fin : ∀ e < N.count, (N.vertex e).w ≠ 0
  exist : ∀ e f, N.partner e = some f → e < N.count
  sym : ∀ e f, N.partner e = some f → N.partner f = some e

end Net

/-- The edges in `range` are on the same line, which is not perpendicular to the axis `k`, have no partners, and are in the order of
their lower ends. -/
structure LineInput (k : Fin 3) (N : Net) (range : List Nat) : Prop where
  ok : N.Ok
  nodup : range.Nodup
  lt : ∀ e ∈ range, e < N.count
  dir : ∀ e ∈ range, (N.line e).d.comp k ≠ 0
  on : ∀ e ∈ range, ∀ f ∈ range, (N.line e).isCoincident (N.vertex f) = true ∧ (N.line e).isCoincident (N.target f) = true
  len : ∀ e ∈ range, N.lo k e < N.hi k e
  free : ∀ e ∈ range, N.partner e = none
  sorted : range.Pairwise fun a b => N.lo k a ≤ N.lo k b

/-- `e` is one of the given edges or was made by splitting. -/
def Piece (N N' : Net) (range : List Nat) (e : Nat) : Prop := e ∈ range ∨ N.count ≤ e ∧ e < N'.count

/-- The surface is closed along the line: `Ord t` are the edges over the location `t`, sorted around the line (the comparisons of
their keys are defined and strict), and the polarities of neighbours differ. -/
structure Closed (k : Fin 3) (R : List Nat) (N0 : Net) (Ord : ℚ → List Nat) : Prop where
  mem : ∀ t e, e ∈ Ord t ↔ e ∈ R ∧ N0.lo k e ≤ t ∧ t < N0.hi k e
  lt : ∀ t, (Ord t).Pairwise fun a b => keyLess (keyOf N0 k a) (keyOf N0 k b) = some true ∧ keyLess (keyOf N0 k b) (keyOf N0 k a) = some false
  alt : ∀ t e f, succIn (Ord t) e = some f → N0.isPositive k e ≠ N0.isPositive k f

end Walnut.Conn
