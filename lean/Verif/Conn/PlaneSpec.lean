/-
Specification of half-edges in a plane, and what is assumed of `std::sort`.
-/
import Verif.Conn.Plane
import Verif.Conn.Spec
import Verif.Props.Lines

namespace Walnut.Conn
open Walnut.Geom Walnut.Props

/-- The comparison is a strict weak ordering of the elements of the list. -/
structure StrictWeak {α : Type} (less : α → α → Bool) (l : List α) : Prop where
  irrefl : ∀ a ∈ l, less a a = false
  trans : ∀ a ∈ l, ∀ b ∈ l, ∀ c ∈ l, less a b = true → less b c = true → less a c = true
  incomp : ∀ a ∈ l, ∀ b ∈ l, ∀ c ∈ l, less a b = false → less b a = false → less b c = false → less c b = false → less a c = false ∧ less c a = false

/-- What the C++ standard says about `sort`: if the comparison is a strict weak ordering, the range is permuted so that no element is
less than an earlier one. -/
def SortOk (S : SortFn) : Prop :=
  ∀ less l, StrictWeak less l → (S.sort less l).Perm l ∧ (S.sort less l).Pairwise fun a b => less b a = false

/-- The edge goes from its vertex to the next one along its line, and lies in the plane `n·p = c`. -/
structure EdgeIn (N : Net) (n : V3) (c : ℚ) (e : Nat) : Prop where
  lt : e < N.count
  size : 3 ≤ (N.cycle (N.poly e)).length
  dir : (N.line e).d ≠ ⟨0, 0, 0⟩
  on : OnLine (N.line e) (N.vertex e).pt
  toNext : ∃ t : ℚ, 0 < t ∧ ∀ i, (N.target e).pt i = (N.vertex e).pt i + t * (N.line e).d.comp i
  inV : n.q 0 * (N.vertex e).pt 0 + n.q 1 * (N.vertex e).pt 1 + n.q 2 * (N.vertex e).pt 2 = c
  inT : n.q 0 * (N.target e).pt 0 + n.q 1 * (N.target e).pt 1 + n.q 2 * (N.target e).pt 2 = c

/-- Deeds to different edges without partners in a plane whose normal's component `drop` is not zero. -/
structure PlaneInput (drop : Fin 3) (N : Net) (range : List (Option Nat)) : Prop where
  ok : N.Ok
  nodup : (range.filterMap id).Nodup
  free : ∀ e, some e ∈ range → N.partner e = none
  plane : ∃ n : V3, ∃ c : ℚ, n.comp drop ≠ 0 ∧ ∀ e, some e ∈ range → EdgeIn N n c e

/-- The lines of two edges have the same points. -/
def SameLine3 (N : Net) (e f : Nat) : Prop := ∀ p, OnLine (N.line e) p ↔ OnLine (N.line f) p

/-- `e` is one of the given edges or was made by splitting. -/
def PlanePiece (N N' : Net) (range : List (Option Nat)) (e : Nat) : Prop := some e ∈ range ∨ N.count ≤ e ∧ e < N'.count

end Walnut.Conn
