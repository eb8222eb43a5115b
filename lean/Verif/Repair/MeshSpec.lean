/- Specification: how a facet is cut into pieces. -/
import Mathlib.Data.List.Basic

namespace Walnut.Repair

/-- A polygon is cut into pieces.  Each piece consists of vertices `a` from the front and `e` from the end, in the order of the
polygon; the rest, together with the neighbours `x` and `y`, is cut further.  So two successive pieces share the edge between
`x` and `y`. -/
inductive Fan {α : Type} : List α → List (List α × List α) → Prop
  | whole (a e : List α) (ha : a ≠ []) (he : e ≠ []) : Fan (a ++ e) [(a, e)]
  | cut (a : List α) (x : α) (m : List α) (y : α) (e : List α) (ps : List (List α × List α)) (hm : m ≠ [])
    (h : Fan (x :: m ++ [y]) ps) : Fan (a ++ x :: m ++ y :: e) ((a ++ [x], y :: e) :: ps)

end Walnut.Repair
