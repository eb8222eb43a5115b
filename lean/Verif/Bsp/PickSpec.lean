/-
What the choice of a split plane relies on and what it achieves; independent of the
algorithm.
-/
import Verif.Bsp.Pick
import Verif.Bsp.Spec

namespace Walnut.Bsp
open Walnut.Geom Walnut.Poly

/-- What the C++ standard says about `std::nth_element(begin, begin + k, end, compare)`, for
entries that are compared as fractions: the entries are rearranged, nothing before position
`k` is greater than the entry there and nothing after it is less. -/
def IsNthElement (nth : List Dist → Nat → List Dist) : Prop :=
  ∀ l k, (∀ x ∈ l, x.2 ≠ 0) → k < l.length →
    (nth l k).Perm l ∧ ∃ m, (nth l k)[k]? = some m ∧
      (∀ x ∈ (nth l k).take k, ¬ distLess m x) ∧ ∀ x ∈ (nth l k).drop (k + 1), ¬ distLess x m

/-- How many interior polygons of the mesh `id` are in the node. -/
def NodeData.facets (d : NodeData) (id : Nat) : Nat := d.contents.countP fun x => x.id == id

/-- The vectors of the leaf that a path leads to. -/
def Node.leafAt : Node → List Bool → Option NodeData
  | .leaf d, [] => some d
  | .inner _ _ n _, false :: path => n.leafAt path
  | .inner _ _ _ p, true :: path => p.leafAt path
  | _, _ => none

/-- There are points of the mesh's polygons strictly on both sides of the plane. -/
def Separates (g : HS3) (l : List BPoly) (id : Nat) : Prop :=
  (∃ x ∈ l, x.id = id ∧ ∃ q ∈ x.poly.region, g.side q < 0) ∧ ∃ x ∈ l, x.id = id ∧ ∃ q ∈ x.poly.region, 0 < g.side q

end Walnut.Bsp
