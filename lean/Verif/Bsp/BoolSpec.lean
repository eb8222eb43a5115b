/-
The rays along which the result of a boolean operation is counted.  Independent of the
algorithms.
-/
import Verif.Props.Winding
import Verif.Bsp.TraverseSpec

namespace Walnut.Bsp
open Walnut.Geom Walnut.Poly Walnut.Props

/-- The ray from `q` in direction `u` is in general position with respect to the split planes
of the tree `t`, the planes that a traversal `tr` cut faces along, and the facets `S`. -/
structure GenericRay (t : Node) (tr : List Visit) (S : List Source) (q u : Q3) : Prop where
  /-- it starts on no split plane -/
  off : ∀ g ∈ t.planes, g.side q ≠ 0
  /-- it is not parallel to a split plane -/
  cross : ∀ g ∈ t.planes, dotQ g.n.q u ≠ 0
  /-- it is not parallel to a facet -/
  crossFacet : ∀ s ∈ S, dotQ s.poly.plane.n.q u ≠ 0
  /-- where it meets the plane of a facet, it meets no other plane -/
  apart : ∀ g ∈ t.planes ++ cuts tr, ∀ s ∈ S, ∀ r : ℚ, 0 < r → g.side (q + r • u) = 0 → s.poly.plane.side (q + r • u) = 0 → Through g s.poly.plane
  /-- it meets no edge of a facet -/
  transversal : ∀ id, Transversal (meshOf S id) q u

end Walnut.Bsp
