/-
What the plane partitioner has to do: peel the facets of a cell's face off one by one and
keep those where the filter's value changes.  Independent of the algorithms.
-/
import Verif.Bsp.Spec
import Verif.Bsp.Partition
import Verif.Props.Filters

namespace Walnut.Bsp
open Walnut.Geom Walnut.Poly Walnut.Props

/-- What the result of a filter may depend on: the first component on the winding numbers
only, and if the second one is false, the first one is the same wherever only the winding
numbers of contents that still have polygons differ. -/
structure Lawful (v : IsInside) : Prop where
  value : ∀ a b : List Info, a.length = b.length → (∀ id, windingOf a id = windingOf b id) → (v a).1 = (v b).1
  prune : ∀ a b : List Info, Below a b → (v a).2 = false → (v b).1 = (v a).1

/-- The value of a filter where the contents `0`, ..., `n - 1` have the winding numbers `w`. -/
def valueAt (v : IsInside) (n : Nat) (w : Nat → Int) : Bool := (v ((List.range n).map fun i => { pwn := w i })).1

/-- A facet is given by its content and its oriented plane. -/
abbrev Facet := Nat × HS3

/-- The facet that a polygon is a part of. -/
def facet (p : BPoly) : Facet := (p.id, p.poly.plane)

/-- The winding numbers beyond a facet, if the ones before it are `w`; `step` is how the
winding number of the facet's content changes. -/
def beyond (step : HS3 → Int) (w : Nat → Int) (x : Facet) : Nat → Int := Function.update w x.1 (w x.1 + step x.2)

/-- The facets of a stack where the value of `inside` changes: `w` are the winding numbers
before the first facet. -/
def changing (inside : (Nat → Int) → Bool) (step : HS3 → Int) : (Nat → Int) → List Facet → List Facet
  | _, [] => []
  | w, x :: l =>
    if inside w = inside (beyond step w x) then changing inside step (beyond step w x) l
    else x :: changing inside step (beyond step w x) l

/-- Through a facet whose normal's component `drop` is negative, the winding number changes
by `-1` if `posNormal` is true; otherwise the other way round. -/
def facetStep (drop : Fin 3) (posNormal : Bool) (pl : HS3) : Int :=
  if pl.n.comp drop < 0 then (if posNormal then -1 else 1) else (if posNormal then 1 else -1)

/-- The polygons that the visitor accepted, in order. -/
def accepted : List Visit → List BPoly
  | [] => []
  | .accept p :: l => p :: accepted l
  | _ :: l => accepted l

/-- The planes of the nodes that the visitor entered. -/
def entered : List Visit → List HS3
  | [] => []
  | .enter _ r :: l => r.plane :: entered l
  | _ :: l => entered l

open Classical in
/-- The facets covering the point, in order. -/
noncomputable def stackAt (q : Q3) (l : List BPoly) : List Facet := (l.filter fun p => decide (q ∈ p.poly.region)).map facet

/-- The polygon lies in the plane `h`, which is not parallel to the axis `drop`. -/
def InPlane (h : HS3) (drop : Fin 3) (p : BPoly) : Prop :=
  (∀ q, p.poly.plane.side q = 0 ↔ h.side q = 0) ∧ p.poly.plane.n.comp drop ≠ 0

end Walnut.Bsp
