/-
Model of `Extrude` (extrude.cpp).  Like the polygon factory it is a relation, because the calls of
the factory need not return.
-/
import Verif.Mono.Factory

namespace Walnut.Mono
open Walnut.Geom

/-- `side_vertices` in the round `i` of the loop (extrude.cpp 31-35). -/
def sideVertices (cap : List HP3) (dir : V3) (den : Int) (i : Nat) : Option (List HP3) := do
  let v0 ← cap[(i + 1) % cap.length]?
  let v1 ← cap[i]?
  return [v0, v1, v1.addOffset dir den, v0.addOffset dir den]

/-- `top_cap` (extrude.cpp 40-43). -/
def topCap (cap : List HP3) (dir : V3) (den : Int) : List HP3 := cap.reverse.map (·.addOffset dir den)

/-- The calls of `Build` with each of these vertex lists return, and emit these polygons one after the
other (extrude.cpp 27, 36 and 44). -/
inductive BuildEach : List (List HP3) → List OutPoly → Prop
  | nil : BuildEach [] []
  | cons {vs : List HP3} {rest : List (List HP3)} {out out' : List OutPoly} (h : FactoryBuild vs out)
    (hr : BuildEach rest out') : BuildEach (vs :: rest) (out ++ out')

/-- `Extrude` (extrude.cpp 10-48) returns the polygons `out`. -/
def ExtrudeReturns (cap : List HP3) (dir : V3) (den : Int) (out : List OutPoly) : Prop :=
  ∃ sides, (List.range cap.length).mapM (sideVertices cap dir den) = some sides ∧
    BuildEach ([cap] ++ sides ++ [topCap cap dir den]) out

end Walnut.Mono
