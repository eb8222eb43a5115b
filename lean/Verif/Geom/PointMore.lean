/- The remaining predicates of `Point3` (point3.h). -/
import Verif.Geom.Model

namespace Walnut.Geom

/-- `Point3::Get2DTwistDirReduced` (point3.h 106-116). -/
def V3.get2DTwistDirReduced (p : V3) (drop : Fin 3) (p1 p3 : V3) : Int :=
  let twist := (p.get2DTwistDir drop p1 p3).toInt
  if twist > 0 then 1 else if twist < 0 then -1 else 0

/-- `Point3::CompareComponent` (point3.h 127-130). -/
def V3.compareComponent (a : V3) (i : Fin 3) (b : V3) : Int := cmp (a.comp i) (b.comp i)

/-- `Point3::IsEquivalentComponent` (point3.h 133-136). -/
def V3.isEquivalentComponent (a : V3) (i : Fin 3) (b : V3) : Bool := decide (a.comp i = b.comp i)

end Walnut.Geom
