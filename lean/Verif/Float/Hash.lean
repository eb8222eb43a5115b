/-
Model of the comparison and the hash of `DoublePoint3` (double_point3.h), the keys of the hash
tables of the export to VTK.

The sign of zero is not distinguished, because it affects neither `==` nor `std::hash<double>`.
-/
import Verif.Float.Model

namespace Walnut.Float

/-- `==` of two doubles: a NaN is different from everything.  C++ semantics, for double_point3.h 24-26. -/
def Fl.eq : Fl → Fl → Bool
  | .fin x, .fin y => decide (x = y)
  | .inf s, .inf t => s == t
  | _, _ => false

/-- `!=` of two doubles.  C++ semantics, for double_point3.h 24-30. -/
def Fl.ne (a b : Fl) : Bool := !a.eq b

/-- `operator==` (double_point3.h 24-26). -/
def pointEq (a b : Fl × Fl × Fl) : Bool := a.1.eq b.1 && a.2.1.eq b.2.1 && a.2.2.eq b.2.2

/-- `operator!=` (double_point3.h 28-30). -/
def pointNe (a b : Fl × Fl × Fl) : Bool := a.1.ne b.1 || a.2.1.ne b.2.1 || a.2.2.ne b.2.2

/-- `GetHash` (double_point3.h 16-22), with `std::hash<double>` as an argument.  The code hashes
`x` three times. -/
def pointHash (h : Fl → BitVec 64) (p : Fl × Fl × Fl) : BitVec 64 :=
  let xHash := h p.1
  let yHash := h p.1
  let zHash := h p.1
  xHash ^^^ (yHash <<< 1) ^^^ (zHash <<< 2)

end Walnut.Float
