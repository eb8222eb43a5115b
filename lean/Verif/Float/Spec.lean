/- Specification of floating point formats and of rounding to nearest (IEEE 754).  Nothing here mentions the code. -/
import Verif.Float.Model
import Mathlib.Tactic.Linarith
import Mathlib.Algebra.Order.Round
import Mathlib.Data.Rat.Floor
import Mathlib.Data.Int.Log

namespace Walnut.Float

/-- A binary format: the number of bits of the significand, and the exponent of the first power of two that is too
great. -/
structure Format where
  p : ℕ
  emax : ℤ

/-- `double`. -/
def binary64 : Format := ⟨53, 1024⟩
/-- `long double` on x86 processors. -/
def extended80 : Format := ⟨64, 16384⟩
/-- `long double` on other processors. -/
def binary128 : Format := ⟨113, 16384⟩

/-- The numbers of a format, normal or subnormal. -/
def Format.Has (F : Format) (x : ℚ) : Prop :=
  ∃ m e : ℤ, |m| < 2 ^ F.p ∧ 3 - F.emax - F.p ≤ e ∧ e + F.p ≤ F.emax ∧ x = m * 2 ^ e

/-- Rounding to nearest, with any rule for ties. -/
structure Nearest (F : Format) (rnd : ℚ → Fl) : Prop where
  finite : ∀ x : ℚ, |x| < 2 ^ F.emax - 2 ^ (F.emax - F.p - 1) → ∃ y, rnd x = .fin y ∧ F.Has y ∧ ∀ z, F.Has z → |y - x| ≤ |z - x|
  overflow : ∀ x : ℚ, 2 ^ F.emax - 2 ^ (F.emax - F.p - 1) ≤ |x| → rnd x = .inf (decide (x < 0))

/-- The formats for which the theorems are stated: those of `double` and of all usual implementations of
`long double`. -/
structure Format.Usual (F : Format) : Prop where
  p_ge : 53 ≤ F.p
  p_le : F.p ≤ 120
  emax_ge : 1024 ≤ F.emax
  emax_le : F.emax ≤ 32768

end Walnut.Float
