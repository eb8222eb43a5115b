/-
Property C88: points of doubles as keys of hash tables.
-/
import Verif.Float.Hash
import Mathlib.Tactic.Common

namespace Walnut.Props
open Walnut.Float

/-- What the C++ standard requires of `std::hash<double>`. -/
def HashOk (h : Fl → BitVec 64) : Prop := ∀ a b, a.eq b = true → h a = h b

/-- No coordinate is NaN. -/
def NoNan (p : Fl × Fl × Fl) : Prop := p.1 ≠ .nan ∧ p.2.1 ≠ .nan ∧ p.2.2 ≠ .nan

theorem fl_eq_iff {a b : Fl} : a.eq b = true ↔ a = b ∧ a ≠ .nan := by
  cases a <;> cases b <;> simp [Fl.eq]

/-- C88: points without NaN are equal exactly if all their coordinates are, so that equality is
an equivalence relation; `!=` is the opposite; and equal points have the same hash, for every
hash of doubles that meets the standard. -/
theorem C88_keys_partial :
    (∀ a b, NoNan a → (pointEq a b = true ↔ a = b)) ∧
    (∀ a b, pointNe a b = !pointEq a b) ∧
    (∀ h, HashOk h → ∀ a b, pointEq a b = true → pointHash h a = pointHash h b) := by
  refine ⟨fun a b ha => ?_, fun a b => ?_, fun h hh a b e => ?_⟩
  · obtain ⟨a1, a2, a3⟩ := a
    obtain ⟨b1, b2, b3⟩ := b
    obtain ⟨n1, n2, n3⟩ := ha
    simp only [pointEq, Bool.and_eq_true, fl_eq_iff, Prod.mk.injEq]
    constructor
    · rintro ⟨⟨h1, h2⟩, h3⟩; exact ⟨h1.1, h2.1, h3.1⟩
    · rintro ⟨h1, h2, h3⟩; exact ⟨⟨⟨h1, n1⟩, ⟨h2, n2⟩⟩, ⟨h3, n3⟩⟩
  · unfold pointNe pointEq Fl.ne
    cases a.1.eq b.1 <;> cases a.2.1.eq b.2.1 <;> cases a.2.2.eq b.2.2 <;> rfl
  · unfold pointEq at e
    rw [Bool.and_eq_true, Bool.and_eq_true] at e
    unfold pointHash
    rw [hh _ _ e.1.1]

/-- C88 (disagreement): a point with a NaN coordinate, which the conversion of a finite point can
give (C84), is not equal to itself, although a hash table requires that. -/
theorem C88_nan_false (y z : Fl) : pointEq (.nan, y, z) (.nan, y, z) = false := by
  unfold pointEq
  simp [Fl.eq]

/-- C88 (disagreement): the hash does not depend on `y` and `z`.  All points of a plane `x = c`
have the same hash, whatever the hash of doubles is, so that they all are in the same bucket. -/
theorem C88_collision_false (h : Fl → BitVec 64) (c y z y' z' : Fl) : pointHash h (c, y, z) = pointHash h (c, y', z') := rfl

/-! ### The hypotheses are met -/

/-- A hash that meets the standard and distinguishes some numbers. -/
example : ∃ h, HashOk h ∧ pointHash h (.fin 1, .fin 2, .fin 3) ≠ pointHash h (.fin 2, .fin 2, .fin 3) := by
  refine ⟨fun a => if a = .fin 1 then 1 else 0, fun a b e => ?_, ?_⟩
  · rw [(fl_eq_iff.1 e).1]
  · have h : (Fl.fin 2 = Fl.fin 1) = False := by simp
    simp only [pointHash, if_true, h, if_false]
    decide

example : NoNan (.fin 1, .inf true, .fin 0) := by simp [NoNan]

end Walnut.Props
