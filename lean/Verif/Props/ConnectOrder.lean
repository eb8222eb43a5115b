/-
Property C53, continued: the order of the edges around a line.
-/
import Verif.Props.Connect
import Verif.Props.Rotation

namespace Walnut.Props
open Walnut.Geom Walnut.Conn Real

/-- The direction in which the polygon of an edge on a line along dimension `k` lies, turned by a right angle and seen along `k`: the
polygon's normal, negated if the edge runs in the negative direction. -/
def sideDir (N : Net) (k : Fin 3) (e : Nat) : V2 :=
  if 0 < (N.line e).d.comp k then ⟨(N.normal (N.poly e)).comp (k + 1), (N.normal (N.poly e)).comp (k + 2)⟩
  else ⟨-(N.normal (N.poly e)).comp (k + 1), -(N.normal (N.poly e)).comp (k + 2)⟩

/-- C53: the active edges are ordered by their angles around the line, and those with equal angles (of coinciding polygons) so that
the one in the positive direction comes first. -/
theorem C53_key_order (N : Net) (k : Fin 3) (a b : Nat) (da : (N.line a).d.comp k ≠ 0) (db : (N.line b).d.comp k ≠ 0)
    (ma : NoMin2 (sideDir N k a)) (mb : NoMin2 (sideDir N k b)) (r s α β : ℝ) (hr : 0 < r) (hs : 0 < s)
    (pa : Polar (sideDir N k a) r α) (pb : Polar (sideDir N k b) s β) (ha : 0 ≤ α ∧ α < 2 * π) (hb : 0 ≤ β ∧ β < 2 * π) :
    ∃ x, keyLess (keyOf N k a) (keyOf N k b) = some x ∧
      (x = true ↔ α < β ∨ α = β ∧ 0 < (N.line a).d.comp k ∧ (N.line b).d.comp k < 0) := by
  have pos : ∀ e, (N.line e).d.comp k ≠ 0 → (N.isPositive k e = true ↔ 0 < (N.line e).d.comp k) := by
    intro e he; unfold Net.isPositive; rw [decide_eq_true_eq]; omega
  have key : ∀ e, (N.line e).d.comp k ≠ 0 → (keyOf N k e).normal = sideDir N k e := by
    intro e he
    unfold keyOf sideDir
    by_cases c : 0 < (N.line e).d.comp k
    · rw [(pos e he).2 c, if_pos c]; rfl
    · have : N.isPositive k e = false := by rw [Bool.eq_false_iff, Ne, pos e he]; exact c
      rw [this, if_neg c]; rfl
  have nz : ∀ {v : V2} {r α : ℝ}, 0 < r → Polar v r α → v ≠ ⟨0, 0⟩ := by
    rintro v r α hr h rfl
    obtain ⟨h1, h2⟩ := h
    simp at h1 h2
    have := sin_sq_add_cos_sq α
    rcases h1 with h1 | h1
    · linarith
    · rcases h2 with h2 | h2
      · linarith
      · rw [h1, h2] at this; norm_num at this
  have za := nz hr pa
  have zb := nz hs pb
  have o1 := C18_rotation _ _ r s α β hr hs pa pb ha hb
  have o2 := C18_rotation _ _ s r β α hs hr pb pa hb ha
  obtain ⟨x, h1, h2⟩ := C19_same_dir2_partial (sideDir N k a) (sideDir N k b) za zb ma mb
  have sw := (C18_strict_weak_order _ _ _ za zb za).2.2.2
  rw [Bool.eq_false_iff, Bool.eq_false_iff, Ne, Ne, o1, o2, ← h2] at sw
  unfold keyLess
  rw [key a da, key b db, h1]
  cases x with
  | false =>
    refine ⟨_, rfl, o1.trans ⟨Or.inl, ?_⟩⟩
    rintro (h | ⟨h, _⟩)
    · exact h
    · simp [h] at sw
  | true =>
    have e : α = β := by
      have := sw.2 rfl
      exact le_antisymm (not_lt.1 this.2) (not_lt.1 this.1)
    refine ⟨_, rfl, ?_⟩
    have ka : (keyOf N k a).pos = N.isPositive k a := rfl
    have kb : (keyOf N k b).pos = N.isPositive k b := rfl
    rw [ka, kb, Bool.and_eq_true, pos a da, Bool.not_eq_true', Bool.eq_false_iff, Ne, pos b db, e]
    constructor
    · rintro ⟨h1, h2⟩; exact Or.inr ⟨rfl, h1, by omega⟩
    · rintro (h | ⟨_, h1, h2⟩)
      · exact absurd h (lt_irrefl _)
      · exact ⟨h1, by omega⟩

example : ∃ x, keyLess (keyOf connNet 0 0) (keyOf connNet 0 3) = some x := by
  obtain ⟨r, α, hr, a0, a1, pa⟩ := exists_polar (sideDir connNet 0 0) (by decide)
  obtain ⟨s, β, hs, b0, b1, pb⟩ := exists_polar (sideDir connNet 0 3) (by decide)
  exact (C53_key_order connNet 0 0 3 (by decide) (by decide) (by unfold NoMin2; decide) (by unfold NoMin2; decide) r s α β hr hs pa pb ⟨a0, a1⟩
    ⟨b0, b1⟩).imp fun _ h => h.1

end Walnut.Props
