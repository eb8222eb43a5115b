/-
Counting where a moving point enters and leaves a region bounded by finitely many affine
conditions.
-/
import Mathlib.Data.Rat.Lemmas
import Mathlib.Algebra.Order.Field.Basic
import Mathlib.Algebra.BigOperators.Ring.Finset
import Mathlib.Tactic.Linarith
import Mathlib.Tactic.Ring
import Mathlib.Tactic.FieldSimp
import Mathlib.Algebra.Order.Field.Rat
import Mathlib.Tactic.LinearCombination

namespace Walnut.Bsp

/-- The sign of a number. -/
def sgn (x : ℚ) : ℤ := if 0 < x then 1 else if x < 0 then -1 else 0

theorem sgn_pos {x : ℚ} (h : 0 < x) : sgn x = 1 := if_pos h
theorem sgn_neg {x : ℚ} (h : x < 0) : sgn x = -1 := by unfold sgn; rw [if_neg (by linarith), if_pos h]
@[simp] theorem sgn_zero : sgn 0 = 0 := by simp [sgn]
theorem sgn_eq_one {x : ℚ} : sgn x = 1 ↔ 0 < x := by
  unfold sgn; split_ifs with h1 h2 <;> simp [h1]
theorem sgn_eq_neg {x : ℚ} : sgn x = -1 ↔ x < 0 := by
  constructor
  · intro h
    unfold sgn at h; split_ifs at h with h1 h2
    exact h2
  · exact sgn_neg
theorem sgn_eq_zero {x : ℚ} : sgn x = 0 ↔ x = 0 := by
  constructor
  · intro h
    rcases lt_trichotomy x 0 with h1 | h1 | h1
    · rw [sgn_neg h1] at h; simp at h
    · exact h1
    · rw [sgn_pos h1] at h; simp at h
  · rintro rfl; simp
theorem sgn_opp (x : ℚ) : sgn (-x) = -sgn x := by
  rcases lt_trichotomy x 0 with h | rfl | h
  · rw [sgn_neg h, sgn_pos (by linarith)]; rfl
  · simp
  · rw [sgn_pos h, sgn_neg (by linarith)]
theorem sgn_cases (x : ℚ) : (sgn x = 1 ∧ 0 < x) ∨ (sgn x = -1 ∧ x < 0) ∨ (sgn x = 0 ∧ x = 0) := by
  rcases lt_trichotomy x 0 with h | rfl | h
  · exact Or.inr (Or.inl ⟨sgn_neg h, h⟩)
  · exact Or.inr (Or.inr ⟨by simp, rfl⟩)
  · exact Or.inl ⟨sgn_pos h, h⟩
theorem sgn_mul (x y : ℚ) : sgn (x * y) = sgn x * sgn y := by
  rcases sgn_cases x with ⟨e, h⟩ | ⟨e, h⟩ | ⟨e, h⟩ <;> rcases sgn_cases y with ⟨e', h'⟩ | ⟨e', h'⟩ | ⟨e', h'⟩ <;> rw [e, e']
  · rw [sgn_pos (mul_pos h h')]; rfl
  · rw [sgn_neg (mul_neg_of_pos_of_neg h h')]; rfl
  · rw [h']; simp
  · rw [sgn_neg (mul_neg_of_neg_of_pos h h')]; rfl
  · rw [sgn_pos (mul_pos_of_neg_of_neg h h')]; rfl
  · rw [h']; simp
  · rw [h]; simp
  · rw [h]; simp
  · rw [h]; simp

open Classical in
/-- The indicator of a proposition. -/
noncomputable def ind (p : Prop) : ℤ := if p then 1 else 0

theorem ind_true {p : Prop} (h : p) : ind p = 1 := if_pos h
theorem ind_false {p : Prop} (h : ¬ p) : ind p = 0 := if_neg h
theorem ind_congr {p q : Prop} (h : p ↔ q) : ind p = ind q := by
  by_cases hp : p
  · rw [ind_true hp, ind_true (h.1 hp)]
  · rw [ind_false hp, ind_false (fun x => hp (h.2 x))]
theorem ind_and (p q : Prop) : ind (p ∧ q) = ind p * ind q := by
  by_cases hp : p <;> by_cases hq : q <;> simp [ind, hp, hq]
theorem ind_split (p q : Prop) : ind p = ind (p ∧ q) + ind (p ∧ ¬ q) := by
  by_cases hp : p <;> by_cases hq : q <;> simp [ind, hp, hq]

section
variable {ι : Type} [DecidableEq ι]

/-- A point moves along a line from `a` to `b`.  Condition `k` is `α k + β k * s < 0`.
The number of times a condition stops being met minus the number of times one starts to
be met, counting only where all other conditions are met, tells whether all are met at `a`
and at `b`. -/
theorem interval_count (α β : ι → ℚ) : ∀ (S : Finset ι) (a b : ℚ), a < b →
    (∀ k ∈ S, α k + β k * a ≠ 0) → (∀ k ∈ S, α k + β k * b ≠ 0) →
    (∀ k ∈ S, β k ≠ 0 → ∀ j ∈ S, j ≠ k → α j + β j * (-α k / β k) ≠ 0) →
    ∑ k ∈ S, sgn (β k) * ind (a < -α k / β k ∧ -α k / β k < b ∧ ∀ j ∈ S, j ≠ k → α j + β j * (-α k / β k) < 0) =
      ind (∀ k ∈ S, α k + β k * a < 0) - ind (∀ k ∈ S, α k + β k * b < 0) := by
  intro S
  induction S using Finset.induction_on with
  | empty => intro a b _ _ _ _; simp [ind]
  | insert m S hm ih =>
    intro a b hab ha hb hg
    have haS : ∀ k ∈ S, α k + β k * a ≠ 0 := fun k hk => ha k (Finset.mem_insert_of_mem hk)
    have hbS : ∀ k ∈ S, α k + β k * b ≠ 0 := fun k hk => hb k (Finset.mem_insert_of_mem hk)
    have hgS : ∀ k ∈ S, β k ≠ 0 → ∀ j ∈ S, j ≠ k → α j + β j * (-α k / β k) ≠ 0 :=
      fun k hk h0 j hj => hg k (Finset.mem_insert_of_mem hk) h0 j (Finset.mem_insert_of_mem hj)
    have all : ∀ s, ind (∀ k ∈ insert m S, α k + β k * s < 0) = ind (α m + β m * s < 0) * ind (∀ k ∈ S, α k + β k * s < 0) := by
      intro s; rw [← ind_and]; exact ind_congr (by simp)
    -- the terms of the other conditions
    have term : ∀ k ∈ S, ∀ x, ind (a < x ∧ x < b ∧ ∀ j ∈ insert m S, j ≠ k → α j + β j * x < 0) =
        ind ((a < x ∧ x < b ∧ ∀ j ∈ S, j ≠ k → α j + β j * x < 0) ∧ α m + β m * x < 0) := by
      intro k hk x
      have hmk : m ≠ k := fun e => hm (e ▸ hk)
      refine ind_congr ⟨fun ⟨h1, h2, h3⟩ => ⟨⟨h1, h2, fun j hj => h3 j (Finset.mem_insert_of_mem hj)⟩, h3 m (Finset.mem_insert_self _ _) hmk⟩, ?_⟩
      rintro ⟨⟨h1, h2, h3⟩, h4⟩
      refine ⟨h1, h2, fun j hj hjk => ?_⟩
      rcases Finset.mem_insert.1 hj with rfl | hj
      · exact h4
      · exact h3 j hj hjk
    have own : ind (a < -α m / β m ∧ -α m / β m < b ∧ ∀ j ∈ insert m S, j ≠ m → α j + β j * (-α m / β m) < 0) =
        ind ((a < -α m / β m ∧ -α m / β m < b) ∧ ∀ j ∈ S, α j + β j * (-α m / β m) < 0) := by
      refine ind_congr ⟨fun ⟨h1, h2, h3⟩ => ⟨⟨h1, h2⟩, fun j hj => h3 j (Finset.mem_insert_of_mem hj) (fun e => hm (e ▸ hj))⟩, ?_⟩
      rintro ⟨⟨h1, h2⟩, h3⟩
      refine ⟨h1, h2, fun j hj hjk => ?_⟩
      rcases Finset.mem_insert.1 hj with rfl | hj
      · exact absurd rfl hjk
      · exact h3 j hj
    rw [Finset.sum_insert hm, all, all, own]
    rw [Finset.sum_congr rfl fun k hk => by rw [term k hk]]
    have hma := ha m (Finset.mem_insert_self _ _)
    have hmb := hb m (Finset.mem_insert_self _ _)
    by_cases ca : α m + β m * a < 0 <;> by_cases cb : α m + β m * b < 0
    · -- the condition is met throughout
      have key : ∀ x, a < x → x < b → α m + β m * x < 0 := by
        intro x h1 h2
        rcases le_total 0 (β m) with h | h <;> nlinarith
      have h0 : sgn (β m) * ind ((a < -α m / β m ∧ -α m / β m < b) ∧ ∀ j ∈ S, α j + β j * (-α m / β m) < 0) = 0 := by
        by_cases hz : β m = 0
        · rw [hz]; simp
        · rw [ind_false, mul_zero]
          rintro ⟨⟨h1, h2⟩, _⟩
          have := key _ h1 h2
          rw [mul_div_cancel₀ _ hz] at this; linarith
      rw [h0, zero_add, ind_true ca, ind_true cb, one_mul, one_mul, ← ih a b hab haS hbS hgS]
      refine Finset.sum_congr rfl fun k _ => ?_
      congr 1
      exact ind_congr ⟨fun h => h.1, fun h => ⟨h, key _ h.1 h.2.1⟩⟩
    · -- it stops being met
      have cb' : 0 < α m + β m * b := lt_of_le_of_ne (not_lt.1 cb) (Ne.symm hmb)
      have hβ : 0 < β m := by
        by_contra hc; push Not at hc; nlinarith
      set z := -α m / β m with hz
      have ez : α m + β m * z = 0 := by rw [hz, mul_div_cancel₀ _ hβ.ne']; ring
      have az : a < z := by by_contra hc; push Not at hc; nlinarith
      have zb : z < b := by by_contra hc; push Not at hc; nlinarith
      have hzS : ∀ k ∈ S, α k + β k * z ≠ 0 := fun k hk =>
        hg m (Finset.mem_insert_self _ _) hβ.ne' k (Finset.mem_insert_of_mem hk) (fun e => hm (e ▸ hk))
      rw [sgn_pos hβ, ind_true ca, ind_false cb, one_mul, zero_mul, sub_zero, one_mul, ind_and, ind_true ⟨az, zb⟩, one_mul]
      have := ih a z az haS hzS hgS
      have e : ∑ k ∈ S, sgn (β k) * ind ((a < -α k / β k ∧ -α k / β k < b ∧ ∀ j ∈ S, j ≠ k → α j + β j * (-α k / β k) < 0) ∧
          α m + β m * (-α k / β k) < 0) =
          ∑ k ∈ S, sgn (β k) * ind (a < -α k / β k ∧ -α k / β k < z ∧ ∀ j ∈ S, j ≠ k → α j + β j * (-α k / β k) < 0) := by
        refine Finset.sum_congr rfl fun k _ => ?_
        congr 1
        refine ind_congr ⟨fun ⟨⟨h1, _, h3⟩, h4⟩ => ⟨h1, ?_, h3⟩, fun ⟨h1, h2, h3⟩ => ⟨⟨h1, h2.trans zb, h3⟩, ?_⟩⟩
        · by_contra hc; push Not at hc; nlinarith
        · nlinarith
      rw [e]; linarith
    · -- it starts to be met
      have ca' : 0 < α m + β m * a := lt_of_le_of_ne (not_lt.1 ca) (Ne.symm hma)
      have hβ : β m < 0 := by
        by_contra hc; push Not at hc; nlinarith
      set z := -α m / β m with hz
      have ez : α m + β m * z = 0 := by rw [hz, mul_div_cancel₀ _ hβ.ne]; ring
      have az : a < z := by by_contra hc; push Not at hc; nlinarith
      have zb : z < b := by by_contra hc; push Not at hc; nlinarith
      have hzS : ∀ k ∈ S, α k + β k * z ≠ 0 := fun k hk =>
        hg m (Finset.mem_insert_self _ _) hβ.ne k (Finset.mem_insert_of_mem hk) (fun e => hm (e ▸ hk))
      rw [sgn_neg hβ, ind_false ca, ind_true cb, one_mul, zero_mul, zero_sub, ind_and, ind_true ⟨az, zb⟩, one_mul]
      have := ih z b zb hzS hbS hgS
      have e : ∑ k ∈ S, sgn (β k) * ind ((a < -α k / β k ∧ -α k / β k < b ∧ ∀ j ∈ S, j ≠ k → α j + β j * (-α k / β k) < 0) ∧
          α m + β m * (-α k / β k) < 0) =
          ∑ k ∈ S, sgn (β k) * ind (z < -α k / β k ∧ -α k / β k < b ∧ ∀ j ∈ S, j ≠ k → α j + β j * (-α k / β k) < 0) := by
        refine Finset.sum_congr rfl fun k _ => ?_
        congr 1
        refine ind_congr ⟨fun ⟨⟨_, h1, h3⟩, h4⟩ => ⟨?_, h1, h3⟩, fun ⟨h1, h2, h3⟩ => ⟨⟨az.trans h1, h2, h3⟩, ?_⟩⟩
        · by_contra hc; push Not at hc; nlinarith
        · nlinarith
      rw [e]; linarith
    · -- it is never met
      have ca' : 0 < α m + β m * a := lt_of_le_of_ne (not_lt.1 ca) (Ne.symm hma)
      have cb' : 0 < α m + β m * b := lt_of_le_of_ne (not_lt.1 cb) (Ne.symm hmb)
      have key : ∀ x, a < x → x < b → 0 < α m + β m * x := by
        intro x h1 h2
        rcases le_total 0 (β m) with h | h <;> nlinarith
      have h0 : sgn (β m) * ind ((a < -α m / β m ∧ -α m / β m < b) ∧ ∀ j ∈ S, α j + β j * (-α m / β m) < 0) = 0 := by
        by_cases hz : β m = 0
        · rw [hz]; simp
        · rw [ind_false, mul_zero]
          rintro ⟨⟨h1, h2⟩, _⟩
          have := key _ h1 h2
          rw [mul_div_cancel₀ _ hz] at this; linarith
      rw [h0, zero_add, ind_false ca, ind_false cb, zero_mul, zero_mul, sub_zero]
      refine Finset.sum_eq_zero fun k _ => ?_
      rw [ind_false, mul_zero]
      rintro ⟨⟨h1, h2, _⟩, h4⟩
      have := key _ h1 h2; linarith

end
end Walnut.Bsp
