/-
Functions on a ray that change at finitely many points.
-/
import Mathlib.Algebra.BigOperators.Group.Finset.Basic
import Mathlib.Algebra.Order.Field.Rat
import Mathlib.Data.Finset.Max
import Mathlib.Tactic.Linarith
import Mathlib.Tactic.Abel

namespace Walnut.Bsp

/-- A function that is constant between the points of `T` changes by the sum of its jumps. -/
theorem telescope {M : Type} [AddCommGroup M] {F J : ℚ → M} {T : Finset ℚ} (hc : ∀ a b, 0 ≤ a → a ≤ b → (∀ t ∈ T, ¬ (a < t ∧ t ≤ b)) → F a = F b)
    (hj : ∀ a b t, 0 ≤ a → t ∈ T → a < t → t < b → (∀ s ∈ T, a ≤ s → s ≤ b → s = t) → F a - F b = J t) :
    ∀ (n : ℕ) (a b : ℚ), 0 ≤ a → a ≤ b → a ∉ T → b ∉ T → (T.filter fun t => a < t ∧ t < b).card = n →
      F a - F b = ∑ t ∈ T.filter (fun t => a < t ∧ t < b), J t := by
  intro n
  induction n with
  | zero =>
    intro a b h0 hab ha hb hn
    rw [Finset.card_eq_zero] at hn
    rw [hn, Finset.sum_empty, hc a b h0 hab, sub_self]
    rintro t ht ⟨h1, h2⟩
    have : t ∈ T.filter fun t => a < t ∧ t < b := Finset.mem_filter.2 ⟨ht, h1, lt_of_le_of_ne h2 fun e => hb (e ▸ ht)⟩
    rw [hn] at this; simp at this
  | succ n ih =>
    intro a b h0 hab ha hb hn
    have hne : (T.filter fun t => a < t ∧ t < b).Nonempty := Finset.card_pos.1 (by omega)
    obtain ⟨hm, hmax⟩ : (T.filter fun t => a < t ∧ t < b).max' hne ∈ _ ∧ ∀ t ∈ T.filter (fun t => a < t ∧ t < b), t ≤ (T.filter fun t => a < t ∧ t < b).max' hne :=
      ⟨Finset.max'_mem _ _, fun t ht => Finset.le_max' _ _ ht⟩
    generalize (T.filter fun t => a < t ∧ t < b).max' hne = m at hm hmax
    obtain ⟨hmT, hma, hmb⟩ := Finset.mem_filter.1 hm
    obtain ⟨e, he, hle⟩ : ∃ e ∈ insert a (T.filter fun t => a < t ∧ t < m), ∀ t ∈ insert a (T.filter fun t => a < t ∧ t < m), t ≤ e :=
      ⟨_, Finset.max'_mem _ (Finset.insert_nonempty _ _), fun t ht => Finset.le_max' _ _ ht⟩
    have hea : a ≤ e := hle a (Finset.mem_insert_self _ _)
    have hem : e < m := by
      rcases Finset.mem_insert.1 he with rfl | he
      · exact hma
      · exact (Finset.mem_filter.1 he).2.2
    have hcm : (e + m) / 2 < m := by linarith
    have hec : e < (e + m) / 2 := by linarith
    generalize (e + m) / 2 = c at hcm hec
    have key : ∀ t ∈ T, a < t → t < m → t < c := fun t ht h1 h2 =>
      lt_of_le_of_lt (hle t (Finset.mem_insert_of_mem (Finset.mem_filter.2 ⟨ht, h1, h2⟩))) hec
    have hcT : c ∉ T := fun h => lt_irrefl _ (key c h (by linarith) hcm)
    have hset : T.filter (fun t => a < t ∧ t < b) = insert m (T.filter fun t => a < t ∧ t < c) := by
      ext t
      simp only [Finset.mem_filter, Finset.mem_insert]
      constructor
      · rintro ⟨h1, h2, h3⟩
        have := hmax t (Finset.mem_filter.2 ⟨h1, h2, h3⟩)
        rcases this.lt_or_eq with h | h
        · exact Or.inr ⟨h1, h2, key t h1 h2 h⟩
        · exact Or.inl h
      · rintro (rfl | ⟨h1, h2, h3⟩)
        · exact ⟨hmT, hma, hmb⟩
        · exact ⟨h1, h2, by linarith⟩
    have hmem : m ∉ T.filter fun t => a < t ∧ t < c := fun h => absurd (Finset.mem_filter.1 h).2.2 (not_lt.2 hcm.le)
    have h1 := ih a c h0 (by linarith) ha hcT (by rw [hset, Finset.card_insert_of_notMem hmem] at hn; omega)
    have h2 := hj c b m (by linarith) hmT hcm hmb (by
      intro s hs h1 h2
      have hsb : s < b := lt_of_le_of_ne h2 fun e => hb (e ▸ hs)
      have := hmax s (Finset.mem_filter.2 ⟨hs, by linarith, hsb⟩)
      rcases this.lt_or_eq with h | h
      · exact absurd (key s hs (by linarith) h) (not_lt.2 h1)
      · exact h)
    rw [hset, Finset.sum_insert hmem, ← h1, ← h2]
    abel

end Walnut.Bsp
