/- `GetHighestSetBit` / `GetTrailingZeros` of `BigUIntWord`. -/
import Verif.BigInt.WordPortable

namespace Walnut.Word

theorem and_shifted_mask (v i : Nat) (hv : v < 2 ^ (2 * i)) :
    v &&& ((2 ^ i - 1) <<< i) = (v / 2 ^ i) * 2 ^ i := by
  have h1 : (v &&& ((2 ^ i - 1) <<< i)) / 2 ^ i = v / 2 ^ i := by
    rw [← Nat.shiftRight_eq_div_pow, Nat.shiftRight_and_distrib, Nat.shiftLeft_shiftRight,
      Nat.and_two_pow_sub_one_eq_mod, Nat.shiftRight_eq_div_pow]
    apply Nat.mod_eq_of_lt
    rw [Nat.div_lt_iff_lt_mul (Nat.two_pow_pos i), ← Nat.pow_add]
    rwa [← Nat.two_mul]
  have h2 : (v &&& ((2 ^ i - 1) <<< i)) % 2 ^ i = 0 := by
    rw [Nat.and_mod_two_pow, Nat.shiftLeft_eq, Nat.mul_mod_left, Nat.and_zero]
  have h3 := Nat.div_add_mod (v &&& ((2 ^ i - 1) <<< i)) (2 ^ i)
  rw [h1, h2] at h3
  rw [← h3]; ring

theorem hsbStep_spec (v : Word) (res : Nat) (test : Word) (i : Nat)
    (ht : test.toNat = (2 ^ i - 1) <<< i) (hv : v.toNat < 2 ^ (2 * i)) :
    ∃ d, (hsbStep (v, res) test i).1.toNat = v.toNat / 2 ^ d ∧
      (hsbStep (v, res) test i).1.toNat < 2 ^ i ∧
      (d = 0 ∧ (hsbStep (v, res) test i).2 = res ∨
       d = i ∧ (hsbStep (v, res) test i).2 = res ||| i ∧ v.toNat ≠ 0 ∧
         (hsbStep (v, res) test i).1.toNat ≠ 0) := by
  unfold hsbStep
  have key : (v &&& test).toNat = (v.toNat / 2 ^ i) * 2 ^ i := by
    rw [BitVec.toNat_and, ht, and_shifted_mask _ _ hv]
  have hpos := Nat.two_pow_pos i
  split
  · rename_i h
    refine ⟨i, ?_, ?_, Or.inr ⟨rfl, rfl, ?_, ?_⟩⟩
    · simp only [BitVec.toNat_ushiftRight, Nat.shiftRight_eq_div_pow]
    · simp only [BitVec.toNat_ushiftRight, Nat.shiftRight_eq_div_pow]
      rw [Nat.div_lt_iff_lt_mul hpos, ← Nat.pow_add]
      rwa [← Nat.two_mul]
    · intro h0
      apply h
      apply BitVec.eq_of_toNat_eq
      rw [key, h0]; simp
    · simp only [BitVec.toNat_ushiftRight, Nat.shiftRight_eq_div_pow]
      intro h0
      apply h
      apply BitVec.eq_of_toNat_eq
      rw [key, h0]; simp
  · rename_i h
    refine ⟨0, by simp, ?_, Or.inl ⟨rfl, rfl⟩⟩
    have h' : (v &&& test) = 0 := by simpa using h
    rw [h'] at key
    have : v.toNat / 2 ^ i = 0 := by
      rcases Nat.eq_zero_or_pos (v.toNat / 2 ^ i) with h0 | h0
      · exact h0
      · have := Nat.mul_pos h0 hpos
        rw [← key] at this
        exact absurd this (by simp)
    rwa [Nat.div_eq_zero_iff_lt hpos] at this

/-- Characterisation of the one-based index of the highest set bit. -/
def IsHighestSetBit (n r : Nat) : Prop := n < 2 ^ r ∧ (r = 0 ∨ 2 ^ (r - 1) ≤ n)

theorem isHighestSetBit_unique {n r s : Nat} (h1 : IsHighestSetBit n r) (h2 : IsHighestSetBit n s) :
    r = s := by
  obtain ⟨a1, b1⟩ := h1
  obtain ⟨a2, b2⟩ := h2
  have key : ∀ {x y : Nat}, n < 2 ^ x → (y = 0 ∨ 2 ^ (y - 1) ≤ n) → y ≤ x := by
    intro x y hx hy
    rcases hy with hy | hy
    · omega
    · by_contra hlt
      have : 2 ^ x ≤ 2 ^ (y - 1) := Nat.pow_le_pow_right (by decide) (by omega)
      omega
  exact Nat.le_antisymm (key a2 b1) (key a1 b2)

theorem highestSetBitPortable_spec (a : Word) :
    IsHighestSetBit a.toNat (highestSetBitPortable a) := by
  unfold highestSetBitPortable
  simp only
  obtain ⟨d1, e1, l1, c1⟩ := hsbStep_spec a 0 0xFFFFFFFF00000000#64 32 (by decide) a.isLt
  generalize hsbStep (a, 0) 0xFFFFFFFF00000000#64 32 = s1 at *
  obtain ⟨v1, r1⟩ := s1
  obtain ⟨d2, e2, l2, c2⟩ := hsbStep_spec v1 r1 0xFFFF0000#64 16 (by decide) l1
  generalize hsbStep (v1, r1) 0xFFFF0000#64 16 = s2 at *
  obtain ⟨v2, r2⟩ := s2
  obtain ⟨d3, e3, l3, c3⟩ := hsbStep_spec v2 r2 0xFF00#64 8 (by decide) l2
  generalize hsbStep (v2, r2) 0xFF00#64 8 = s3 at *
  obtain ⟨v3, r3⟩ := s3
  obtain ⟨d4, e4, l4, c4⟩ := hsbStep_spec v3 r3 0xF0#64 4 (by decide) l3
  generalize hsbStep (v3, r3) 0xF0#64 4 = s4 at *
  obtain ⟨v4, r4⟩ := s4
  obtain ⟨d5, e5, l5, c5⟩ := hsbStep_spec v4 r4 0xC#64 2 (by decide) l4
  generalize hsbStep (v4, r4) 0xC#64 2 = s5 at *
  obtain ⟨v5, r5⟩ := s5
  obtain ⟨d6, e6, l6, c6⟩ := hsbStep_spec v5 r5 0x2#64 1 (by decide) l5
  generalize hsbStep (v5, r5) 0x2#64 1 = s6 at *
  obtain ⟨v6, r6⟩ := s6
  simp only at *
  have htot : v6.toNat = a.toNat / 2 ^ (d1 + d2 + d3 + d4 + d5 + d6) := by
    rw [e6, e5, e4, e3, e2, e1]
    simp only [Nat.div_div_eq_div_mul, Nat.pow_add]
  have hr : r6 = d1 + d2 + d3 + d4 + d5 + d6 := by
    rcases c1 with ⟨rfl, rfl⟩ | ⟨rfl, rfl, -, -⟩ <;>
    rcases c2 with ⟨rfl, rfl⟩ | ⟨rfl, rfl, -, -⟩ <;>
    rcases c3 with ⟨rfl, rfl⟩ | ⟨rfl, rfl, -, -⟩ <;>
    rcases c4 with ⟨rfl, rfl⟩ | ⟨rfl, rfl, -, -⟩ <;>
    rcases c5 with ⟨rfl, rfl⟩ | ⟨rfl, rfl, -, -⟩ <;>
    rcases c6 with ⟨rfl, rfl⟩ | ⟨rfl, rfl, -, -⟩ <;> rfl
  have hnz : v6.toNat = 0 → d1 + d2 + d3 + d4 + d5 + d6 = 0 := by
    intro h0
    have hz : ∀ {v w : Nat} {d i : Nat} {P Q : Prop}, w = v / 2 ^ d →
        (d = 0 ∧ P ∨ d = i ∧ Q ∧ v ≠ 0 ∧ w ≠ 0) → w = 0 → d = 0 ∧ v = 0 := by
      rintro v w d i P Q hw (⟨rfl, -⟩ | ⟨-, -, -, hw0⟩) h
      · refine ⟨rfl, ?_⟩; rw [hw] at h; simpa using h
      · exact absurd h hw0
    obtain ⟨h6, z5⟩ := hz e6 c6 h0
    obtain ⟨h5, z4⟩ := hz e5 c5 z5
    obtain ⟨h4, z3⟩ := hz e4 c4 z4
    obtain ⟨h3, z2⟩ := hz e3 c3 z3
    obtain ⟨h2, z1⟩ := hz e2 c2 z2
    obtain ⟨h1, z0⟩ := hz e1 c1 z1
    omega
  rw [← hr] at htot hnz
  have hpos := Nat.two_pow_pos r6
  have hv6 : v6.toNat = 0 ∨ v6.toNat = 1 := by omega
  rcases hv6 with h | h
  · have hr0 := hnz h
    subst hr0
    rw [h] at htot ⊢
    refine ⟨?_, Or.inl rfl⟩
    simp at htot ⊢; omega
  · rw [h] at htot ⊢
    have hd := htot.symm
    rw [Nat.div_eq_iff hpos] at hd
    constructor
    · rw [Nat.pow_succ]; omega
    · right
      rw [Nat.add_sub_cancel]; omega

theorem highestSetBit_spec (a : Word) : IsHighestSetBit a.toNat (highestSetBit a) := by
  unfold highestSetBit
  split
  · rename_i h; subst h
    exact ⟨by simp, Or.inl rfl⟩
  · rename_i h
    have h0 : a ≠ 0#64 := h
    have hclz := BitVec.clz_lt_iff_ne_zero.mpr h0
    have hle := @BitVec.two_pow_sub_clz_le_toNat_of_ne_zero 64 a (by decide) h0
    have hlt := @BitVec.toNat_lt_two_pow_sub_clz 64 a
    have : a.clz.toNat < 64 := by
      have := hclz; rw [BitVec.lt_def] at this; simpa using this
    refine ⟨hlt, Or.inr ?_⟩
    have e : 64 - a.clz.toNat - 1 = 64 - 1 - a.clz.toNat := by omega
    rw [e]; exact hle

theorem highestSetBitPortable_eq (a : Word) : highestSetBitPortable a = highestSetBit a :=
  isHighestSetBit_unique (highestSetBitPortable_spec a) (highestSetBit_spec a)

/-- Characterisation of the number of trailing zero bits of a nonzero word. -/
def IsTrailingZeros (n r : Nat) : Prop := 2 ^ r ∣ n ∧ ¬ 2 ^ (r + 1) ∣ n

theorem and_bit_eq_zero (a : Word) (t : Nat) (ht : t < 64) :
    a &&& (1#64 <<< t) = 0 ↔ a.toNat.testBit t = false := by
  constructor
  · intro h
    have := congrArg (fun x : Word => x.toNat.testBit t) h
    simp only [BitVec.toNat_and, BitVec.toNat_shiftLeft, Nat.testBit_and] at this
    have h1 : ((1#64).toNat <<< t % 2 ^ 64).testBit t = true := by
      rw [Nat.testBit_mod_two_pow, Nat.testBit_shiftLeft]
      simp [ht]
    rw [h1] at this
    simpa using this
  · intro h
    apply BitVec.eq_of_toNat_eq
    apply Nat.eq_of_testBit_eq
    intro i
    simp only [BitVec.toNat_and, BitVec.toNat_shiftLeft, Nat.testBit_and]
    by_cases hi : i = t
    · subst hi; simp [h]
    · have : ((1#64).toNat <<< t % 2 ^ 64).testBit i = false := by
        rw [Nat.testBit_mod_two_pow, Nat.testBit_shiftLeft]
        by_cases h2 : i ≥ t
        · have : (1#64).toNat.testBit (i - t) = false := by
            have : i - t ≠ 0 := by omega
            show (1 : Nat).testBit (i - t) = false
            obtain ⟨k, hk⟩ := Nat.exists_eq_succ_of_ne_zero this
            rw [hk, Nat.testBit_succ]; simp
          rw [this]; simp
        · simp [h2]
      rw [this]; simp

theorem tzLoop_spec (a : Word) : ∀ fuel t, fuel + t = 64 → a.toNat ≠ 0 → 2 ^ t ∣ a.toNat →
    ∃ r, tzLoop a fuel t = some r ∧ IsTrailingZeros a.toNat r
  | 0, t, hf, h0, hd => by
    have : t = 64 := by omega
    subst this
    have := Nat.le_of_dvd (by omega) hd
    have := a.isLt
    omega
  | fuel + 1, t, hf, h0, hd => by
    unfold tzLoop
    have hbit := and_bit_eq_zero a t (by omega)
    obtain ⟨k, hk⟩ := hd
    have htb : a.toNat.testBit t = decide (k % 2 = 1) := by
      rw [Nat.testBit_eq_decide_div_mod_eq, hk, Nat.mul_div_cancel_left _ (Nat.two_pow_pos t)]
    split
    · rename_i h
      rw [hbit, htb] at h
      have hk2 : k % 2 = 0 := by
        have : ¬ k % 2 = 1 := by simpa using h
        omega
      apply tzLoop_spec a fuel (t + 1) (by omega) h0
      rw [hk, Nat.pow_succ]
      exact Nat.mul_dvd_mul_left _ (Nat.dvd_of_mod_eq_zero hk2)
    · rename_i h
      rw [hbit, htb] at h
      have hk2 : k % 2 = 1 := by simpa using h
      refine ⟨t, rfl, ⟨k, hk⟩, ?_⟩
      rw [hk, Nat.pow_succ]
      intro hdiv
      have := Nat.dvd_of_mul_dvd_mul_left (Nat.two_pow_pos t) hdiv
      omega

theorem trailingZerosPortable_spec (a : Word) (h : a ≠ 0) :
    ∃ r, trailingZerosPortable a = some r ∧ IsTrailingZeros a.toNat r := by
  unfold trailingZerosPortable
  rw [if_neg h]
  apply tzLoop_spec a 64 0 (by omega)
  · intro h0
    exact h (BitVec.eq_of_toNat_eq (by simpa using h0))
  · simp

end Walnut.Word
