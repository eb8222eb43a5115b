/- Arithmetic of the quotient digit estimate of the long division.

`W` is the divisor and `M` the partial remainder.  `d` is the rounded up leading
part of the divisor: `(d-1)·2^o ≤ W < d·2^o`. -/
import Mathlib.Tactic.Ring
import Mathlib.Tactic.Linarith
import Mathlib.Algebra.Order.Ring.Nat

namespace Walnut.BigUInt

/-- `d` approximates the divisor from above. -/
structure Approx (W d o : Nat) : Prop where
  lo : (d - 1) * 2 ^ o ≤ W
  hi : W < d * 2 ^ o
  dlo : 2 ^ 31 ≤ d
  dhi : d < 2 ^ 32

/-- The estimate never exceeds the true digit, whether or not the leading part
of the remainder is truncated. -/
theorem est1_le {W d o : Nat} (h : Approx W d o) {M t X : Nat} (ht : o ≤ t) (hX : X * 2 ^ t ≤ M) :
    W * (X / d) * 2 ^ (t - o) ≤ M := by
  have e : 2 ^ t = 2 ^ o * 2 ^ (t - o) := by rw [← pow_add]; congr 1; omega
  have h1 : W * (X / d) * 2 ^ (t - o) ≤ d * 2 ^ o * (X / d) * 2 ^ (t - o) :=
    Nat.mul_le_mul_right _ (Nat.mul_le_mul_right _ h.hi.le)
  have h2 : d * 2 ^ o * (X / d) * 2 ^ (t - o) = d * (X / d) * 2 ^ t := by rw [e]; ring
  have h3 : d * (X / d) * 2 ^ t ≤ X * 2 ^ t := Nat.mul_le_mul_right _ (Nat.mul_div_le X d)
  omega

theorem quot_lt {X d : Nat} (hX : X < 2 ^ 64) (hd : 2 ^ 31 ≤ d) : X / d < 2 ^ 33 := by
  rw [Nat.div_lt_iff_lt_mul (by omega)]
  calc X < 2 ^ 33 * 2 ^ 31 := by omega
    _ ≤ _ := Nat.mul_le_mul_left _ hd

theorem est1_lt {W d o : Nat} (h : Approx W d o) {M t : Nat} (ht : o ≤ t) (hM : M < 2 ^ (t + 64)) :
    M < W * (M / 2 ^ t / d) * 2 ^ (t - o) + 2 ^ (t + 34) := by
  have e : 2 ^ t = 2 ^ o * 2 ^ (t - o) := by rw [← pow_add]; congr 1; omega
  have hX : M / 2 ^ t < 2 ^ 64 := by
    rw [Nat.div_lt_iff_lt_mul (by positivity), ← pow_add, Nat.add_comm 64 t]; exact hM
  have hMX : M < (M / 2 ^ t + 1) * 2 ^ t := by
    have := Nat.lt_div_mul_add (a := M) (b := 2 ^ t) (by positivity)
    rw [Nat.add_mul]; omega
  generalize M / 2 ^ t = X at *
  have hq := quot_lt hX h.dlo
  have hd0 := h.dlo
  have hXd : X + 1 ≤ d * (X / d) + d := by
    have := Nat.lt_div_mul_add (a := X) (b := d) (by omega)
    rw [Nat.mul_comm d]; omega
  generalize X / d = q at *
  obtain ⟨d', rfl⟩ : ∃ d', d = d' + 1 := ⟨d - 1, by omega⟩
  have h1 : d' * q * 2 ^ t ≤ W * q * 2 ^ (t - o) := by
    have : d' * q * 2 ^ t = (d' * 2 ^ o) * q * 2 ^ (t - o) := by rw [e]; ring
    rw [this]
    exact Nat.mul_le_mul_right _ (Nat.mul_le_mul_right _ (by simpa using h.lo))
  have h2 : (X + 1) * 2 ^ t ≤ (d' * q + (q + d' + 1)) * 2 ^ t :=
    Nat.mul_le_mul_right _ (by
      have : (d' + 1) * q = d' * q + q := by ring
      omega)
  have h3 : (q + d' + 1) * 2 ^ t ≤ 2 ^ 34 * 2 ^ t := Nat.mul_le_mul_right _ (by have := h.dhi; omega)
  rw [pow_add 2 t 34, Nat.mul_comm (2 ^ t)]
  rw [Nat.add_mul (d' * q)] at h2
  omega

theorem est2_le {W d o : Nat} (h : Approx W d o) {M t X : Nat} (ht : t ≤ o) (hX : X * 2 ^ t ≤ M) :
    W * (X / d / 2 ^ (o - t)) ≤ M := by
  have e : 2 ^ o = 2 ^ t * 2 ^ (o - t) := by rw [← pow_add]; congr 1; omega
  have h1 : W * (X / d / 2 ^ (o - t)) ≤ d * 2 ^ o * (X / d / 2 ^ (o - t)) :=
    Nat.mul_le_mul_right _ h.hi.le
  have h2 : d * 2 ^ o * (X / d / 2 ^ (o - t)) = d * (2 ^ (o - t) * (X / d / 2 ^ (o - t))) * 2 ^ t := by
    rw [e]; ring
  have h3 : d * (2 ^ (o - t) * (X / d / 2 ^ (o - t))) * 2 ^ t ≤ d * (X / d) * 2 ^ t :=
    Nat.mul_le_mul_right _ (Nat.mul_le_mul_left _ (Nat.mul_div_le _ _))
  have h4 : d * (X / d) * 2 ^ t ≤ X * 2 ^ t := Nat.mul_le_mul_right _ (Nat.mul_div_le X d)
  omega

/-- After a step of the second loop the remainder is below twice the divisor,
or it is still small enough for the next step. -/
theorem est2_lt {W d o : Nat} (h : Approx W d o) {M t : Nat} (ht : t < o) (hM : M < 2 ^ (t + 64)) :
    M < W * (M / 2 ^ t / d / 2 ^ (o - t)) + 2 * W ∨
    M < W * (M / 2 ^ t / d / 2 ^ (o - t)) + 2 ^ (t + 34) := by
  have e : 2 ^ o = 2 ^ t * 2 ^ (o - t) := by rw [← pow_add]; congr 1; omega
  have hX : M / 2 ^ t < 2 ^ 64 := by
    rw [Nat.div_lt_iff_lt_mul (by positivity), ← pow_add, Nat.add_comm 64 t]; exact hM
  have hMX : M < (M / 2 ^ t + 1) * 2 ^ t := by
    have := Nat.lt_div_mul_add (a := M) (b := 2 ^ t) (by positivity)
    rw [Nat.add_mul]; omega
  generalize M / 2 ^ t = X at *
  have hq := quot_lt hX h.dlo
  have hd0 := h.dlo
  have hd1 := h.dhi
  have hXd : X + 1 ≤ d * (X / d) + d := by
    have := Nat.lt_div_mul_add (a := X) (b := d) (by omega)
    rw [Nat.mul_comm d]; omega
  have hqX := Nat.mul_div_le X d
  generalize X / d = q at *
  obtain ⟨d', rfl⟩ : ∃ d', d = d' + 1 := ⟨d - 1, by omega⟩
  have hlo : d' * 2 ^ o ≤ W := by simpa using h.lo
  obtain ⟨r, hr⟩ : ∃ r, o - t = r + 1 := ⟨o - t - 1, by omega⟩
  rw [hr] at e ⊢
  have hRpos : 0 < 2 ^ (r + 1) := by positivity
  have hq2 : q + 1 ≤ 2 ^ (r + 1) * (q / 2 ^ (r + 1)) + 2 ^ (r + 1) := by
    have := Nat.lt_div_mul_add (a := q) (b := 2 ^ (r + 1)) hRpos
    rw [Nat.mul_comm (2 ^ (r + 1))]; omega
  generalize q / 2 ^ (r + 1) = q2 at *
  have hW2 : d' * (2 ^ (r + 1) * q2) * 2 ^ t ≤ W * q2 := by
    have : d' * (2 ^ (r + 1) * q2) * 2 ^ t = (d' * 2 ^ o) * q2 := by rw [e]; ring
    rw [this]
    exact Nat.mul_le_mul_right _ hlo
  have hW : d' * 2 ^ (r + 1) * 2 ^ t ≤ W := by
    have : d' * 2 ^ (r + 1) * 2 ^ t = d' * 2 ^ o := by rw [e]; ring
    rw [this]; exact hlo
  -- M < W q2 + (q + 1 + d' R) 2^t
  have key : M < W * q2 + (q + 1 + d' * 2 ^ (r + 1)) * 2 ^ t := by
    generalize 2 ^ (r + 1) = R at *
    have h1 : X + 1 ≤ d' * (R * q2) + (q + 1 + d' * R) := by
      have h5 : d' * (q + 1) ≤ d' * (R * q2 + R) := Nat.mul_le_mul_left _ hq2
      have h6 : (d' + 1) * q = d' * q + q := by ring
      rw [Nat.mul_add, Nat.mul_add] at h5
      omega
    have h2 := Nat.mul_le_mul_right (2 ^ t) h1
    rw [Nat.add_mul (d' * (R * q2))] at h2
    omega
  by_cases hc : q + 1 ≤ d' * 2 ^ (r + 1)
  · left
    have h1 : (q + 1 + d' * 2 ^ (r + 1)) * 2 ^ t ≤ 2 * (d' * 2 ^ (r + 1) * 2 ^ t) := by
      have := Nat.mul_le_mul_right (2 ^ t) (Nat.add_le_add_right hc (d' * 2 ^ (r + 1)))
      calc _ ≤ _ := this
        _ = _ := by ring
    omega
  · right
    have hr2 : r ≤ 1 := by
      by_contra hr2
      have h8 : 2 ^ 3 ≤ 2 ^ (r + 1) := Nat.pow_le_pow_right (by norm_num) (by omega)
      have := Nat.mul_le_mul_left d' h8
      omega
    have h1 : q + 1 + d' * 2 ^ (r + 1) ≤ 2 ^ 34 := by
      rcases Nat.le_one_iff_eq_zero_or_eq_one.mp hr2 with h0 | h0
      · subst h0
        norm_num
        omega
      · subst h0
        norm_num at hc ⊢
        have hd2 : d' + 1 = 2 ^ 31 := by
          by_contra hne
          have h9 : 2 ^ 31 ≤ d' := by omega
          have h10 : (d' + 1) * (d' * 4) ≤ (d' + 1) * q := Nat.mul_le_mul_left _ (by omega)
          have h11 : (2 ^ 31 + 1) * (2 ^ 31 * 4) ≤ (d' + 1) * (d' * 4) :=
            Nat.mul_le_mul (by omega) (by omega)
          omega
        omega
    have h2 := Nat.mul_le_mul_right (2 ^ t) h1
    rw [pow_add 2 t 34, Nat.mul_comm (2 ^ t)]
    omega

/-- When the second loop ends the remainder is below twice the divisor. -/
theorem exit_lt {W d o : Nat} (h : Approx W d o) {M e : Nat} (he : e ≤ o + 31) (hM : M < 2 ^ e) :
    M < 2 * W := by
  have h1 : 2 ^ e ≤ 2 ^ (o + 31) := Nat.pow_le_pow_right (by norm_num) he
  rw [pow_add] at h1
  have hd := h.dlo
  have h2 : (2 ^ 31 - 1) * 2 ^ o ≤ W := le_trans (Nat.mul_le_mul_right _ (by omega)) h.lo
  generalize 2 ^ o = P at *
  omega

/-- Every partial quotient fits. -/
theorem quot_bound {W d o : Nat} (h : Approx W d o) {Q N t : Nat} (hN : N < 2 ^ (t + 64))
    (hQ : Q * W ≤ N) : Q < 2 ^ (t + 34 - o) := by
  have hd := h.dlo
  have h2 : 2 ^ 30 * 2 ^ o ≤ W := le_trans (Nat.mul_le_mul_right _ (by omega)) h.lo
  have h3 : Q * (2 ^ 30 * 2 ^ o) ≤ Q * W := Nat.mul_le_mul_left _ h2
  have h4 : 2 ^ (t + 64) ≤ 2 ^ (t + 34 - o) * (2 ^ 30 * 2 ^ o) := by
    rw [← pow_add, ← pow_add]
    exact Nat.pow_le_pow_right (by norm_num) (by omega)
  by_contra hc
  have h5 : 2 ^ (t + 34 - o) * (2 ^ 30 * 2 ^ o) ≤ Q * (2 ^ 30 * 2 ^ o) :=
    Nat.mul_le_mul_right _ (by omega)
  omega

end Walnut.BigUInt
