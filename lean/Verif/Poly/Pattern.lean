/-
The sign patterns a line can cut from a convex polygon, and what it means for index
ranges to describe one.
-/
import Verif.Poly.Ranges

namespace Walnut.Poly

/-- The values `g 0, ..., g (n - 1)` seen cyclically have one run of positive and one
run of negative values, and where a positive and a negative run meet there is at
most one zero between them; not all values are zero. -/
structure Pattern {α : Type} [Zero α] [LT α] (n : Nat) (g : Nat → α) : Prop where
  nz : ∃ i, i < n ∧ (0 < g i ∨ g i < 0)
  pos : ∀ a b c d, a < b → b < c → c < d → d < a + n →
    ¬ (0 < g (a % n) ∧ ¬ 0 < g (b % n) ∧ 0 < g (c % n) ∧ ¬ 0 < g (d % n))
  neg : ∀ a b c d, a < b → b < c → c < d → d < a + n →
    ¬ (g (a % n) < 0 ∧ ¬ g (b % n) < 0 ∧ g (c % n) < 0 ∧ ¬ g (d % n) < 0)
  zeros : ∀ a b c d, a < b → b < c → c < d → d < a + n → g (b % n) = 0 → g (c % n) = 0 →
    ¬ (0 < g (a % n) ∧ g (d % n) < 0) ∧ ¬ (g (a % n) < 0 ∧ 0 < g (d % n))

/-- Vertex `i` is in the cyclic range `[r.1, r.2)`. -/
def InRange (r : Nat × Nat) (n i : Nat) : Prop := ∃ k, r.1 ≤ k ∧ k < r.2 ∧ k % n = i

/-- The ranges contain exactly the vertices on the negative and on the positive side,
each once, and the code's own validity check accepts them. -/
structure RangesOK (n : Nat) (c : Nat → Int) (r : Ranges) : Prop where
  neg_le : r.neg.1 ≤ r.neg.2 ∧ r.neg.2 ≤ r.neg.1 + n
  pos_le : r.pos.1 ≤ r.pos.2 ∧ r.pos.2 ≤ r.pos.1 + n
  neg : ∀ i, i < n → (c i < 0 ↔ InRange r.neg n i)
  pos : ∀ i, i < n → (0 < c i ↔ InRange r.pos n i)
  valid : r.isValid n = true

theorem skip_spec (P : Nat → Bool) (n i : Nat) (h : i ≤ n) :
    i ≤ skip P n i ∧ skip P n i ≤ n ∧ (∀ k, i ≤ k → k < skip P n i → P k = true) ∧
      (skip P n i < n → P (skip P n i) = false) := by
  induction hm : n - i generalizing i with
  | zero =>
    unfold skip
    rw [dif_neg (by omega)]
    exact ⟨Nat.le_refl _, h, fun k h1 h2 => by omega, fun h => by omega⟩
  | succ m ih =>
    unfold skip
    rw [dif_pos (by omega)]
    by_cases hp : P i = true
    · rw [if_pos hp]
      obtain ⟨h1, h2, h3, h4⟩ := ih (i + 1) (by omega) (by omega)
      refine ⟨by omega, h2, fun k k1 k2 => ?_, h4⟩
      by_cases hk : k = i
      · rw [hk]; exact hp
      · exact h3 k (by omega) k2
    · rw [if_neg hp]
      exact ⟨Nat.le_refl _, h, fun k h1 h2 => by omega, fun _ => by simpa using hp⟩

theorem inRange_lin {a b n i : Nat} (h : b ≤ n) (hi : i < n) : InRange (a, b) n i ↔ a ≤ i ∧ i < b := by
  constructor
  · rintro ⟨k, h1, h2, h3⟩
    simp only at h1 h2
    rw [Nat.mod_eq_of_lt (by omega)] at h3
    omega
  · rintro ⟨h1, h2⟩
    exact ⟨i, h1, h2, Nat.mod_eq_of_lt hi⟩

theorem inRange_wrap {x e n i : Nat} (he : e ≤ x) (hx : x ≤ n) (hi : i < n) :
    InRange (x, e + n) n i ↔ i < e ∨ x ≤ i := by
  constructor
  · rintro ⟨k, h1, h2, h3⟩
    simp only at h1 h2
    by_cases hk : k < n
    · rw [Nat.mod_eq_of_lt hk] at h3; omega
    · rw [Nat.mod_eq_sub_mod (by omega), Nat.mod_eq_of_lt (by omega)] at h3; omega
  · rintro (h | h)
    · exact ⟨i + n, by simp only; omega, by simp only; omega, by
        rw [Nat.add_mod_right, Nat.mod_eq_of_lt hi]⟩
    · exact ⟨i, h, by simp only; omega, Nat.mod_eq_of_lt hi⟩

theorem xorNeg_iff (a b : Int) : xorNeg a b = true ↔ ¬ (a < 0 ↔ b < 0) := by
  unfold xorNeg
  by_cases h1 : a < 0 <;> by_cases h2 : b < 0 <;> simp [h1, h2]

/-- The sign on the side of `s`: `Same s x` when `x` has the sign of `s ≠ 0`. -/
def Same (s x : Int) : Prop := if s < 0 then x < 0 else 0 < x
/-- The other side. -/
def Opp (s x : Int) : Prop := if s < 0 then 0 < x else x < 0

/-- What the linear search needs of a pattern, in linear form. -/
theorem Pattern.linear {n : Nat} {c : Nat → Int} (h : Pattern n c) (s : Int) :
    (∀ a b x d, a < b → b < x → x < d → d < n →
      (¬ (Same s (c a) ∧ ¬ Same s (c b) ∧ Same s (c x) ∧ ¬ Same s (c d)) ∧
       ¬ (¬ Same s (c a) ∧ Same s (c b) ∧ ¬ Same s (c x) ∧ Same s (c d))) ∧
      (¬ (Opp s (c a) ∧ ¬ Opp s (c b) ∧ Opp s (c x) ∧ ¬ Opp s (c d)) ∧
       ¬ (¬ Opp s (c a) ∧ Opp s (c b) ∧ ¬ Opp s (c x) ∧ Opp s (c d)))) := by
  intro a b x d h1 h2 h3 h4
  have m : ∀ i, i < n → i % n = i := fun i hi => Nat.mod_eq_of_lt hi
  have p1 := h.pos a b x d h1 h2 h3 (by omega)
  have p2 := h.pos b x d (a + n) h2 h3 (by omega) (by omega)
  have p3 := h.neg a b x d h1 h2 h3 (by omega)
  have p4 := h.neg b x d (a + n) h2 h3 (by omega) (by omega)
  rw [Nat.add_mod_right] at p2 p4
  rw [m a (by omega), m b (by omega), m x (by omega), m d (by omega)] at p1 p2 p3 p4
  unfold Same Opp
  split
  · exact ⟨⟨p3, fun ⟨q1, q2, q3, q4⟩ => p4 ⟨q2, q3, q4, q1⟩⟩, ⟨p1, fun ⟨q1, q2, q3, q4⟩ => p2 ⟨q2, q3, q4, q1⟩⟩⟩
  · exact ⟨⟨p1, fun ⟨q1, q2, q3, q4⟩ => p2 ⟨q2, q3, q4, q1⟩⟩, ⟨p3, fun ⟨q1, q2, q3, q4⟩ => p4 ⟨q2, q3, q4, q1⟩⟩⟩

/-- Zeros between the two sides, in linear form. -/
theorem Pattern.zeros_linear {n : Nat} {c : Nat → Int} (h : Pattern n c) (s : Int) :
    ∀ a b x d, a < b → b < x → x < d → d < n →
      (c b = 0 → c x = 0 → ¬ (Same s (c a) ∧ Opp s (c d)) ∧ ¬ (Opp s (c a) ∧ Same s (c d))) ∧
      (c x = 0 → c d = 0 → ¬ (Same s (c b) ∧ Opp s (c a)) ∧ ¬ (Opp s (c b) ∧ Same s (c a))) ∧
      (c a = 0 → c d = 0 → ¬ (Same s (c x) ∧ Opp s (c b)) ∧ ¬ (Opp s (c x) ∧ Same s (c b))) ∧
      (c a = 0 → c b = 0 → ¬ (Same s (c d) ∧ Opp s (c x)) ∧ ¬ (Opp s (c d) ∧ Same s (c x))) := by
  intro a b x d h1 h2 h3 h4
  have m : ∀ i, i < n → i % n = i := fun i hi => Nat.mod_eq_of_lt hi
  have p1 := h.zeros a b x d h1 h2 h3 (by omega)
  have p2 := h.zeros b x d (a + n) h2 h3 (by omega) (by omega)
  have p3 := h.zeros x d (a + n) (b + n) h3 (by omega) (by omega) (by omega)
  have p4 := h.zeros d (a + n) (b + n) (x + n) (by omega) (by omega) (by omega) (by omega)
  simp only [Nat.add_mod_right] at p2 p3 p4
  rw [m a (by omega), m b (by omega), m x (by omega), m d (by omega)] at p1 p2 p3 p4
  unfold Same Opp
  split
  · exact ⟨fun z1 z2 => ⟨(p1 z1 z2).2, (p1 z1 z2).1⟩, fun z1 z2 => ⟨(p2 z1 z2).2, (p2 z1 z2).1⟩,
      fun z1 z2 => ⟨(p3 z2 z1).2, (p3 z2 z1).1⟩, fun z1 z2 => ⟨(p4 z1 z2).2, (p4 z1 z2).1⟩⟩
  · exact ⟨fun z1 z2 => ⟨(p1 z1 z2).1, (p1 z1 z2).2⟩, fun z1 z2 => ⟨(p2 z1 z2).1, (p2 z1 z2).2⟩,
      fun z1 z2 => ⟨(p3 z2 z1).1, (p3 z2 z1).2⟩, fun z1 z2 => ⟨(p4 z1 z2).1, (p4 z1 z2).2⟩⟩

/-- Reassembling the result from the two sides. -/
theorem rangesOK_sides {n : Nat} {c : Nat → Int} {s : Int} {f g : Nat × Nat} (hs : s ≠ 0)
    (hf : f.1 ≤ f.2 ∧ f.2 ≤ f.1 + n) (hg : g.1 ≤ g.2 ∧ g.2 ≤ g.1 + n)
    (h1 : ∀ i, i < n → (Same s (c i) ↔ InRange f n i)) (h2 : ∀ i, i < n → (Opp s (c i) ↔ InRange g n i))
    (hv : f.1 ≠ f.2 → g.1 ≠ g.2 → (f.2 % n = g.1 % n ∨ (f.2 + 1) % n = g.1 % n) ∧
      (g.2 % n = f.1 % n ∨ (g.2 + 1) % n = f.1 % n)) :
    RangesOK n c (sides s f g) := by
  unfold sides
  by_cases h : s < 0
  · rw [if_pos h]
    simp only [Same, Opp, if_pos h] at h1 h2
    refine ⟨hf, hg, h1, h2, ?_⟩
    simp only [Ranges.isValid, Ranges.emitNeg, Ranges.emitPos, hf, hg]
    by_cases e1 : f.1 = f.2 <;> by_cases e2 : g.1 = g.2 <;> simp [e1, e2]
    have := hv e1 e2
    exact this
  · rw [if_neg h]
    simp only [Same, Opp, if_neg h] at h1 h2
    refine ⟨hg, hf, h2, h1, ?_⟩
    simp only [Ranges.isValid, Ranges.emitNeg, Ranges.emitPos, hf, hg]
    by_cases e1 : f.1 = f.2 <;> by_cases e2 : g.1 = g.2 <;> simp [e1, e2]
    have := hv e1 e2
    exact ⟨this.2, this.1⟩

end Walnut.Poly
