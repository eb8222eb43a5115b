/- Correctness of the linear search for the split ranges. -/
import Verif.Poly.Pattern

namespace Walnut.Poly

theorem same_of {s x : Int} (hx : x ≠ 0) (h : ¬ (xorNeg s x = true)) : Same s x := by
  rw [xorNeg_iff] at h
  unfold Same
  split <;> omega

theorem opp_of {s x : Int} (hx : x ≠ 0) (h : xorNeg s x = true) : Opp s x := by
  rw [xorNeg_iff] at h
  unfold Opp
  split <;> omega

theorem same_self {s : Int} (h : s ≠ 0) : Same s s := by
  unfold Same
  split <;> omega

theorem Same.not_opp {s x : Int} (h : Same s x) : ¬ Opp s x := by
  unfold Same at h; unfold Opp
  split at h <;> simp_all <;> omega

theorem Opp.not_same {s x : Int} (h : Opp s x) : ¬ Same s x := by
  unfold Opp at h; unfold Same
  split at h <;> simp_all <;> omega

theorem not_same_zero {s x : Int} (h : x = 0) : ¬ Same s x := by
  unfold Same
  split <;> omega

theorem not_opp_zero {s x : Int} (h : x = 0) : ¬ Opp s x := by
  unfold Opp
  split <;> omega

theorem Same.ne {s x : Int} (h : Same s x) : x ≠ 0 := fun h0 => not_same_zero h0 h
theorem Opp.ne {s x : Int} (h : Opp s x) : x ≠ 0 := fun h0 => not_opp_zero h0 h

theorem same_or_opp {s x : Int} (h : x ≠ 0) : Same s x ∨ Opp s x := by
  unfold Same Opp
  split <;> omega

/-- A segment decomposition of `[0, n)` into first side, zeros, second side, zeros and
first side again gives valid ranges. -/
theorem segments_wrap {n : Nat} {c : Nat → Int} {s : Int} (hp : Pattern n c) (hs : s ≠ 0)
    {e k m x : Nat} (h1 : 0 < e) (h2 : e ≤ k) (h3 : k < m) (h4 : m ≤ x) (h5 : x ≤ n)
    (S1 : ∀ i, i < e → Same s (c i)) (Z1 : ∀ i, e ≤ i → i < k → c i = 0)
    (O : ∀ i, k ≤ i → i < m → Opp s (c i)) (Z2 : ∀ i, m ≤ i → i < x → c i = 0)
    (S2 : ∀ i, x ≤ i → i < n → Same s (c i)) :
    (x = n → RangesOK n c (sides s (0, e) (k, m))) ∧
    (x < n → RangesOK n c (sides s (x, e + n) (k, m))) := by
  have Z := hp.zeros_linear s
  have hek : k = e ∨ k = e + 1 := by
    by_contra hc
    exact ((Z 0 e (e + 1) k (by omega) (by omega) (by omega) (by omega)).1 (Z1 _ (by omega) (by omega))
      (Z1 _ (by omega) (by omega))).1 ⟨S1 _ (by omega), O _ (by omega) (by omega)⟩
  have hmx : x = m ∨ x = m + 1 := by
    by_contra hc
    have hmn : m + 1 < n := by omega
    exact ((Z 0 k m (m + 1) (by omega) (by omega) (by omega) (by omega)).2.1 (Z2 _ (by omega) (by omega))
      (Z2 _ (by omega) (by omega))).2 ⟨O _ (by omega) (by omega), S1 _ (by omega)⟩
  have hopp : ∀ i, i < n → (Opp s (c i) ↔ InRange (k, m) n i) := by
    intro i hi
    rw [inRange_lin (by omega) hi]
    constructor
    · intro h
      by_contra hc
      by_cases i1 : i < e
      · exact (S1 i i1).not_opp h
      · by_cases i2 : i < k
        · exact h.ne (Z1 i (by omega) i2)
        · by_cases i3 : i < x
          · exact h.ne (Z2 i (by omega) i3)
          · exact (S2 i (by omega) hi).not_opp h
    · exact fun h => O i h.1 h.2
  refine ⟨fun hx => ?_, fun hx => ?_⟩
  · refine rangesOK_sides hs ⟨by simp only; omega, by simp only; omega⟩
      ⟨by simp only; omega, by simp only; omega⟩ ?_ hopp ?_
    · intro i hi
      rw [inRange_lin (by omega) hi]
      constructor
      · intro h
        refine ⟨by omega, ?_⟩
        by_contra hc
        by_cases i2 : i < k
        · exact h.ne (Z1 i (by omega) i2)
        · by_cases i3 : i < m
          · exact (O i (by omega) i3).not_same h
          · exact h.ne (Z2 i (by omega) (by omega))
      · exact fun h => S1 i h.2
    · intro _ _
      simp only
      constructor
      · rcases hek with h | h
        · left; rw [h]
        · right; rw [h]
      · rcases hmx with h | h
        · left; rw [← h, hx]; simp
        · right; rw [← h, hx]; simp
  · refine rangesOK_sides hs ⟨by simp only; omega, by simp only; omega⟩
      ⟨by simp only; omega, by simp only; omega⟩ ?_ hopp ?_
    · intro i hi
      rw [inRange_wrap (by omega) (by omega) hi]
      constructor
      · intro h
        by_contra hc
        by_cases i2 : i < k
        · exact h.ne (Z1 i (by omega) i2)
        · by_cases i3 : i < m
          · exact (O i (by omega) i3).not_same h
          · exact h.ne (Z2 i (by omega) (by omega))
      · rintro (h | h)
        · exact S1 i h
        · exact S2 i h hi
    · intro _ _
      simp only
      constructor
      · rcases hek with h | h
        · left; rw [h, Nat.add_mod_right]
        · right; rw [h, show e + n + 1 = e + 1 + n by omega, Nat.add_mod_right]
      · rcases hmx with h | h
        · left; rw [h]
        · right; rw [h]

/-- A decomposition starting with zeros: zeros, first side, zeros, second side, zeros. -/
theorem segments_zero {n : Nat} {c : Nat → Int} {s : Int} (hp : Pattern n c) (hs : s ≠ 0)
    {a j k m : Nat} (h0 : 0 < a) (h1 : a < j) (h2 : j ≤ k) (h3 : k < m) (h4 : m ≤ n)
    (Z0 : ∀ i, i < a → c i = 0)
    (S1 : ∀ i, a ≤ i → i < j → Same s (c i)) (Z1 : ∀ i, j ≤ i → i < k → c i = 0)
    (O : ∀ i, k ≤ i → i < m → Opp s (c i)) (Z2 : ∀ i, m ≤ i → i < n → c i = 0) :
    RangesOK n c (sides s (a, j) (k, m)) := by
  have Z := hp.zeros_linear s
  have hjk : k = j ∨ k = j + 1 := by
    by_contra hc
    exact ((Z a j (j + 1) k (by omega) (by omega) (by omega) (by omega)).1 (Z1 _ (by omega) (by omega))
      (Z1 _ (by omega) (by omega))).1 ⟨S1 _ (by omega) (by omega), O _ (by omega) (by omega)⟩
  have hm : m = n := by
    by_contra hc
    exact ((Z 0 a k m (by omega) (by omega) (by omega) (by omega)).2.2.1 (Z0 _ (by omega))
      (Z2 _ (by omega) (by omega))).2 ⟨O _ (by omega) (by omega), S1 _ (by omega) (by omega)⟩
  have ha : a = 1 := by
    by_contra hc
    exact ((Z 0 1 a k (by omega) (by omega) (by omega) (by omega)).2.2.2 (Z0 _ (by omega))
      (Z0 _ (by omega))).2 ⟨O _ (by omega) (by omega), S1 _ (by omega) (by omega)⟩
  refine rangesOK_sides hs ⟨by simp only; omega, by simp only; omega⟩
      ⟨by simp only; omega, by simp only; omega⟩ ?_ ?_ ?_
  · intro i hi
    rw [inRange_lin (by omega) hi]
    constructor
    · intro h
      by_contra hc
      by_cases i1 : i < a
      · exact h.ne (Z0 i i1)
      · by_cases i2 : i < k
        · exact h.ne (Z1 i (by omega) i2)
        · by_cases i3 : i < m
          · exact (O i (by omega) i3).not_same h
          · exact h.ne (Z2 i (by omega) (by omega))
    · exact fun h => S1 i h.1 h.2
  · intro i hi
    rw [inRange_lin (by omega) hi]
    constructor
    · intro h
      by_contra hc
      by_cases i1 : i < a
      · exact h.ne (Z0 i i1)
      · by_cases i2 : i < j
        · exact (S1 i (by omega) i2).not_opp h
        · by_cases i3 : i < k
          · exact h.ne (Z1 i (by omega) i3)
          · exact h.ne (Z2 i (by omega) (by omega))
    · exact fun h => O i h.1 h.2
  · intro _ _
    simp only
    constructor
    · rcases hjk with h | h
      · left; rw [h]
      · right; rw [h]
    · right; rw [hm, ha, Nat.add_mod_left]

/-- Only one side occurs. -/
theorem segments_one {n : Nat} {c : Nat → Int} {s : Int} (hs : s ≠ 0) {f : Nat × Nat}
    (hf : f.1 ≤ f.2 ∧ f.2 ≤ f.1 + n) (h1 : ∀ i, i < n → (Same s (c i) ↔ InRange f n i))
    (h2 : ∀ i, i < n → ¬ Opp s (c i)) : RangesOK n c (sides s f (0, 0)) := by
  refine rangesOK_sides hs hf ⟨by simp, by simp⟩ h1 (fun i hi => ?_) (by simp)
  refine ⟨fun h => absurd h (h2 i hi), ?_⟩
  rintro ⟨k, k1, k2, -⟩
  simp at k2

theorem linearSecond_spec {n : Nat} {c : Nat → Int} (hp : Pattern n c) (hs : c 0 ≠ 0)
    {e k : Nat} (h1 : 0 < e) (h2 : e ≤ k) (h3 : k < n)
    (S1 : ∀ i, i < e → Same (c 0) (c i)) (Z1 : ∀ i, e ≤ i → i < k → c i = 0) (O : Opp (c 0) (c k)) :
    ∃ r, linearSecond n c k e = some r ∧ RangesOK n c r := by
  obtain ⟨a1, a2, a3, a4⟩ := skip_spec (fun k => decide (c k ≠ 0) && xorNeg (c 0) (c k)) n (k + 1) (by omega)
  unfold linearSecond
  generalize skip (fun k => decide (c k ≠ 0) && xorNeg (c 0) (c k)) n (k + 1) = m at *
  have O' : ∀ i, k ≤ i → i < m → Opp (c 0) (c i) := by
    intro i i1 i2
    by_cases h : i = k
    · rw [h]; exact O
    · have := a3 i (by omega) i2
      simp only [Bool.and_eq_true, decide_eq_true_eq] at this
      exact opp_of this.1 this.2
  simp only
  by_cases hm : m = n
  · rw [if_pos hm]
    subst hm
    refine ⟨_, rfl, (segments_wrap hp hs (x := m) h1 h2 (by omega) (by omega) (by omega) S1 Z1 O' (by omega)
      (by omega)).1 rfl⟩
  · rw [if_neg hm]
    have hmn : m < n := by omega
    have b1 := a4 hmn
    simp only [Bool.and_eq_false_iff, decide_eq_false_iff_not, not_not] at b1
    have Om : ¬ Opp (c 0) (c m) := by
      rcases b1 with b1 | b1
      · exact not_opp_zero b1
      · intro h
        exact (same_of h.ne (by simp [b1])).not_opp h
    obtain ⟨d1, d2, d3, d4⟩ := skip_spec (fun k => decide (c k = 0)) n m (by omega)
    generalize skip (fun k => decide (c k = 0)) n m = x at *
    have Z2 : ∀ i, m ≤ i → i < x → c i = 0 := fun i i1 i2 => by simpa using d3 i i1 i2
    by_cases hx : x = n
    · rw [if_pos hx]
      exact ⟨_, rfl, (segments_wrap hp hs h1 h2 (by omega) d1 d2 S1 Z1 O' Z2 (by omega)).1 hx⟩
    · rw [if_neg hx]
      have hxn : x < n := by omega
      have hxz : c x ≠ 0 := by simpa using d4 hxn
      have A := hp.linear (c 0)
      have hxs : Same (c 0) (c x) := by
        rcases same_or_opp (s := c 0) hxz with h | h
        · exact h
        · exfalso
          by_cases hxm : x = m
          · rw [hxm] at h; exact Om h
          · exact (A 0 k m x (by omega) (by omega) (by omega) hxn).2.2
              ⟨(same_self hs).not_opp, O, Om, h⟩
      have hxx : ¬ (xorNeg (c 0) (c x) = true) := fun h => hxs.not_opp (opp_of hxz h)
      rw [if_neg hxx]
      refine ⟨_, rfl, (segments_wrap hp hs h1 h2 (by omega) d1 d2 S1 Z1 O' Z2 ?_).2 hxn⟩
      intro i i1 i2
      by_contra hc
      have : i ≠ x := by rintro rfl; exact hc hxs
      exact (A 0 k x i (by omega) (by omega) (by omega) i2).1.1 ⟨same_self hs, O.not_same, hxs, hc⟩

theorem linear_spec {n : Nat} {c : Nat → Int} (hp : Pattern n c) :
    ∃ r, linear n c = some r ∧ RangesOK n c r := by
  obtain ⟨i0, hi0, hne⟩ := hp.nz
  unfold linear
  rw [if_neg (by omega)]
  by_cases hs : c 0 = 0
  · rw [if_pos hs]
    obtain ⟨a1, a2, a3, a4⟩ := skip_spec (fun k => decide (c k = 0)) n 1 (by omega)
    generalize skip (fun k => decide (c k = 0)) n 1 = a at *
    have Z0 : ∀ i, i < a → c i = 0 := by
      intro i hi
      by_cases h : i = 0
      · rw [h]; exact hs
      · simpa using a3 i (by omega) hi
    have han : a ≠ n := by
      rintro rfl
      have := Z0 i0 hi0
      omega
    simp only
    rw [if_neg han]
    have hca : c a ≠ 0 := by simpa using a4 (by omega)
    have A := hp.linear (c a)
    obtain ⟨b1, b2, b3, b4⟩ := skip_spec (fun k => decide (c k ≠ 0) && !xorNeg (c a) (c k)) n (a + 1) (by omega)
    generalize skip (fun k => decide (c k ≠ 0) && !xorNeg (c a) (c k)) n (a + 1) = j at *
    have S1 : ∀ i, a ≤ i → i < j → Same (c a) (c i) := by
      intro i i1 i2
      by_cases h : i = a
      · rw [h]; exact same_self hca
      · have := b3 i (by omega) i2
        simp only [Bool.and_eq_true, decide_eq_true_eq, Bool.not_eq_true'] at this
        exact same_of this.1 (by simp [this.2])
    by_cases hj : j = n
    · rw [if_pos hj]
      refine ⟨_, rfl, segments_one hca ⟨by simp only; omega, by simp only; omega⟩ (fun i hi => ?_)
        (fun i hi => ?_)⟩
      · rw [inRange_lin (by omega) hi]
        refine ⟨fun h => ⟨?_, by omega⟩, fun h => S1 i h.1 h.2⟩
        by_contra hc
        exact h.ne (Z0 i (by omega))
      · by_cases h : i < a
        · exact not_opp_zero (Z0 i h)
        · exact (S1 i (by omega) (by omega)).not_opp
    · rw [if_neg hj]
      have hjn : j < n := by omega
      have bj := b4 hjn
      simp only [Bool.and_eq_false_iff, decide_eq_false_iff_not, not_not, Bool.not_eq_false'] at bj
      have hjs : ¬ Same (c a) (c j) := by
        rcases bj with h | h
        · exact not_same_zero h
        · intro h'
          exact h'.not_opp (opp_of h'.ne h)
      -- the common end
      have fin : ∀ k, j ≤ k → k < n → (∀ i, j ≤ i → i < k → c i = 0) → Opp (c a) (c k) →
          RangesOK n c (sides (c a) (a, j) (k, skip (fun k => decide (c k ≠ 0)) n (k + 1))) := by
        intro k k1 k2 Z1 hk
        obtain ⟨d1, d2, d3, d4⟩ := skip_spec (fun k => decide (c k ≠ 0)) n (k + 1) (by omega)
        generalize skip (fun k => decide (c k ≠ 0)) n (k + 1) = m at *
        have hO : ∀ i, k ≤ i → i < m → Opp (c a) (c i) := by
          intro i i1 i2
          by_cases h : i = k
          · rw [h]; exact hk
          · have hz : c i ≠ 0 := by simpa using d3 i (by omega) i2
            rcases same_or_opp (s := c a) hz with h' | h'
            · exact absurd ⟨not_same_zero hs, same_self hca, hk.not_same, h'⟩
                (A 0 a k i (by omega) (by omega) (by omega) (by omega)).1.2
            · exact h'
        refine segments_zero hp hca (by omega) (by omega) k1 (by omega) d2 Z0 S1 Z1 hO ?_
        intro i i1 i2
        by_contra hz
        have hm0 : c m = 0 := by simpa using d4 (by omega)
        have him : i ≠ m := by rintro rfl; exact hz hm0
        rcases same_or_opp (s := c a) hz with h' | h'
        · exact (A 0 a m i (by omega) (by omega) (by omega) i2).1.2
            ⟨not_same_zero hs, same_self hca, not_same_zero hm0, h'⟩
        · exact (A 0 k m i (by omega) (by omega) (by omega) i2).2.2
            ⟨not_opp_zero hs, hk, not_opp_zero hm0, h'⟩
      by_cases hj0 : c j = 0
      · rw [if_pos hj0]
        obtain ⟨d1, d2, d3, d4⟩ := skip_spec (fun k => decide (c k = 0)) n (j + 1) (by omega)
        generalize skip (fun k => decide (c k = 0)) n (j + 1) = k at *
        have Z1 : ∀ i, j ≤ i → i < k → c i = 0 := by
          intro i i1 i2
          by_cases h : i = j
          · rw [h]; exact hj0
          · simpa using d3 i (by omega) i2
        by_cases hk : k = n
        · rw [if_pos hk]
          refine ⟨_, rfl, segments_one hca ⟨by simp only; omega, by simp only; omega⟩ (fun i hi => ?_)
            (fun i hi => ?_)⟩
          · rw [inRange_lin (by omega) hi]
            refine ⟨fun h => ⟨?_, ?_⟩, fun h => S1 i h.1 h.2⟩
            · by_contra hc
              exact h.ne (Z0 i (by omega))
            · by_contra hc
              exact h.ne (Z1 i (by omega) (by omega))
          · by_cases h : i < a
            · exact not_opp_zero (Z0 i h)
            · by_cases h' : i < j
              · exact (S1 i (by omega) (by omega)).not_opp
              · exact not_opp_zero (Z1 i (by omega) (by omega))
        · rw [if_neg hk]
          have hkz : c k ≠ 0 := by simpa using d4 (by omega)
          refine ⟨_, rfl, fin k (by omega) (by omega) Z1 ?_⟩
          rcases same_or_opp (s := c a) hkz with h' | h'
          · exact absurd ⟨not_same_zero hs, same_self hca, not_same_zero hj0, h'⟩
              (A 0 a j k (by omega) (by omega) (by omega) (by omega)).1.2
          · exact h'
      · rw [if_neg hj0]
        refine ⟨_, rfl, fin j (by omega) hjn (by omega) ?_⟩
        rcases same_or_opp (s := c a) hj0 with h' | h'
        · exact absurd h' hjs
        · exact h'
  · rw [if_neg hs]
    have A := hp.linear (c 0)
    obtain ⟨b1, b2, b3, b4⟩ := skip_spec (fun k => decide (c k ≠ 0) && !xorNeg (c 0) (c k)) n 1 (by omega)
    generalize skip (fun k => decide (c k ≠ 0) && !xorNeg (c 0) (c k)) n 1 = j at *
    have S1 : ∀ i, i < j → Same (c 0) (c i) := by
      intro i i2
      by_cases h : i = 0
      · rw [h]; exact same_self hs
      · have := b3 i (by omega) i2
        simp only [Bool.and_eq_true, decide_eq_true_eq, Bool.not_eq_true'] at this
        exact same_of this.1 (by simp [this.2])
    simp only
    by_cases hj : j = n
    · rw [if_pos hj]
      refine ⟨_, rfl, segments_one hs ⟨by simp only; omega, by simp only; omega⟩ (fun i hi => ?_)
        (fun i hi => (S1 i (by omega)).not_opp)⟩
      rw [inRange_lin (by omega) hi]
      exact ⟨fun _ => ⟨by omega, hi⟩, fun _ => S1 i (by omega)⟩
    · rw [if_neg hj]
      have hjn : j < n := by omega
      have bj := b4 hjn
      simp only [Bool.and_eq_false_iff, decide_eq_false_iff_not, not_not, Bool.not_eq_false'] at bj
      by_cases hj0 : c j = 0
      · rw [if_pos hj0]
        obtain ⟨d1, d2, d3, d4⟩ := skip_spec (fun k => decide (c k = 0)) n (j + 1) (by omega)
        generalize skip (fun k => decide (c k = 0)) n (j + 1) = k at *
        have Z1 : ∀ i, j ≤ i → i < k → c i = 0 := by
          intro i i1 i2
          by_cases h : i = j
          · rw [h]; exact hj0
          · simpa using d3 i (by omega) i2
        by_cases hk : k = n
        · rw [if_pos hk]
          refine ⟨_, rfl, segments_one hs ⟨by simp only; omega, by simp only; omega⟩ (fun i hi => ?_)
            (fun i hi => ?_)⟩
          · rw [inRange_lin (by omega) hi]
            refine ⟨fun h => ⟨by omega, ?_⟩, fun h => S1 i h.2⟩
            by_contra hc
            exact h.ne (Z1 i (by omega) (by omega))
          · by_cases h' : i < j
            · exact (S1 i h').not_opp
            · exact not_opp_zero (Z1 i (by omega) (by omega))
        · rw [if_neg hk]
          have hkz : c k ≠ 0 := by simpa using d4 (by omega)
          by_cases hx : xorNeg (c 0) (c k) = true
          · rw [if_pos hx]
            exact linearSecond_spec hp hs (by omega) (by omega) (by omega) S1 Z1 (opp_of hkz hx)
          · rw [if_neg hx]
            have hks := same_of hkz hx
            have S2 : ∀ i, k ≤ i → i < n → Same (c 0) (c i) := by
              intro i i1 i2
              by_contra hc
              have : i ≠ k := by rintro rfl; exact hc hks
              exact (A 0 j k i (by omega) (by omega) (by omega) i2).1.1
                ⟨same_self hs, not_same_zero hj0, hks, hc⟩
            have ok : RangesOK n c (sides (c 0) (k, j + n) (0, 0)) := by
              refine segments_one hs ⟨by simp only; omega, by simp only; omega⟩ (fun i hi => ?_)
                (fun i hi => ?_)
              · rw [inRange_wrap (by omega) (by omega) hi]
                constructor
                · intro h
                  by_contra hc
                  exact h.ne (Z1 i (by omega) (by omega))
                · rintro (h | h)
                  · exact S1 i h
                  · exact S2 i h hi
              · by_cases h' : i < j
                · exact (S1 i h').not_opp
                · by_cases h'' : i < k
                  · exact not_opp_zero (Z1 i (by omega) h'')
                  · exact (S2 i (by omega) hi).not_opp
            exact ⟨_, by rw [if_pos ok.valid], ok⟩
      · rw [if_neg hj0]
        refine linearSecond_spec hp hs (by omega) (Nat.le_refl _) hjn S1 (by omega) ?_
        rcases bj with h | h
        · exact absurd h hj0
        · exact opp_of hj0 h

end Walnut.Poly
