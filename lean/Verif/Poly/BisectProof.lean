/- Correctness of the binary searches for the split ranges. -/
import Verif.Poly.LinearProof
import Verif.Geom.QLemmas

namespace Walnut.Poly
open Walnut.Geom

/-- The values form a cyclically unimodal sequence: every threshold cuts it in a
`Pattern`. -/
def Bitonic (n : Nat) (f : Nat → ℚ) : Prop := ∀ t : ℚ, Pattern n fun i => f i - t

theorem Pattern.of_sign {n : Nat} {g : Nat → ℚ} {c : Nat → Int} (h : Pattern n g) (hn : 0 < n)
    (hc : ∀ i, i < n → SameSign (c i) (g i)) : Pattern n c := by
  have m : ∀ i, i % n < n := fun i => Nat.mod_lt _ hn
  have hp : ∀ i, 0 < c (i % n) ↔ 0 < g (i % n) := fun i => (hc _ (m i)).2.2
  have hn' : ∀ i, c (i % n) < 0 ↔ g (i % n) < 0 := fun i => (hc _ (m i)).1
  have hz : ∀ i, c (i % n) = 0 ↔ g (i % n) = 0 := fun i => (hc _ (m i)).2.1
  obtain ⟨⟨i, hi, h1⟩, h2, h3, h4⟩ := h
  refine ⟨⟨i, hi, ?_⟩, ?_, ?_, ?_⟩
  · rw [(hc i hi).2.2, (hc i hi).1]; exact h1
  · intro a b x d; simp only [hp]; exact h2 a b x d
  · intro a b x d; simp only [hn']; exact h3 a b x d
  · intro a b x d; simp only [hp, hn', hz]; exact h4 a b x d

theorem Pattern.negate {n : Nat} {g : Nat → ℚ} (h : Pattern n g) : Pattern n fun i => -g i := by
  obtain ⟨⟨i, hi, h1⟩, h2, h3, h4⟩ := h
  refine ⟨⟨i, hi, ?_⟩, ?_, ?_, ?_⟩
  · simpa [or_comm] using h1
  · intro a b c d; simpa using h3 a b c d
  · intro a b c d; simpa using h2 a b c d
  · intro a b c d
    have := h4 a b c d
    simp only [neg_eq_zero, Left.neg_pos_iff, Left.neg_neg_iff]
    intro k1 k2 k3 k4 k5 k6
    exact ⟨(this k1 k2 k3 k4 k5 k6).2, (this k1 k2 k3 k4 k5 k6).1⟩

theorem Bitonic.neg {n : Nat} {f : Nat → ℚ} (h : Bitonic n f) : Bitonic n fun i => -f i := by
  intro t
  have := (h (-t)).negate
  refine (congrArg (Pattern n) ?_).mp this
  funext i
  ring

theorem Bitonic.pattern {n : Nat} {f : Nat → ℚ} (h : Bitonic n f) : Pattern n f := by
  have := h 0
  simpa using this

theorem greaterCycle_spec {n a b : Nat} (hn : 0 < n) (h : a ≤ b + n) :
    ∃ t, greaterCycle n a b = some t ∧ a ≤ t ∧ t < a + n ∧ t % n = b % n := by
  refine ⟨a + (b + n - a) % n, ?_, by omega, ?_, ?_⟩
  · unfold greaterCycle
    rw [if_neg (by omega)]
  · have := Nat.mod_lt (b + n - a) hn; omega
  · rw [Nat.add_mod, Nat.mod_mod, ← Nat.add_mod, show a + (b + n - a) = b + n by omega, Nat.add_mod_right]

theorem oppositeLoop_spec {n : Nat} {f : Nat → ℚ} {e : Nat → Int} {far : Nat → Bool}
    (he : ∀ i, i < n → SameSign (e i) (f ((i + 1) % n) - f i))
    (hfar : ∀ i, i < n → (far i = true ↔ f 0 < f i)) :
    ∀ m b t, t - b ≤ m → b < t → t ≤ n → f 0 < f b → f (t % n) ≤ f 0 →
      ∃ k, oppositeLoop e far b t = some k ∧ b ≤ k ∧ k < t ∧ e k < 0 := by
  intro m
  induction m with
  | zero => intro b t h1 h2; omega
  | succ m ih =>
    intro b t h1 h2 h3 hb ht
    unfold oppositeLoop
    rw [dif_pos h2]
    have hlt : (b + t) / 2 < t := by omega
    have hge : b ≤ (b + t) / 2 := by omega
    generalize (b + t) / 2 = mid at *
    by_cases h4 : e mid < 0
    · rw [if_pos h4]
      exact ⟨mid, rfl, hge, hlt, h4⟩
    · rw [if_neg h4]
      have hm := he mid (by omega)
      by_cases h5 : far mid = true
      · rw [if_pos h5]
        have h6 := (hfar mid (by omega)).1 h5
        have h7 : f 0 < f ((mid + 1) % n) := by
          have : ¬ (f ((mid + 1) % n) - f mid < 0) := fun h => h4 (hm.1.2 h)
          linarith
        have h8 : mid + 1 ≠ t := by
          rintro rfl
          linarith
        have h9 : f 0 < f (mid + 1) := by rwa [Nat.mod_eq_of_lt (by omega)] at h7
        obtain ⟨k, k1, k2, k3, k4⟩ := ih (mid + 1) t (by omega) (by omega) h3 h9 ht
        exact ⟨k, k1, by omega, k3, k4⟩
      · rw [if_neg h5]
        have h6 : ¬ f 0 < f mid := fun h => h5 ((hfar mid (by omega)).2 h)
        have h7 : mid ≠ b := by rintro rfl; exact h6 hb
        obtain ⟨k, k1, k2, k3, k4⟩ := ih b mid (by omega) (by omega) (by omega) hb (by
          rw [Nat.mod_eq_of_lt (by omega)]; exact not_lt.1 h6)
        exact ⟨k, k1, k2, by omega, k4⟩

theorem dirBefore_spec (e : Nat → Int) (b : Nat) (h : ∃ k, 1 ≤ k ∧ k ≤ b ∧ e k ≠ 0) :
    ∃ k, dirBefore e b = some k ∧ 1 ≤ k ∧ k ≤ b ∧ e k ≠ 0 ∧ ∀ j, k < j → j ≤ b → e j = 0 := by
  induction b with
  | zero => obtain ⟨k, h1, h2, -⟩ := h; omega
  | succ b ih =>
    unfold dirBefore
    by_cases hb : e (b + 1) ≠ 0
    · rw [if_pos hb]
      exact ⟨b + 1, rfl, by omega, by omega, hb, fun j h1 h2 => by omega⟩
    · rw [if_neg hb]
      obtain ⟨k, h1, h2, h3⟩ := h
      have : k ≠ b + 1 := by rintro rfl; exact hb h3
      obtain ⟨k', k1, k2, k3, k4, k5⟩ := ih ⟨k, h1, by omega, h3⟩
      refine ⟨k', k1, k2, by omega, k4, fun j j1 j2 => ?_⟩
      by_cases hj : j = b + 1
      · rw [hj]; exact not_not.1 hb
      · exact k5 j j1 (by omega)

/-- `GetOppositeEdgeIndicesBisect` finds an edge in each direction. -/
theorem oppositeEdges_spec {n : Nat} {f : Nat → ℚ} {e : Nat → Int} {far : Bool → Nat → Bool}
    (hf : Bitonic n f) (he : ∀ i, i < n → SameSign (e i) (f ((i + 1) % n) - f i))
    (hfar : ∀ i, i < n → (far false i = true ↔ f 0 < f i))
    (hfar' : ∀ i, i < n → (far true i = true ↔ f i < f 0)) :
    ∃ s o, oppositeEdges n e far = some (s, o) ∧ s < n ∧ o < n ∧ 0 < e s ∧ e o < 0 := by
  obtain ⟨i0, hi0, hne⟩ := (hf (f 0)).nz
  have hn : 0 < n := by omega
  have hne' : f i0 ≠ f 0 := by
    rcases hne with h | h
    · exact ne_of_gt (by linarith)
    · exact ne_of_lt (by linarith)
  have hi00 : i0 ≠ 0 := by rintro rfl; exact hne' rfl
  have hn1 : 1 < n := by omega
  unfold oppositeEdges
  by_cases h0 : e 0 = 0
  · rw [if_pos h0]
    -- there is a last nonzero edge
    have hex : ∃ k, 1 ≤ k ∧ k ≤ n - 1 ∧ e k ≠ 0 := by
      by_contra hc
      push Not at hc
      have hall : ∀ k, k < n → e k = 0 := by
        intro k hk
        by_cases hk0 : k = 0
        · rw [hk0]; exact h0
        · exact hc k (by omega) (by omega)
      have hconst : ∀ k, k < n → f k = f 0 := by
        intro k
        induction k with
        | zero => intro _; rfl
        | succ k ih =>
          intro hk
          have := (he k (by omega)).2.1.1 (hall k (by omega))
          rw [Nat.mod_eq_of_lt hk] at this
          linarith [ih (by omega)]
      exact hne' (hconst i0 hi0)
    obtain ⟨b, hb, b1, b2, b3, b4⟩ := dirBefore_spec e (n - 1) hex
    obtain ⟨a1, a2, a3, a4⟩ := skip_spec (fun k => decide (e k = 0)) n 1 (by omega)
    rw [hb]
    simp only
    generalize skip (fun k => decide (e k = 0)) n 1 = a at *
    have hab : a ≤ b := by
      by_contra hc
      have := a3 b b1 (by omega)
      simp only [decide_eq_true_eq] at this
      exact b3 this
    rw [if_neg (by omega)]
    have hea : e a ≠ 0 := by simpa using a4 (by omega)
    have ea0 : ∀ k, k < a → e k = 0 := by
      intro k hk
      by_cases hk0 : k = 0
      · rw [hk0]; exact h0
      · simpa using a3 k (by omega) hk
    have fa : ∀ k, k ≤ a → f k = f 0 := by
      intro k
      induction k with
      | zero => intro _; rfl
      | succ k ih =>
        intro hk
        have := (he k (by omega)).2.1.1 (ea0 k (by omega))
        rw [Nat.mod_eq_of_lt (by omega)] at this
        linarith [ih (by omega)]
    have fb : ∀ d, d ≤ n - 1 - b → f ((n - d) % n) = f 0 := by
      intro d
      induction d with
      | zero => intro _; simp
      | succ d ih =>
        intro hd
        have := (he (n - (d + 1)) (by omega)).2.1.1 (b4 _ (by omega) (by omega))
        rw [show n - (d + 1) + 1 = n - d by omega] at this
        rw [Nat.mod_eq_of_lt (by omega)]
        linarith [ih (by omega)]
    have hfb1 : f ((b + 1) % n) = f 0 := by
      have := fb (n - 1 - b) (Nat.le_refl _)
      rwa [show n - (n - 1 - b) = b + 1 by omega] at this
    have hsb := he b (by omega)
    rw [hfb1] at hsb
    have hsa := he a (by omega)
    rw [fa a (Nat.le_refl _)] at hsa
    have hab' : a ≠ b := by
      rintro rfl
      rw [fa a (Nat.le_refl _)] at hsb
      exact b3 (hsb.2.1.2 (by ring))
    have han1 : a + 1 < n := by omega
    rw [Nat.mod_eq_of_lt han1] at hsa
    have hz := (hf (f 0)).zeros b n (n + 1) (a + 1 + n) (by omega) (by omega) (by omega)
    have f1 : f 1 = f 0 := fa 1 a1
    have m1 : (n + 1) % n = 1 := by rw [Nat.add_mod_left, Nat.mod_eq_of_lt hn1]
    have m2 : (a + 1 + n) % n = a + 1 := by rw [Nat.add_mod_right, Nat.mod_eq_of_lt han1]
    simp only [Nat.mod_self, m1, m2, Nat.mod_eq_of_lt (show b < n by omega), f1, sub_self] at hz
    have hopp : (0 < e b → e a < 0) ∧ (e b < 0 → 0 < e a) := by
      constructor
      · intro hb'
        by_contra hc
        have h1 : 0 < e a := by omega
        have g1 := hsa.2.2.1 h1
        have g2 := hsb.2.2.1 hb'
        have hne1 : a + 1 ≠ b := by intro h; rw [h] at g1; linarith
        exact (hz (by omega) trivial trivial).2 ⟨by linarith, by linarith⟩
      · intro hb'
        by_contra hc
        have h1 : e a < 0 := by omega
        have g1 := hsa.1.1 h1
        have g2 := hsb.1.1 hb'
        have hne1 : a + 1 ≠ b := by intro h; rw [h] at g1; linarith
        exact (hz (by omega) trivial trivial).1 ⟨by linarith, by linarith⟩
    by_cases hb0 : 0 < e b
    · rw [if_pos hb0]
      exact ⟨b, a, rfl, by omega, by omega, hb0, hopp.1 hb0⟩
    · rw [if_neg hb0]
      exact ⟨a, b, rfl, by omega, by omega, hopp.2 (by omega), by omega⟩
  · rw [if_neg h0]
    by_cases hneg : e 0 < 0
    · rw [if_pos hneg]
      have h1 := (he 0 hn).1.1 hneg
      rw [Nat.mod_eq_of_lt (by omega)] at h1
      obtain ⟨k, k1, k2, k3, k4⟩ := oppositeLoop_spec (n := n) (f := fun i => -f i)
        (e := fun i => -e i) (far := far true)
        (fun i hi => by
          have := (he i hi).neg
          refine (congrArg (SameSign (-e i)) ?_).mp this
          ring)
        (fun i hi => by rw [hfar' i hi]; simp)
        (n - 1) 1 n (Nat.le_refl _) hn1 (Nat.le_refl _) (by simp only [zero_add] at h1; linarith) (by simp)
      rw [k1]
      refine ⟨k, 0, rfl, k3, hn, by omega, hneg⟩
    · rw [if_neg hneg]
      have h1 := (he 0 hn).2.2.1 (by omega)
      rw [Nat.mod_eq_of_lt (by omega)] at h1
      obtain ⟨k, k1, k2, k3, k4⟩ := oppositeLoop_spec he hfar
        (n - 1) 1 n (Nat.le_refl _) hn1 (Nat.le_refl _) (by simp only [zero_add] at h1; linarith) (by simp)
      rw [k1]
      exact ⟨0, k, rfl, hn, k3, by omega, k4⟩

/-- A local maximum that is strict on the left is a global maximum. -/
theorem Bitonic.local_max {n : Nat} {f : Nat → ℚ} (hf : Bitonic n f) {t : Nat} (ht : 0 < t) (hn : 0 < n)
    (h1 : f ((t - 1) % n) < f (t % n)) (h2 : f ((t + 1) % n) ≤ f (t % n)) :
    ∀ i, i < n → f i ≤ f (t % n) := by
  intro i hi
  by_contra hc
  have hc : f (t % n) < f i := lt_of_not_ge hc
  -- a representative of `i` after `t`
  obtain ⟨k, hk1, hk2, hk3⟩ : ∃ k, t ≤ k ∧ k < t + n ∧ k % n = i := by
    refine ⟨t + (i + n - t % n) % n, by omega, by have := Nat.mod_lt (i + n - t % n) hn; omega, ?_⟩
    have hb := Nat.mod_lt t hn
    conv_lhs => rw [Nat.add_mod, Nat.mod_mod, ← Nat.mod_mod t n, ← Nat.add_mod]
    rw [Nat.mod_mod, show t % n + (i + n - t % n) = i + n by omega, Nat.add_mod_right, Nat.mod_eq_of_lt hi]
  have e1 : k ≠ t := by rintro rfl; rw [hk3] at hc; exact lt_irrefl _ hc
  have e2 : k ≠ t + 1 := by rintro rfl; rw [hk3] at h2; linarith
  have e3 : k ≠ t - 1 + n := by
    rintro rfl
    rw [Nat.add_mod_right] at hk3
    rw [hk3] at h1; linarith
  rcases lt_or_eq_of_le h2 with h2 | h2
  · -- threshold between
    have hp := (hf (max (f ((t - 1) % n)) (f ((t + 1) % n)))).pos t (t + 1) k (t - 1 + n) (by omega) (by omega)
      (by omega) (by omega)
    rw [Nat.add_mod_right, hk3] at hp
    apply hp
    refine ⟨?_, ?_, ?_, ?_⟩
    · rw [sub_pos, max_lt_iff]; exact ⟨h1, h2⟩
    · rw [sub_pos, max_lt_iff]; exact fun h => lt_irrefl _ h.2
    · rw [sub_pos, max_lt_iff]; exact ⟨by linarith, by linarith⟩
    · rw [sub_pos, max_lt_iff]; exact fun h => lt_irrefl _ h.1
  · have hz := (hf (f (t % n))).zeros (t - 1) t (t + 1) k (by omega) (by omega) (by omega) (by omega)
    rw [hk3] at hz
    exact (hz (by simp) (by rw [h2]; simp)).2 ⟨by linarith, by linarith⟩

theorem extremeLoop_spec {n : Nat} {e : Nat → Int} :
    ∀ m b t, t - b ≤ m → b < t → 0 < e (b % n) → ¬ 0 < e (t % n) →
      ∃ k, extremeLoop n e b t = k + 1 ∧ b ≤ k ∧ k < t ∧ 0 < e (k % n) ∧ ¬ 0 < e ((k + 1) % n) := by
  intro m
  induction m with
  | zero => intro b t h1 h2; omega
  | succ m ih =>
    intro b t h1 h2 hb ht
    unfold extremeLoop
    by_cases h3 : b + 1 < t
    · rw [dif_pos h3]
      have hlt : (b + t) / 2 < t := by omega
      have hge : b < (b + t) / 2 := by omega
      generalize (b + t) / 2 = mid at *
      by_cases h4 : 0 < e (mid % n)
      · rw [if_pos h4]
        obtain ⟨k, k1, k2, k3, k4⟩ := ih mid t (by omega) hlt h4 ht
        exact ⟨k, k1, by omega, k3, k4⟩
      · rw [if_neg h4]
        obtain ⟨k, k1, k2, k3, k4⟩ := ih b mid (by omega) hge hb h4
        exact ⟨k, k1, k2, by omega, k4⟩
    · rw [dif_neg h3]
      obtain rfl : t = b + 1 := by omega
      exact ⟨b, rfl, Nat.le_refl _, by omega, hb, ht⟩

/-- `GetExtremeIndexBisect` finds the first vertex of the farthest run. -/
theorem extremeIndex_spec {n : Nat} {f : Nat → ℚ} {e : Nat → Int} {far : Bool → Nat → Bool}
    (hf : Bitonic n f) (he : ∀ i, i < n → SameSign (e i) (f ((i + 1) % n) - f i))
    (hfar : ∀ i, i < n → (far false i = true ↔ f 0 < f i))
    (hfar' : ∀ i, i < n → (far true i = true ↔ f i < f 0)) :
    ∃ t, extremeIndex n e far = some t ∧ t < n ∧ (∀ i, i < n → f i ≤ f t) ∧ f ((t + n - 1) % n) < f t := by
  obtain ⟨s, o, h1, hs, ho, hes, heo⟩ := oppositeEdges_spec hf he hfar hfar'
  have hn : 0 < n := by omega
  obtain ⟨t, t1, t2, t3, t4⟩ := greaterCycle_spec (a := s) (b := o) hn (by omega)
  rw [Nat.mod_eq_of_lt ho] at t4
  have hst : s ≠ t := by
    rintro rfl
    rw [Nat.mod_eq_of_lt hs] at t4
    subst t4
    omega
  unfold extremeIndex
  rw [h1]
  simp only [t1]
  obtain ⟨k, k1, k2, k3, k4, k5⟩ := extremeLoop_spec (n := n) (e := e) (t - s) s t (Nat.le_refl _) (by omega)
    (by rwa [Nat.mod_eq_of_lt hs]) (by rw [t4]; omega)
  have m := fun i => Nat.mod_lt i hn
  have u1 : f (k % n) < f ((k + 1) % n) := by
    have := (he (k % n) (m k)).2.2.1 k4
    rw [Nat.mod_add_mod] at this
    linarith
  have u2 : f ((k + 1 + 1) % n) ≤ f ((k + 1) % n) := by
    have := mt (he ((k + 1) % n) (m _)).2.2.2 k5
    rw [Nat.mod_add_mod] at this
    linarith
  refine ⟨(k + 1) % n, by rw [k1], m _, hf.local_max (t := k + 1) (by omega) hn u1 u2, ?_⟩
  have : ((k + 1) % n + n - 1) % n = k % n := by
    have e1 : ((k + 1) % n + (n - 1)) % n = (k + 1 + (n - 1)) % n := by rw [Nat.mod_add_mod]
    rw [show (k + 1) % n + n - 1 = (k + 1) % n + (n - 1) by omega, e1,
      show k + 1 + (n - 1) = k + n by omega, Nat.add_mod_right]
  rw [this]
  exact u1

theorem posLoop_spec {n : Nat} {c e : Nat → Int} :
    ∀ m b t, t - b ≤ m → b < t → 0 < e (b % n) → ¬ 0 < e (t % n) →
      (∃ k, posLoop n c e b t = .inl k ∧ b < k ∧ k < t ∧ 0 < c (k % n)) ∨
      (∃ k, posLoop n c e b t = .inr (k + 1) ∧ b ≤ k ∧ k < t ∧ 0 < e (k % n) ∧ ¬ 0 < e ((k + 1) % n)) := by
  intro m
  induction m with
  | zero => intro b t h1 h2; omega
  | succ m ih =>
    intro b t h1 h2 hb ht
    unfold posLoop
    by_cases h3 : b + 1 < t
    · rw [dif_pos h3]
      have hlt : (b + t) / 2 < t := by omega
      have hge : b < (b + t) / 2 := by omega
      generalize (b + t) / 2 = mid at *
      by_cases h5 : 0 < c (mid % n)
      · rw [if_pos h5]
        exact Or.inl ⟨mid, rfl, hge, hlt, h5⟩
      · rw [if_neg h5]
        by_cases h4 : 0 < e (mid % n)
        · rw [if_pos h4]
          rcases ih mid t (by omega) hlt h4 ht with ⟨k, k1, k2, k3, k4⟩ | ⟨k, k1, k2, k3, k4⟩
          · exact Or.inl ⟨k, k1, by omega, k3, k4⟩
          · exact Or.inr ⟨k, k1, by omega, k3, k4⟩
        · rw [if_neg h4]
          rcases ih b mid (by omega) hge hb h4 with ⟨k, k1, k2, k3, k4⟩ | ⟨k, k1, k2, k3, k4⟩
          · exact Or.inl ⟨k, k1, k2, by omega, k4⟩
          · exact Or.inr ⟨k, k1, k2, by omega, k4⟩
    · rw [dif_neg h3]
      obtain rfl : t = b + 1 := by omega
      exact Or.inr ⟨b, rfl, Nat.le_refl _, by omega, hb, ht⟩

/-- `GetPosSideVertex`: a vertex on the positive side, or the maximum. -/
theorem posSide_spec {n : Nat} {f : Nat → ℚ} {c e : Nat → Int}
    (hf : Bitonic n f) (hc : ∀ i, i < n → SameSign (c i) (f i))
    (he : ∀ i, i < n → SameSign (e i) (f ((i + 1) % n) - f i))
    {s o : Nat} (hs : s < n) (ho : o < n) (hes : 0 < e s) (heo : e o < 0) :
    ∃ ty k, posSide n c e s o = some (ty, k) ∧ (s < o → s < k ∧ k ≤ o) ∧ (o < s → k < o + n) ∧
      ((0 < ty ∧ 0 < c (k % n)) ∨
       (ty ≤ 0 ∧ k < n ∧ ty = c k ∧ (∀ i, i < n → f i ≤ f k) ∧ f ((k + n - 1) % n) < f k)) := by
  have hn : 0 < n := by omega
  obtain ⟨t, t1, t2, t3, t4⟩ := greaterCycle_spec (a := s) (b := o) hn (by omega)
  rw [Nat.mod_eq_of_lt ho] at t4
  have hst : s ≠ t := by
    rintro rfl
    rw [Nat.mod_eq_of_lt hs] at t4
    subst t4
    omega
  have hto : (s < o → t = o) ∧ (o < s → t = o + n) := by
    constructor
    · intro h
      by_cases htn : t < n
      · rwa [Nat.mod_eq_of_lt htn] at t4
      · rw [Nat.mod_eq_sub_mod (by omega), Nat.mod_eq_of_lt (by omega)] at t4; omega
    · intro h
      by_cases htn : t < n
      · rw [Nat.mod_eq_of_lt htn] at t4; omega
      · rw [Nat.mod_eq_sub_mod (by omega), Nat.mod_eq_of_lt (by omega)] at t4; omega
  unfold posSide
  simp only [t1]
  have m := fun i => Nat.mod_lt i hn
  rcases posLoop_spec (n := n) (c := c) (e := e) (t - s) s t (Nat.le_refl _) (by omega)
    (by rwa [Nat.mod_eq_of_lt hs]) (by rw [t4]; omega) with ⟨k, k1, k2, k3, k4⟩ | ⟨k, k1, k2, k3, k4, k5⟩
  · rw [k1]
    exact ⟨1, k, rfl, fun h => by have := hto.1 h; omega, fun h => by have := hto.2 h; omega,
      Or.inl ⟨by omega, k4⟩⟩
  · rw [k1]
    refine ⟨_, _, rfl, fun h => ?_, fun h => by have := m (k + 1); omega, ?_⟩
    · have := hto.1 h
      rw [Nat.mod_eq_of_lt (by omega)]
      omega
    · by_cases hpos : 0 < c ((k + 1) % n)
      · left
        exact ⟨hpos, by rwa [Nat.mod_mod]⟩
      · right
        have u1 : f (k % n) < f ((k + 1) % n) := by
          have := (he (k % n) (m k)).2.2.1 k4
          rw [Nat.mod_add_mod] at this
          linarith
        have u2 : f ((k + 1 + 1) % n) ≤ f ((k + 1) % n) := by
          have := mt (he ((k + 1) % n) (m _)).2.2.2 k5
          rw [Nat.mod_add_mod] at this
          linarith
        refine ⟨by omega, m _, rfl, hf.local_max (t := k + 1) (by omega) hn u1 u2, ?_⟩
        have : ((k + 1) % n + n - 1) % n = k % n := by
          have e1 : ((k + 1) % n + (n - 1)) % n = (k + 1 + (n - 1)) % n := by rw [Nat.mod_add_mod]
          rw [show (k + 1) % n + n - 1 = (k + 1) % n + (n - 1) by omega, e1,
            show k + 1 + (n - 1) = k + n by omega, Nat.add_mod_right]
        rw [this]
        exact u1

theorem lastNegLoop_spec {n : Nat} {c : Nat → Int} :
    ∀ m b bt t, t - b ≤ m → b < t → (bt = 0 ↔ c (b % n) = 0) → c (b % n) ≤ 0 → 0 < c (t % n) →
      ∃ qt k, lastNegLoop n c b bt t = (qt, k % n) ∧ (qt = 0 ↔ c (k % n) = 0) ∧ c (k % n) ≤ 0 ∧
        0 < c ((k + 1) % n) := by
  intro m
  induction m with
  | zero => intro b bt t h1 h2; omega
  | succ m ih =>
    intro b bt t h1 h2 hbt hb ht
    unfold lastNegLoop
    by_cases h3 : b + 1 < t
    · rw [dif_pos h3]
      have hlt : (b + t) / 2 < t := by omega
      have hge : b < (b + t) / 2 := by omega
      generalize (b + t) / 2 = mid at *
      by_cases h4 : c (mid % n) ≤ 0
      · rw [if_pos h4]
        exact ih mid _ t (by omega) hlt Iff.rfl h4 ht
      · rw [if_neg h4]
        exact ih b bt mid (by omega) hge hbt hb (by omega)
    · rw [dif_neg h3]
      obtain rfl : t = b + 1 := by omega
      exact ⟨bt, b, rfl, hbt, hb, ht⟩

/-- `GetLastNegSideVertex`: the last vertex before the positive run. -/
theorem lastNeg_spec {n : Nat} {c : Nat → Int} {i j : Nat} (hn : 0 < n) (hij : i ≤ j + n)
    (hi : c (i % n) < 0) (hj : 0 < c (j % n)) :
    ∃ qt q, lastNeg n c i (-1) j = some (qt, q) ∧ q < n ∧ (qt = 0 ↔ c q = 0) ∧ c q ≤ 0 ∧
      0 < c ((q + 1) % n) := by
  obtain ⟨t, t1, t2, t3, t4⟩ := greaterCycle_spec (a := i) (b := j) hn hij
  have hit : i ≠ t := by
    rintro rfl
    rw [t4] at hi
    omega
  obtain ⟨qt, k, k1, k2, k3, k4⟩ := lastNegLoop_spec (n := n) (c := c) (t - i) i (-1) t (Nat.le_refl _)
    (by omega) (by omega) (by omega) (by rwa [t4])
  refine ⟨qt, k % n, ?_, Nat.mod_lt _ hn, k2, k3, by rwa [Nat.mod_add_mod]⟩
  unfold lastNeg
  rw [t1]
  simp only
  rw [if_neg (by omega), k1]

theorem skipOn_spec {n : Nat} {c : Nat → Int} :
    ∀ fuel i, (∃ k, i < k ∧ k ≤ i + fuel ∧ c (k % n) ≠ 0) →
      ∃ k, skipOn n c i fuel = some k ∧ i < k ∧ k ≤ i + fuel ∧ c (k % n) ≠ 0 ∧
        ∀ j, i < j → j < k → c (j % n) = 0 := by
  intro fuel
  induction fuel with
  | zero => rintro i ⟨k, h1, h2, -⟩; omega
  | succ fuel ih =>
    rintro i ⟨k, h1, h2, h3⟩
    unfold skipOn
    by_cases h : c ((i + 1) % n) = 0
    · rw [if_pos h]
      have : k ≠ i + 1 := by rintro rfl; exact h3 h
      obtain ⟨k', k1, k2, k3, k4, k5⟩ := ih (i + 1) ⟨k, by omega, by omega, h3⟩
      refine ⟨k', k1, by omega, by omega, k4, fun j j1 j2 => ?_⟩
      by_cases hj : j = i + 1
      · rw [hj]; exact h
      · exact k5 j (by omega) j2
    · rw [if_neg h]
      exact ⟨i + 1, rfl, by omega, by omega, h, fun j j1 j2 => by omega⟩

/-- Every vertex has a representative in a window of `n` indices. -/
theorem exists_rep {n : Nat} (a i : Nat) (hi : i < n) : ∃ k, a ≤ k ∧ k < a + n ∧ k % n = i := by
  have hn : 0 < n := by omega
  refine ⟨a + (i + n - a % n) % n, by omega, by have := Nat.mod_lt (i + n - a % n) hn; omega, ?_⟩
  have hb := Nat.mod_lt a hn
  conv_lhs => rw [Nat.add_mod, Nat.mod_mod, ← Nat.mod_mod a n, ← Nat.add_mod]
  rw [Nat.mod_mod, show a % n + (i + n - a % n) = i + n by omega, Nat.add_mod_right, Nat.mod_eq_of_lt hi]

/-- A cyclic range described on a window. -/
theorem inRange_window {n a b : Nat} {P : Nat → Prop} (_hw : b ≤ a + n)
    (h1 : ∀ k, a ≤ k → k < b → P (k % n)) (h2 : ∀ k, b ≤ k → k < a + n → ¬ P (k % n)) :
    ∀ i, i < n → (P i ↔ InRange (a, b) n i) := by
  intro i hi
  constructor
  · intro h
    obtain ⟨k, k1, k2, k3⟩ := exists_rep a i hi
    refine ⟨k, k1, ?_, k3⟩
    by_contra hc
    exact h2 k (by simp only at hc; omega) k2 (k3 ▸ h)
  · rintro ⟨k, k1, k2, rfl⟩
    exact h1 k k1 k2

/-- The negative run: `p` is the last vertex before it, `q` the last vertex before the
positive run. -/
theorem neg_run {n : Nat} {c : Nat → Int} (hp : Pattern n c) {p q pq : Nat} (hpn : p < n)
    (cp : 0 ≤ c p) (cp1 : c ((p + 1) % n) < 0) (cq : c q ≤ 0)
    (cq1 : 0 < c ((q + 1) % n)) (h1 : p ≤ pq) (h2 : pq < p + n) (h3 : pq % n = q) :
    p + 1 ≤ pq + (if c q ≠ 0 then 1 else 0) ∧ pq + (if c q ≠ 0 then 1 else 0) ≤ p + 1 + n ∧
    ∀ i, i < n → (c i < 0 ↔ InRange (p + 1, pq + if c q ≠ 0 then 1 else 0) n i) := by
  have hpm : p % n = p := Nat.mod_eq_of_lt hpn
  have hpq : pq ≠ p := by
    rintro rfl
    rw [hpm] at h3
    subst h3
    omega
  have hq1 : (pq + 1) % n = (q + 1) % n := by rw [← h3, Nat.mod_add_mod]
  have hpn' : (p + n) % n = p := by rw [Nat.add_mod_right, hpm]
  by_cases hq0 : c q = 0
  · simp only [hq0, ne_eq, not_true, if_false, Nat.add_zero]
    have hpq1 : pq ≠ p + 1 := by
      rintro rfl
      rw [h3] at cp1
      omega
    refine ⟨by omega, by omega, inRange_window (by omega) (fun k k1 k2 => ?_) (fun k k1 k2 => ?_)⟩
    · by_contra hc
      have hk : k ≠ p + 1 := by rintro rfl; exact hc cp1
      by_cases hk0 : c (k % n) = 0
      · exact (hp.zeros (p + 1) k pq (pq + 1) (by omega) (by omega) (by omega) (by omega) hk0
          (by rw [h3]; exact hq0)).2 ⟨cp1, by rw [hq1]; exact cq1⟩
      · refine hp.pos k pq (pq + 1) (p + 1 + n) (by omega) (by omega) (by omega) (by omega)
          ⟨by omega, by rw [h3]; omega, by rw [hq1]; exact cq1, ?_⟩
        rw [Nat.add_mod_right]
        omega
    · intro hk
      have e1 : k ≠ pq := by rintro rfl; rw [h3] at hk; omega
      have e2 : k ≠ p + n := by rintro rfl; rw [hpn'] at hk; omega
      exact hp.neg (p + 1) pq k (p + n) (by omega) (by omega) (by omega) (by omega)
        ⟨cp1, by rw [h3]; omega, hk, by rw [hpn']; omega⟩
  · simp only [hq0, ne_eq, not_false_iff, if_true]
    refine ⟨by omega, by omega, inRange_window (by omega) (fun k k1 k2 => ?_) (fun k k1 k2 => ?_)⟩
    · by_contra hc
      have hk : k ≠ p + 1 := by rintro rfl; exact hc cp1
      have hk' : k ≠ pq := by rintro rfl; rw [h3] at hc; omega
      exact hp.neg (p + 1) k pq (pq + 1) (by omega) (by omega) (by omega) (by omega)
        ⟨cp1, hc, by rw [h3]; omega, by rw [hq1]; omega⟩
    · intro hk
      have e1 : k ≠ pq + 1 := by rintro rfl; rw [hq1] at hk; omega
      have e2 : k ≠ p + n := by rintro rfl; rw [hpn'] at hk; omega
      exact hp.neg pq (pq + 1) k (p + n) (by omega) (by omega) (by omega) (by omega)
        ⟨by rw [h3]; omega, by rw [hq1]; omega, hk, by rw [hpn']; omega⟩

theorem Pattern.neg_int {n : Nat} {c : Nat → Int} (h : Pattern n c) : Pattern n fun i => -c i := by
  obtain ⟨⟨i, hi, h1⟩, h2, h3, h4⟩ := h
  refine ⟨⟨i, hi, ?_⟩, ?_, ?_, ?_⟩
  · omega
  · intro a b c d; simpa using h3 a b c d
  · intro a b c d; simpa using h2 a b c d
  · intro a b x d k1 k2 k3 k4 k5 k6
    have := h4 a b x d k1 k2 k3 k4 (by omega) (by omega)
    constructor <;> omega

/-- All vertices on one closed side, touching the line: the zeros are one run starting
at `k`. -/
theorem touching {n : Nat} {c : Nat → Int} (hp : Pattern n c) {k : Nat} (hk : k < n) (hck : c k = 0)
    (hall : ∀ i, i < n → 0 ≤ c i) (hprev : c ((k + n - 1) % n) ≠ 0) :
    ∃ x, skipOn n c k n = some x ∧ x ≤ k + n ∧ k + n ≤ x + n ∧
      ∀ i, i < n → (0 < c i ↔ InRange (x, k + n) n i) := by
  have hn : 0 < n := by omega
  have m := fun i => Nat.mod_lt i hn
  have hn1 : n ≠ 1 := by
    rintro rfl
    obtain rfl : k = 0 := by omega
    exact hprev (by simpa using hck)
  obtain ⟨x, x1, x2, x3, x4, x5⟩ := skipOn_spec (n := n) (c := c) n k ⟨k + n - 1, by omega, by omega, hprev⟩
  have hx : x ≤ k + n - 1 := by
    by_contra hc
    exact hprev (x5 (k + n - 1) (by omega) (by omega))
  refine ⟨x, x1, by omega, by omega, inRange_window (by omega) (fun j j1 j2 => ?_) (fun j j1 j2 => ?_)⟩
  · by_contra hc
    have hj0 : c (j % n) = 0 := by have := hall _ (m j); omega
    have e1 : j ≠ x := by rintro rfl; exact x4 hj0
    have e2 : j ≠ k + n - 1 := by rintro rfl; exact hprev hj0
    have p1 := hall _ (m x)
    have p2 := hall _ (m (k + n - 1))
    refine hp.pos x j (k + n - 1) (k + n) (by omega) (by omega) (by omega) (by omega)
      ⟨by omega, by omega, by omega, ?_⟩
    rw [Nat.add_mod_right, Nat.mod_eq_of_lt hk]
    omega
  · have : c (j % n) = 0 := by
      rw [Nat.mod_eq_sub_mod (by omega)]
      by_cases h : j = k + n
      · subst h
        rw [Nat.add_sub_cancel, Nat.mod_eq_of_lt hk]
        exact hck
      · exact x5 (j - n) (by omega) (by omega)
    omega

theorem full_range {n a i : Nat} (hi : i < n) : InRange (a, a + n) n i := by
  obtain ⟨k, k1, k2, k3⟩ := exists_rep a i hi
  exact ⟨k, k1, k2, k3⟩

theorem empty_range {n i : Nat} : ¬ InRange (0, 0) n i := by
  rintro ⟨k, -, k2, -⟩
  simp at k2

/-- `FindSplitRangesBisect`. -/
theorem bisect_spec {n : Nat} {f : Nat → ℚ} {c cn e en : Nat → Int} {far : Bool → Nat → Bool}
    (hf : Bitonic n f) (hc : ∀ i, i < n → SameSign (c i) (f i))
    (he : ∀ i, i < n → SameSign (e i) (f ((i + 1) % n) - f i))
    (hcn : ∀ i, cn i = -c i) (hen : ∀ i, en i = -e i)
    (hfar : ∀ i, i < n → (far false i = true ↔ f 0 < f i))
    (hfar' : ∀ i, i < n → (far true i = true ↔ f i < f 0)) :
    ∃ r, bisect n c cn e en far = some r ∧ RangesOK n c r := by
  obtain ⟨s, o, h1, hs, ho, hes, heo⟩ := oppositeEdges_spec hf he hfar hfar'
  have hn : 0 < n := by omega
  have m := fun i => Nat.mod_lt i hn
  have hp : Pattern n c := hf.pattern.of_sign hn hc
  have hcn' : cn = fun i => -c i := funext hcn
  unfold bisect
  rw [h1]
  simp only
  obtain ⟨nt, ni, g1, g2, g3, g4⟩ := posSide_spec (c := cn) (e := en) hf.neg
    (fun i hi => by rw [hcn]; exact (hc i hi).neg)
    (fun i hi => by
      rw [hen]
      have := (he i hi).neg
      refine (congrArg (SameSign (-e i)) ?_).mp this
      ring)
    ho hs (by rw [hen]; omega) (by rw [hen]; omega)
  rw [g1]
  simp only
  rcases g4 with ⟨g4, g5⟩ | ⟨g4, g5, g6, g7, g8⟩
  swap
  · -- everything on the positive side
    rw [if_pos (by omega)]
    rw [hcn] at g6
    have hall : ∀ i, i < n → f ni ≤ f i := fun i hi => by have := g7 i hi; linarith
    by_cases hnt : nt = 0
    · rw [if_pos (by omega)]
      have hz : c ni = 0 := by omega
      have hfz := (hc ni g5).2.1.1 hz
      obtain ⟨x, x1, x2, x3, x4⟩ := touching hp g5 hz
        (fun i hi => by
          have := mt (hc i hi).1.1
          have h' := hall i hi
          by_contra hneg
          have := (hc i hi).1.1 (by omega)
          linarith)
        (fun h => by
          have := (hc _ (m _)).2.1.1 h
          rw [this] at g8
          linarith)
      rw [x1]
      refine ⟨_, rfl, ⟨by simp, by simp only; omega, fun i hi => ⟨fun h => ?_, fun h => absurd h empty_range⟩,
        x4, ?_⟩⟩
      · have := (hc i hi).1.1 h
        have := hall i hi
        linarith
      · simp only [Ranges.isValid, Ranges.emitNeg, Ranges.emitPos]
        simp
        omega
    · rw [if_neg (by omega)]
      have hfp := (hc ni g5).2.2.1 (by omega)
      refine ⟨_, rfl, ⟨by simp, by simp, fun i hi => ⟨fun h => ?_, fun h => absurd h empty_range⟩,
        fun i hi => ⟨fun _ => full_range hi, fun _ => ?_⟩, ?_⟩⟩
      · have := (hc i hi).1.1 h
        have := hall i hi
        linarith
      · have := hall i hi
        exact (hc i hi).2.2.2 (by linarith)
      · simp [Ranges.isValid, Ranges.emitNeg]
  · rw [if_neg (by omega)]
    rw [hcn] at g5
    have hneg : c (ni % n) < 0 := by omega
    obtain ⟨pt, pi, k1, k2, k3, k4⟩ := posSide_spec hf hc he hs ho hes heo
    rw [k1]
    simp only
    rcases k4 with ⟨k4, k5⟩ | ⟨k4, k5, k6, k7, k8⟩
    swap
    · -- everything on the negative side
      rw [if_pos k4]
      by_cases hpt : pt = 0
      · rw [if_pos hpt]
        have hz : c pi = 0 := by omega
        have hfz := (hc pi k5).2.1.1 hz
        obtain ⟨x, x1, x2, x3, x4⟩ := touching (c := fun i => -c i) hp.neg_int k5 (by omega)
          (fun i hi => by
            have h' := k7 i hi
            by_contra hpos
            have := (hc i hi).2.2.1 (by omega)
            linarith)
          (fun h => by
            have := (hc _ (m (pi + n - 1))).2.1.1 (by omega)
            rw [this] at k8
            linarith)
        have hsk : ∀ fuel i, skipOn n (fun i => -c i) i fuel = skipOn n c i fuel := by
          intro fuel
          induction fuel with
          | zero => intro i; rfl
          | succ fuel ih => intro i; simp only [skipOn, Int.neg_eq_zero, ih]
        rw [hsk] at x1
        rw [x1]
        refine ⟨_, rfl, ⟨by simp only; omega, by simp, ?_,
          fun i hi => ⟨fun h => ?_, fun h => absurd h empty_range⟩, ?_⟩⟩
        · intro i hi
          rw [← x4 i hi]
          omega
        · have := (hc i hi).2.2.1 h
          have := k7 i hi
          linarith
        · simp only [Ranges.isValid, Ranges.emitNeg, Ranges.emitPos]
          simp
          omega
      · rw [if_neg hpt]
        have hfp := (hc pi k5).1.1 (by omega)
        refine ⟨_, rfl, ⟨by simp, by simp, fun i hi => ⟨fun _ => full_range hi, fun _ => ?_⟩,
          fun i hi => ⟨fun h => ?_, fun h => absurd h empty_range⟩, ?_⟩⟩
        · have := k7 i hi
          exact (hc i hi).1.2 (by linarith)
        · have := (hc i hi).2.2.1 h
          have := k7 i hi
          linarith
        · simp [Ranges.isValid, Ranges.emitPos]
    · rw [if_neg (by omega)]
      have hso : s ≠ o := by rintro rfl; omega
      have b1 : ni ≤ pi + n := by
        rcases Nat.lt_or_ge s o with h | h
        · have := k2 h; have := g3 h; omega
        · have := g2 (by omega); have := k3 (by omega); omega
      have b2 : pi ≤ ni + n := by
        rcases Nat.lt_or_ge s o with h | h
        · have := k2 h; have := g3 h; omega
        · have := g2 (by omega); have := k3 (by omega); omega
      obtain ⟨qt, q, q1, q2, q3, q4, q5⟩ := lastNeg_spec hn b1 hneg k5
      obtain ⟨pt', p, p1, p2, p3, p4, p5⟩ := lastNeg_spec (c := cn) (i := pi) (j := ni) hn b2
        (by rw [hcn]; omega) (by rw [hcn]; omega)
      rw [hcn] at p3 p4 p5
      obtain ⟨pq, r1, r2, r3, r4⟩ := greaterCycle_spec (a := p) (b := q) hn (by omega)
      obtain ⟨qp, u1, u2, u3, u4⟩ := greaterCycle_spec (a := q) (b := p) hn (by omega)
      rw [Nat.mod_eq_of_lt q2] at r4
      rw [Nat.mod_eq_of_lt p2] at u4
      rw [q1, p1]
      simp only
      rw [r1, u1]
      simp only
      have n1 := neg_run hp p2 (by omega) (by omega) q4 q5 r2 r3 r4
      have n2 := neg_run (c := fun i => -c i) hp.neg_int q2 (by omega) (by omega) (by omega) (by omega)
        u2 u3 u4
      have eq1 : (if qt ≠ 0 then 1 else 0 : Nat) = if c q ≠ 0 then 1 else 0 := by simp only [ne_eq, q3]
      have eq2 : (if -pt' ≠ 0 then 1 else 0 : Nat) = if -c p ≠ 0 then 1 else 0 := by
        simp only [ne_eq, Int.neg_eq_zero, p3]
      refine ⟨_, rfl, ?_⟩
      rw [eq1, eq2]
      have n2' : ∀ i, i < n → (0 < c i ↔ InRange (q + 1, qp + if -c p ≠ 0 then 1 else 0) n i) := by
        intro i hi
        rw [← n2.2.2 i hi]
        omega
      refine ⟨⟨n1.1, n1.2.1⟩, ⟨n2.1, n2.2.1⟩, n1.2.2, n2', ?_⟩
      simp only [Ranges.isValid, Bool.and_eq_true, Bool.or_eq_true, decide_eq_true_eq]
      refine ⟨⟨⟨⟨n1.1, n1.2.1⟩, n2.1⟩, n2.2.1⟩, Or.inr ⟨?_, ?_⟩⟩
      · have : (pq + 1) % n = (q + 1) % n := by rw [← r4, Nat.mod_add_mod]
        split
        · left; exact this
        · right; exact this
      · have : (qp + 1) % n = (p + 1) % n := by rw [← u4, Nat.mod_add_mod]
        split
        · left; exact this
        · right; exact this

end Walnut.Poly
