/-
Half-edges around a line in the order of their angles: if neighbours less than half a turn apart
alternate, and there are as many of one kind as of the other, then all neighbours do.
-/
import Verif.Conn.Model
import Mathlib.Data.List.GetD
import Mathlib.Analysis.SpecialFunctions.Trigonometric.Basic
import Mathlib.Algebra.BigOperators.Intervals
import Mathlib.Algebra.Order.BigOperators.Group.Finset

namespace Walnut.Conn
open Real

theorem parity_clash {n k : ℕ} {s : ℕ → Bool} (he : Even n) (hk : k < n) (h1 : ∀ i < n, i ≠ k → s i ≠ s ((i + 1) % n)) (h2 : s k = s ((k + 1) % n)) : False := by
  obtain ⟨m, rfl⟩ : ∃ m, n = m + 1 := ⟨n - 1, by omega⟩
  let σ : ℕ → ℤ := fun i => if s i then 1 else -1
  have sq : ∀ i, σ i * σ i = 1 := fun i => by simp only [σ]; split_ifs <;> norm_num
  have shift : ∏ i ∈ Finset.range (m + 1), σ ((i + 1) % (m + 1)) = ∏ i ∈ Finset.range (m + 1), σ i := by
    rw [Finset.prod_range_succ, Finset.prod_range_succ' σ m, Nat.mod_self]
    congr 1
    refine Finset.prod_congr rfl fun i hi => ?_
    rw [Nat.mod_eq_of_lt (by have := Finset.mem_range.1 hi; omega)]
  have one : ∏ i ∈ Finset.range (m + 1), (σ i * σ ((i + 1) % (m + 1))) = 1 := by
    rw [Finset.prod_mul_distrib, shift, ← Finset.prod_mul_distrib]
    exact Finset.prod_eq_one fun i _ => sq i
  have other : ∏ i ∈ Finset.range (m + 1), (σ i * σ ((i + 1) % (m + 1))) = ∏ i ∈ Finset.range (m + 1), ((-1) * (if i = k then -1 else 1) : ℤ) := by
    refine Finset.prod_congr rfl fun i hi => ?_
    split_ifs with hik
    · subst hik
      simp only [σ]; rw [← h2]
      split_ifs <;> norm_num
    · have := h1 i (Finset.mem_range.1 hi) hik
      simp only [σ]
      cases h : s i <;> cases h' : s ((i + 1) % (m + 1)) <;> simp_all
  rw [other, Finset.prod_mul_distrib, Finset.prod_const, Finset.card_range, he.neg_one_pow, one_mul, Finset.prod_ite_eq', if_pos (Finset.mem_range.2 hk)] at one
  norm_num at one

/-- The statement for functions of the positions. -/
theorem alt_core {n : ℕ} {T : ℕ → ℝ} {s : ℕ → Bool} (hT : ∀ i < n, 0 ≤ T i ∧ T i < 2 * π) (hs : ∀ i j, i < j → j < n → T i < T j ∨ (T i = T j ∧ s i = true ∧ s j = false))
    (hb : ((Finset.range n).filter fun i => s i = true).card = ((Finset.range n).filter fun i => s i = false).card)
    (h1 : ∀ i, i + 1 < n → T i < T (i + 1) → T (i + 1) < T i + π → s i ≠ s (i + 1)) (h2 : 0 < n → T 0 + 2 * π < T (n - 1) + π → s (n - 1) ≠ s 0) :
    ∀ i < n, s i ≠ s ((i + 1) % n) := by
  have hpi := pi_pos
  have he : Even n := by
    have := Finset.card_filter_add_card_filter_not (s := Finset.range n) (p := fun i => s i = true)
    rw [Finset.card_range] at this
    have e : (Finset.range n).filter (fun i => ¬ s i = true) = (Finset.range n).filter fun i => s i = false := by
      refine Finset.filter_congr fun i _ => ?_
      simp
    rw [e, ← hb] at this
    exact ⟨_, this.symm⟩
  have mono : ∀ i j, i ≤ j → j < n → T i ≤ T j := by
    intro i j hij hj
    rcases hij.eq_or_lt with rfl | hij
    · exact le_rfl
    · rcases hs i j hij hj with h | h
      · exact h.le
      · exact h.1.le
  have bad1 : ∀ i, i + 1 < n → s i = s ((i + 1) % n) → T i + π ≤ T (i + 1) := by
    intro i hi hsi
    rw [Nat.mod_eq_of_lt hi] at hsi
    by_contra hc
    push Not at hc
    rcases hs i (i + 1) (by omega) hi with h | ⟨_, h, h'⟩
    · exact h1 i hi h hc hsi
    · rw [h, h'] at hsi; exact absurd hsi (by decide)
  have bad2 : ∀ i, i + 1 = n → s i = s ((i + 1) % n) → T (n - 1) ≤ T 0 + π := by
    intro i hi hsi
    have hi' : i = n - 1 := by omega
    rw [hi, Nat.mod_self, hi'] at hsi
    by_contra hc
    push Not at hc
    exact h2 (by omega) (by linarith) hsi
  intro k hk hbad
  by_cases hu : ∀ i < n, i ≠ k → s i ≠ s ((i + 1) % n)
  · exact parity_clash he hk hu hbad
  push Not at hu
  obtain ⟨j, hj, hjk, hjb⟩ := hu
  -- two such pairs
  have two : ∀ j k, j < k → k < n → s j = s ((j + 1) % n) → s k = s ((k + 1) % n) → False := by
    intro j k hjk hk hj hkb
    have b1 := bad1 j (by omega) hj
    by_cases hkn : k + 1 < n
    · have b2 := bad1 k hkn hkb
      have := mono (j + 1) k (by omega) hk
      have := (hT j (by omega)).1
      have := (hT (k + 1) hkn).2
      linarith
    have b2 := bad2 k (by omega) hkb
    have m1 := mono 0 j (by omega) (by omega)
    have m2 := mono (j + 1) (n - 1) (by omega) (by omega)
    have e1 : T 0 = T j := by linarith
    have e2 : T (j + 1) = T (n - 1) := by linarith
    have j1 : j ≤ 1 := by
      by_contra hc
      have m3 := mono 0 1 (by omega) (by omega)
      have m4 := mono 1 j (by omega) (by omega)
      rcases hs 0 1 (by omega) (by omega) with h | ⟨_, _, h⟩
      · linarith
      rcases hs 1 j (by omega) (by omega) with h' | ⟨_, h', _⟩
      · linarith
      rw [h] at h'; exact absurd h' (by decide)
    have n1 : n ≤ j + 3 := by
      by_contra hc
      have m3 := mono (j + 1) (j + 2) (by omega) (by omega)
      have m4 := mono (j + 2) (n - 1) (by omega) (by omega)
      rcases hs (j + 1) (j + 2) (by omega) (by omega) with h | ⟨_, _, h⟩
      · linarith
      rcases hs (j + 2) (n - 1) (by omega) (by omega) with h' | ⟨_, h', _⟩
      · linarith
      rw [h] at h'; exact absurd h' (by decide)
    obtain ⟨q, hq⟩ := he
    have hcase : (j = 0 ∧ n = 2) ∨ (j = 1 ∧ n = 4) := by omega
    rcases hcase with ⟨rfl, rfl⟩ | ⟨rfl, rfl⟩
    · have h01 : s 0 = s 1 := by simpa using hj
      rw [show Finset.range 2 = {0, 1} from rfl, Finset.filter_insert, Finset.filter_insert, Finset.filter_singleton, Finset.filter_singleton, ← h01] at hb
      cases h : s 0 <;> simp [h] at hb
    · have h12 : s 1 = s 2 := by simpa using hj
      rcases hs 0 1 (by omega) (by omega) with h | ⟨_, _, h⟩
      · linarith
      rcases hs 2 3 (by omega) (by omega) with h' | ⟨_, h', _⟩
      · have : T (1 + 1) = T (4 - 1) := e2
        norm_num at this
        linarith
      rw [h, h'] at h12; exact absurd h12 (by decide)
  rcases lt_or_gt_of_ne hjk with h | h
  · exact two j k h hk hjb hbad
  · exact two k j h hj hbad hjb

theorem sin_pos_cases {x : ℝ} (h : 0 < sin x) (h1 : -(2 * π) < x) (h2 : x < 2 * π) : (0 < x ∧ x < π) ∨ (-(2 * π) < x ∧ x < -π) := by
  have hpi := pi_pos
  rcases lt_or_ge x (-π) with c | c
  · exact Or.inr ⟨h1, c⟩
  rcases le_or_gt x 0 with c' | c'
  · have := sin_nonpos_of_nonpos_of_neg_pi_le c' c
    linarith
  rcases lt_or_ge x π with c'' | c''
  · exact Or.inl ⟨c', c''⟩
  · have h3 : sin (x - 2 * π) = sin x := sin_sub_two_pi x
    have := sin_nonpos_of_nonpos_of_neg_pi_le (show x - 2 * π ≤ 0 by linarith) (by linarith)
    linarith

theorem cyclic_alt {l : List ℕ} {θ : ℕ → ℝ} {pos : ℕ → Bool} (hn : l.Nodup) (hθ : ∀ a ∈ l, 0 ≤ θ a ∧ θ a < 2 * π)
    (hs : l.Pairwise fun a b => θ a < θ b ∨ (θ a = θ b ∧ pos a = true ∧ pos b = false)) (hb : l.countP (fun a => pos a) = l.countP fun a => !pos a)
    (ha : ∀ e ∈ l, ∀ f ∈ l, pos e = pos f → 0 < sin (θ f - θ e) → (∀ g ∈ l, 0 < sin (θ g - θ e) → 0 < sin (θ f - θ g) → False) →
      (∀ g ∈ l, pos g = !pos e → θ g = θ (if pos e then e else f) → False) → False) : ∀ e f, succIn l e = some f → pos e ≠ pos f := by
  have hpi := pi_pos
  set n := l.length with hnl
  have mem : ∀ i, i < n → l.getD i 0 ∈ l := fun i hi => by
    rw [List.getD_eq_getElem _ _ hi]; exact List.getElem_mem hi
  have idx : ∀ g ∈ l, ∃ i < n, l.getD i 0 = g := fun g hg => by
    obtain ⟨i, hi, e⟩ := List.getElem_of_mem hg
    exact ⟨i, hi, by rw [List.getD_eq_getElem _ _ hi, e]⟩
  have ord : ∀ i j, i < j → j < n → θ (l.getD i 0) < θ (l.getD j 0) ∨ (θ (l.getD i 0) = θ (l.getD j 0) ∧ pos (l.getD i 0) = true ∧ pos (l.getD j 0) = false) := by
    intro i j hij hj
    rw [List.getD_eq_getElem _ _ hj, List.getD_eq_getElem _ _ (by omega : i < l.length)]
    exact List.pairwise_iff_getElem.1 hs i j (by omega) hj hij
  have mono : ∀ i j, i ≤ j → j < n → θ (l.getD i 0) ≤ θ (l.getD j 0) := by
    intro i j hij hj
    rcases hij.eq_or_lt with rfl | hij
    · exact le_rfl
    · rcases ord i j hij hj with h | h
      · exact h.le
      · exact h.1.le
  have cnt : ∀ p : ℕ → Bool, l.countP p = ((Finset.range n).filter fun i => p (l.getD i 0) = true).card := by
    intro p
    rw [← List.toFinset_range, ← List.toFinset_filter, List.toFinset_card_of_nodup (List.nodup_range.filter _), ← List.countP_eq_length_filter]
    have e : l = (List.range n).map fun i => l.getD i 0 := by
      refine List.ext_getElem (by simp [hnl]) fun i h1 h2 => ?_
      rw [List.getElem_map, List.getElem_range, List.getD_eq_getElem _ _ h1]
    conv_lhs => rw [e]
    rw [List.countP_map]
    refine List.countP_congr fun i _ => ?_
    simp
  have core := alt_core (n := n) (T := fun i => θ (l.getD i 0)) (s := fun i => pos (l.getD i 0)) (fun i hi => hθ _ (mem i hi)) ord
    (by
      rw [cnt, cnt] at hb
      rw [hb]
      refine congrArg _ (Finset.filter_congr fun i _ => ?_)
      simp)
    (by
      intro i hi l1 l2 hp
      refine ha _ (mem i (by omega)) _ (mem (i + 1) hi) hp ?_ ?_ ?_
      · exact sin_pos_of_pos_of_lt_pi (by linarith) (by linarith)
      · intro g hg g1 g2
        have b1 := hθ _ (mem i (by omega))
        have b2 := hθ _ (mem (i + 1) hi)
        have b3 := hθ g hg
        obtain ⟨j, hj, e⟩ := idx g hg
        have between : θ (l.getD i 0) < θ g ∧ θ g < θ (l.getD (i + 1) 0) := by
          rcases sin_pos_cases g1 (by linarith) (by linarith) with c | c <;> rcases sin_pos_cases g2 (by linarith) (by linarith) with c' | c' <;> constructor <;> linarith
        rcases Nat.lt_or_ge i j with c | c
        · have := mono (i + 1) j (by omega) hj
          rw [e] at this; linarith
        · have := mono j i c (by omega)
          rw [e] at this; linarith
      · intro g hg g1 g2
        obtain ⟨j, hj, e⟩ := idx g hg
        cases hpe : pos (l.getD i 0)
        · rw [hpe] at g1 g2
          rw [hpe] at hp
          simp only [Bool.false_eq_true, if_false] at g2
          rcases lt_trichotomy j (i + 1) with c | c | c
          · have := mono j i (by omega) (by omega)
            rw [e] at this; linarith
          · subst c
            rw [e, g1] at hp; exact absurd hp (by decide)
          · rcases ord (i + 1) j c hj with h | ⟨_, h, _⟩
            · rw [e] at h; linarith
            · rw [h] at hp; exact absurd hp (by decide)
        · rw [hpe] at g1 g2
          rw [hpe] at hp
          simp only [if_true] at g2
          rcases lt_trichotomy j i with c | c | c
          · rcases ord j i c (by omega) with h | ⟨_, h, _⟩
            · rw [e] at h; linarith
            · rw [e, g1] at h; exact absurd h (by decide)
          · subst c
            rw [e] at hpe; rw [hpe] at g1; exact absurd g1 (by decide)
          · have := mono (i + 1) j (by omega) hj
            rw [e] at this; linarith)
    (by
      intro h0 l1 hp
      have b1 := hθ _ (mem (n - 1) (by omega))
      have b2 := hθ _ (mem 0 (by omega))
      refine ha _ (mem (n - 1) (by omega)) _ (mem 0 (by omega)) hp ?_ ?_ ?_
      · rw [← sin_add_two_pi]
        exact sin_pos_of_pos_of_lt_pi (by linarith) (by linarith)
      · intro g hg g1 g2
        have b3 := hθ g hg
        obtain ⟨j, hj, e⟩ := idx g hg
        have m1 := mono 0 j (by omega) hj
        have m2 := mono j (n - 1) (by omega) (by omega)
        rw [e] at m1 m2
        rcases sin_pos_cases g1 (by linarith) (by linarith) with c | c <;> rcases sin_pos_cases g2 (by linarith) (by linarith) with c' | c' <;> linarith
      · intro g hg g1 g2
        obtain ⟨j, hj, e⟩ := idx g hg
        cases hpe : pos (l.getD (n - 1) 0)
        · rw [hpe] at g1 g2
          rw [hpe] at hp
          simp only [Bool.false_eq_true, if_false] at g2
          rcases Nat.eq_zero_or_pos j with c | c
          · subst c
            rw [e, g1] at hp; exact absurd hp (by decide)
          · rcases ord 0 j c hj with h | ⟨_, h, _⟩
            · rw [e] at h; linarith
            · rw [h] at hp; exact absurd hp (by decide)
        · rw [hpe] at g1 g2
          simp only [if_true] at g2
          rcases (show j ≤ n - 1 by omega).eq_or_lt with c | c
          · subst c
            rw [e] at hpe; rw [hpe] at g1; exact absurd g1 (by decide)
          · rcases ord j (n - 1) c (by omega) with h | ⟨_, h, _⟩
            · rw [e] at h; linarith
            · rw [e, g1] at h; exact absurd h (by decide))
  intro e f hef
  unfold succIn at hef
  split_ifs at hef with he
  have hi := List.idxOf_lt_length_iff.2 he
  have := core _ hi
  rw [List.getD_eq_getElem _ _ hi, List.getElem_idxOf hi] at this
  rw [← hnl] at hef
  have hm : (l.idxOf e + 1) % n < l.length := Nat.mod_lt _ (by omega)
  rw [List.getElem?_eq_getElem hm] at hef
  rw [List.getD_eq_getElem _ _ hm, Option.some_inj.1 hef] at this
  exact this

end Walnut.Conn
