/- Correctness of the signed division. -/
import Verif.BigInt.DivModel
import Verif.BigInt.UDiv
import Verif.BigInt.UDbg
import Verif.BigInt.Sign
import Verif.BigInt.AddSub

namespace Walnut.BigInt
open Walnut.BigUInt (UCanon)

theorem sint_append_zero {ws : List Word} (_h : ws ≠ []) :
    sint (ws ++ [0#64]) = unat ws := by
  rw [sint_snoc]; simp

theorem ofBigUInt_spec {ws : List Word} (h : ws ≠ []) :
    Canon (ofBigUInt ws) ∧ sint (ofBigUInt ws) = unat ws := by
  unfold ofBigUInt
  split
  · refine ⟨trim_canon (by simp), ?_⟩
    rw [sint_trim, sint_append_zero h]
  · rename_i hn
    refine ⟨trim_canon h, ?_⟩
    rw [sint_trim, sint_eq h, sgn_eq h, if_neg]
    · simp
    · rw [sint_neg_iff h]; exact hn

theorem unat_of_nonneg {ws : List Word} (h : ws ≠ []) (h0 : 0 ≤ sint ws) :
    (unat ws : Int) = sint ws := by
  rw [sint_eq h, sgn_eq h, if_neg (by omega)]; simp

theorem getUIntAbs_spec {ws : List Word} (h : Canon ws) :
    UCanon (getUIntAbs ws).1 ∧ (unat (getUIntAbs ws).1 : Int) = |sint ws| ∧
      (getUIntAbs ws).2 = decide (sint ws < 0) := by
  unfold getUIntAbs
  have h0 := h.ne_nil
  split
  · rename_i hn
    rw [← sint_neg_iff h0] at hn
    obtain ⟨n1, n2⟩ := negate_spec h0
    obtain ⟨t1, t2⟩ := BigUInt.trim_spec n1.ne_nil
    refine ⟨t1, ?_, by simp [hn]⟩
    simp only
    rw [t2, unat_of_nonneg n1.ne_nil (by omega), n2, abs_of_neg hn]
  · rename_i hn
    rw [← sint_neg_iff h0] at hn
    obtain ⟨t1, t2⟩ := BigUInt.trim_spec h0
    refine ⟨t1, ?_, by simp; omega⟩
    simp only
    rw [t2, unat_of_nonneg h0 (by omega), abs_of_nonneg (by omega)]

theorem tdiv_tmod_of_abs {x y : Int} {q r : Nat} (_hy : y ≠ 0) (e : |x| = q * |y| + r)
    (hr : (r : Int) < |y|) :
    x.tdiv y = (if xor (decide (x < 0)) (decide (y < 0)) then -(q : Int) else q) ∧
    x.tmod y = (if x < 0 then -(r : Int) else r) := by
  have hq : x.natAbs / y.natAbs = q ∧ x.natAbs % y.natAbs = r := by
    have e1 : x.natAbs = q * y.natAbs + r := by
      zify; rw [e]
    have h1 : r < y.natAbs := by zify; exact hr
    have hpos : 0 < y.natAbs := by omega
    rw [e1]
    constructor
    · rw [Nat.mul_comm, Nat.mul_add_div hpos, Nat.div_eq_of_lt h1, Nat.add_zero]
    · rw [Nat.mul_comm, Nat.mul_add_mod, Nat.mod_eq_of_lt h1]
  obtain ⟨hq1, hq2⟩ := hq
  have c1 : ∀ m n : Nat, (m : Int).tdiv n = ((m / n : Nat) : Int) := fun m n => by
    rw [Int.tdiv_eq_ediv_of_nonneg (by omega)]; simp
  have c2 : ∀ m n : Nat, (m : Int).tmod n = ((m % n : Nat) : Int) := fun m n => by
    rw [Int.tmod_eq_emod_of_nonneg (by omega)]; simp
  rcases Int.natAbs_eq x with hx | hx <;> rcases Int.natAbs_eq y with hy | hy
  · have h1 : ¬ x < 0 := by omega
    have h2 : ¬ y < 0 := by omega
    simp only [h1, h2, decide_false, Bool.xor_false, Bool.false_eq_true, if_false]
    rw [hx, hy, c1, c2, hq1, hq2]; simp
  · have h1 : ¬ x < 0 := by omega
    have h2 : y < 0 := by omega
    simp only [h1, h2, decide_false, decide_true, Bool.false_xor, if_true, if_false]
    rw [hx, hy, Int.tdiv_neg, Int.tmod_neg, c1, c2, hq1, hq2]; simp
  · have h2 : ¬ y < 0 := by omega
    by_cases h1 : x < 0
    · simp only [h1, h2, decide_false, decide_true, Bool.xor_false, if_true]
      rw [hx, hy, Int.neg_tdiv, Int.neg_tmod, c1, c2, hq1, hq2]; simp
    · have h3 : x = 0 := by omega
      subst h3
      simp at hq1 hq2
      simp [h2, ← hq1, ← hq2]
  · have h2 : y < 0 := by omega
    by_cases h1 : x < 0
    · simp only [h1, h2, decide_true, Bool.xor_self, if_true, Bool.false_eq_true, if_false]
      rw [hx, hy, Int.neg_tdiv, Int.neg_tmod, Int.tdiv_neg, Int.tmod_neg, c1, c2, hq1, hq2]; simp
    · have h3 : x = 0 := by omega
      subst h3
      simp at hq1 hq2
      simp [← hq1, ← hq2]

theorem negate_if {ws : List Word} (h : Canon ws) (c : Bool) :
    Canon (if c then negate ws else ws) ∧
    sint (if c then negate ws else ws) = if c then - sint ws else sint ws := by
  cases c
  · exact ⟨h, rfl⟩
  · exact negate_spec h.ne_nil

theorem divideRemainderSlow_spec {a b : List Word} (ha : Canon a) (hb : Canon b)
    (hb0 : sint b ≠ 0) :
    ∃ q r, divideRemainderSlow false a b = some (q, r) ∧ Canon q ∧ Canon r ∧
      sint q = (sint a).tdiv (sint b) ∧ sint r = (sint a).tmod (sint b) := by
  obtain ⟨a1, a2, a3⟩ := getUIntAbs_spec ha
  obtain ⟨b1, b2, b3⟩ := getUIntAbs_spec hb
  have hne : unat (getUIntAbs b).1 ≠ 0 := by
    intro h; rw [h] at b2
    have := abs_pos.mpr hb0
    omega
  obtain ⟨q, r, e, q1, r1, h1, h2⟩ := BigUInt.divideRemainder_spec a1 b1 hne
  unfold divideRemainderSlow
  simp only [e, Option.map_some]
  obtain ⟨o1, o2⟩ := ofBigUInt_spec q1.1
  obtain ⟨p1, p2⟩ := ofBigUInt_spec r1.1
  obtain ⟨n1, n2⟩ := negate_if o1 (xor (getUIntAbs a).2 (getUIntAbs b).2)
  obtain ⟨m1, m2⟩ := negate_if p1 (getUIntAbs a).2
  obtain ⟨t1, t2⟩ := tdiv_tmod_of_abs (x := sint a) (y := sint b) (q := unat q) (r := unat r) hb0
    (by rw [← a2, ← b2]; exact_mod_cast h1) (by rw [← b2]; exact_mod_cast h2)
  refine ⟨_, _, rfl, n1, m1, ?_, ?_⟩
  · rw [n2, o2, t1, a3, b3]
  · rw [m2, p2, t2, a3]; simp

theorem wordDivRem_spec {a b : Word} (hb : b.toInt ≠ 0) (hm : ¬ (a.toInt = -2 ^ 63 ∧ b.toInt = -1)) :
    ∃ q r, wordDivRem a b = some (q, r) ∧ q.toInt = a.toInt.tdiv b.toInt ∧
      r.toInt = a.toInt.tmod b.toInt := by
  unfold wordDivRem
  have h0 : b ≠ 0#64 := by rintro rfl; exact hb rfl
  have h1 : ¬ (a = BitVec.intMin 64 ∧ b = BitVec.allOnes 64) := by
    rintro ⟨rfl, rfl⟩; exact hm ⟨rfl, rfl⟩
  rw [if_neg h0, if_neg h1]
  refine ⟨_, _, rfl, ?_, BitVec.toInt_srem _ _⟩
  rw [BitVec.toInt_sdiv]
  have ha := Word.toInt_bounds a
  have hbb := Word.toInt_bounds b
  have hlt : -2 ^ 63 ≤ a.toInt.tdiv b.toInt ∧ a.toInt.tdiv b.toInt < 2 ^ 63 := by
    have hn := Int.natAbs_tdiv_le_natAbs a.toInt b.toInt
    by_cases hmin : a.toInt = -2 ^ 63
    · have hb1 : b.toInt ≠ -1 := fun h => hm ⟨hmin, h⟩
      by_cases hb2 : b.toInt = 1
      · rw [hb2, Int.tdiv_one, hmin]; norm_num
      · have h2 : 2 ≤ b.toInt.natAbs := by omega
        have h3 : (a.toInt.tdiv b.toInt).natAbs = a.toInt.natAbs / b.toInt.natAbs :=
          Int.natAbs_tdiv _ _
        rw [hmin] at h3 ⊢
        have h4 : (-2 ^ 63 : Int).natAbs / b.toInt.natAbs ≤ (-2 ^ 63 : Int).natAbs / 2 :=
          Nat.div_le_div_left h2 (by norm_num)
        have h5 : (-2 ^ 63 : Int).natAbs / 2 = 2 ^ 62 := by decide
        omega
    · omega
  rw [Int.bmod_eq_of_le] <;> norm_num at * <;> omega

theorem canon_one {a : List Word} (ha : Canon a) (hl : a.length = 1) : ∃ w, a = [w] := by
  match a, hl with
  | [w], _ => exact ⟨w, rfl⟩

theorem wordDivRem_undefined {a b : Word} (hm : a.toInt = -2 ^ 63 ∧ b.toInt = -1) :
    wordDivRem a b = none := by
  have h1 : a = BitVec.intMin 64 := BitVec.eq_of_toInt_eq (by rw [hm.1]; rfl)
  have h2 : b = BitVec.allOnes 64 := BitVec.eq_of_toInt_eq (by rw [hm.2]; rfl)
  subst h1 h2
  decide

theorem divideRemainder_spec {a b : List Word} (ha : Canon a) (hb : Canon b)
    (hb0 : sint b ≠ 0) (hm : ¬ (sint a = -2 ^ 63 ∧ sint b = -1)) :
    ∃ q r, divideRemainder false a b = some (q, r) ∧ div false a b = some q ∧
      rem false a b = some r ∧ Canon q ∧ Canon r ∧
      sint q = (sint a).tdiv (sint b) ∧ sint r = (sint a).tmod (sint b) := by
  unfold divideRemainder div rem
  by_cases hc : a.length = 1 ∧ b.length = 1
  · rw [if_pos hc, if_pos hc, if_pos hc]
    obtain ⟨x, rfl⟩ := canon_one ha hc.1
    obtain ⟨y, rfl⟩ := canon_one hb hc.2
    simp only [sint_singleton] at *
    obtain ⟨q, r, e, h1, h2⟩ := wordDivRem_spec hb0 hm
    simp only [first, e, Option.map_some]
    exact ⟨_, _, rfl, rfl, rfl, canon_singleton _, canon_singleton _, h1, h2⟩
  · rw [if_neg hc, if_neg hc, if_neg hc]
    obtain ⟨q, r, e, h1, h2, h3, h4⟩ := divideRemainderSlow_spec ha hb hb0
    rw [e]
    exact ⟨_, _, rfl, rfl, rfl, h1, h2, h3, h4⟩

/-- With assertions the division aborts or gives the same result. -/
theorem divideRemainderSlow_mono {a b : List Word} {x : List Word × List Word}
    (h : divideRemainderSlow true a b = some x) : divideRemainderSlow false a b = some x := by
  unfold divideRemainderSlow at *
  simp only [Option.map_eq_some_iff] at *
  obtain ⟨y, h1, h2⟩ := h
  exact ⟨y, BigUInt.divideRemainder_mono h1, h2⟩

theorem divideRemainder_mono {a b : List Word} {x : List Word × List Word}
    (h : divideRemainder true a b = some x) : divideRemainder false a b = some x := by
  unfold divideRemainder at *
  split at h
  · rename_i hc; rw [if_pos hc]; exact h
  · rename_i hc; rw [if_neg hc]; exact divideRemainderSlow_mono h

theorem div_mono {a b : List Word} {x : List Word}
    (h : div true a b = some x) : div false a b = some x := by
  unfold div at *
  split at h
  · rename_i hc; rw [if_pos hc]; exact h
  · rename_i hc; rw [if_neg hc]
    simp only [Option.map_eq_some_iff] at *
    obtain ⟨y, h1, h2⟩ := h
    exact ⟨y, divideRemainderSlow_mono h1, h2⟩

theorem rem_mono {a b : List Word} {x : List Word}
    (h : rem true a b = some x) : rem false a b = some x := by
  unfold rem at *
  split at h
  · rename_i hc; rw [if_pos hc]; exact h
  · rename_i hc; rw [if_neg hc]
    simp only [Option.map_eq_some_iff] at *
    obtain ⟨y, h1, h2⟩ := h
    exact ⟨y, divideRemainderSlow_mono h1, h2⟩

end Walnut.BigInt
