/- Canonical form of `BigUInt`, comparison, subtraction, word product. -/
import Verif.BigInt.UModel
import Verif.BigInt.Canon
import Verif.BigInt.Mul
import Verif.BigInt.Misc

namespace Walnut.BigUInt
open Walnut.BigInt (top)

/-- No superfluous zero word on top. -/
def UCanon (ws : List Word) : Prop := ws ≠ [] ∧ (2 ≤ ws.length → top ws ≠ 0#64)

instance (ws : List Word) : Decidable (UCanon ws) := by unfold UCanon; infer_instance

theorem trimRev_spec : ∀ {ws : List Word}, ws ≠ [] →
    UCanon (trimRev ws).reverse ∧ unat (trimRev ws).reverse = unat ws.reverse
  | [], h => absurd rfl h
  | [w], _ => by simp [trimRev, UCanon]
  | high :: low :: rest, _ => by
    unfold trimRev
    split
    · rename_i h
      obtain ⟨h1, h2⟩ := trimRev_spec (ws := low :: rest) (by simp)
      refine ⟨h1, ?_⟩
      rw [h2, h, List.reverse_cons (a := 0#64), unat_append]
      simp [unat]
    · rename_i h
      refine ⟨⟨by simp, fun _ => ?_⟩, rfl⟩
      rw [List.reverse_cons, top_snoc]
      exact h

theorem trim_spec {ws : List Word} (h : ws ≠ []) : UCanon (trim ws) ∧ unat (trim ws) = unat ws := by
  have := trimRev_spec (ws := ws.reverse) (by simpa using h)
  simpa [trim] using this

theorem unat_eq_top : ∀ {ws : List Word}, ws ≠ [] →
    ∃ r, r < 2 ^ (64 * (ws.length - 1)) ∧
      unat ws = r + 2 ^ (64 * (ws.length - 1)) * (top ws).toNat
  | [], h => absurd rfl h
  | [w], _ => ⟨0, by simp, by simp [unat, top]⟩
  | w :: w' :: ws, _ => by
    obtain ⟨r, h1, h2⟩ := unat_eq_top (ws := w' :: ws) (by simp)
    have hw := w.isLt
    have hp : 2 ^ (64 * ((w :: w' :: ws).length - 1)) = 2 ^ 64 * 2 ^ (64 * ((w' :: ws).length - 1)) := by
      rw [← pow_add]; congr 1; simp only [List.length_cons]; omega
    refine ⟨w.toNat + 2 ^ 64 * r, ?_, ?_⟩
    · rw [hp]; omega
    · rw [unat, h2, hp, top_cons w (by simp)]; ring

theorem UCanon.lower {ws : List Word} (h : UCanon ws) (h2 : 2 ≤ ws.length) :
    2 ^ (64 * (ws.length - 1)) ≤ unat ws := by
  obtain ⟨r, _, e⟩ := unat_eq_top h.1
  have ht : 1 ≤ (top ws).toNat := by
    have := h.2 h2
    rcases Nat.eq_zero_or_pos (top ws).toNat with h0 | h0
    · exact absurd (BitVec.eq_of_toNat_eq (by simpa using h0)) this
    · exact h0
  rw [e]
  calc 2 ^ (64 * (ws.length - 1)) = 2 ^ (64 * (ws.length - 1)) * 1 := by ring
    _ ≤ 2 ^ (64 * (ws.length - 1)) * (top ws).toNat := Nat.mul_le_mul_left _ ht
    _ ≤ _ := Nat.le_add_left _ _

theorem UCanon.length_le {ws ws' : List Word} (h : UCanon ws) (h' : ws' ≠ [])
    (he : unat ws ≤ unat ws') : ws.length ≤ ws'.length := by
  by_contra hlt
  have hl : ws'.length ≠ 0 := by simpa using h'
  have h1 := h.lower (by omega)
  have h2 := unat_lt ws'
  have hp : 2 ^ (64 * ws'.length) ≤ 2 ^ (64 * (ws.length - 1)) :=
    Nat.pow_le_pow_right (by norm_num) (by omega)
  omega

theorem UCanon.unique {a b : List Word} (ha : UCanon a) (hb : UCanon b) (e : unat a = unat b) :
    a = b :=
  unat_inj (Nat.le_antisymm (ha.length_le hb.1 e.le) (hb.length_le ha.1 e.ge)) e

theorem ucanon_iff_minimal (ws : List Word) : UCanon ws ↔ UMinimal ws := by
  constructor
  · intro h
    exact ⟨h.1, fun ws' h' e => h.length_le h' e.ge⟩
  · rintro ⟨h0, h⟩
    refine ⟨h0, fun h2 ht => ?_⟩
    obtain ⟨h3, h4⟩ := trim_spec h0
    have h5 := h _ h3.1 h4
    obtain ⟨r, hr, e⟩ := unat_eq_top h0
    rw [ht] at e
    have hne : ws.dropLast ≠ [] := by
      intro h6
      have := congrArg List.length h6
      simp at this; omega
    have h7 : unat ws.dropLast = unat ws := by
      have h8 : ws = ws.dropLast ++ [ws.getLast h0] := (List.dropLast_concat_getLast h0).symm
      have h9 : top ws = ws.getLast h0 := by
        conv_lhs => rw [h8]
        exact top_snoc _ _
      rw [ht] at h9
      conv_rhs => rw [h8, unat_append, ← h9]
      simp [unat]
    have := h _ hne h7
    simp at this
    omega

theorem ucanon_singleton (w : Word) : UCanon [w] := ⟨by simp, by simp⟩

/-! ### Comparison -/

theorem geRev_spec : ∀ {xs ys : List Word}, xs ≠ [] → xs.length = ys.length →
    geRev xs ys = decide (unat ys.reverse ≤ unat xs.reverse)
  | [], _, h, _ => absurd rfl h
  | [x], [y], _, _ => by simp [geRev, unat, BitVec.le_def]
  | [x], [], _, h => by simp at h
  | [x], _ :: _ :: _, _, h => by simp at h
  | x :: x' :: xs, [], _, h => by simp at h
  | x :: x' :: xs, [_], _, h => by simp at h
  | x :: x' :: xs, y :: y' :: ys, _, h => by
    have hl : (x' :: xs).length = (y' :: ys).length := by simpa using h
    have ih := geRev_spec (xs := x' :: xs) (ys := y' :: ys) (by simp) hl
    have hx := unat_lt (x' :: xs).reverse
    have hy := unat_lt (y' :: ys).reverse
    rw [List.length_reverse] at hx hy
    rw [← hl] at hy
    rw [List.reverse_cons (a := x), List.reverse_cons (a := y), unat_append, unat_append,
      List.length_reverse, List.length_reverse, ← hl]
    rw [show unat [x] = x.toNat by simp [unat], show unat [y] = y.toNat by simp [unat]]
    generalize 2 ^ (64 * (x' :: xs).length) = P at *
    generalize unat (x' :: xs).reverse = u at *
    generalize unat (y' :: ys).reverse = v at *
    unfold geRev
    split
    · rename_i h1
      rw [gt_iff_lt, BitVec.lt_def] at h1
      have : P * (y.toNat + 1) ≤ P * x.toNat := Nat.mul_le_mul_left _ h1
      rw [Nat.mul_add] at this
      symm; rw [decide_eq_true_eq]; omega
    · rename_i h1
      split
      · rename_i h2
        rw [BitVec.lt_def] at h2
        have : P * (x.toNat + 1) ≤ P * y.toNat := Nat.mul_le_mul_left _ h2
        rw [Nat.mul_add] at this
        symm; rw [decide_eq_false_iff_not]; omega
      · rename_i h2
        have : x.toNat = y.toNat := by
          rw [gt_iff_lt, BitVec.lt_def] at h1
          rw [BitVec.lt_def] at h2
          omega
        rw [ih, this, decide_eq_decide]
        omega

theorem ge_spec {a b : List Word} (ha : UCanon a) (hb : UCanon b) :
    ge a b = decide (unat b ≤ unat a) := by
  unfold ge
  split
  · rename_i h
    symm; rw [decide_eq_true_eq]
    by_contra hc
    have := ha.length_le hb.1 (by omega)
    omega
  · split
    · rename_i h
      symm; rw [decide_eq_false_iff_not]
      intro hc
      have := hb.length_le ha.1 hc
      omega
    · rw [geRev_spec (by simpa using ha.1) (by simp; omega)]
      simp

/-! ### Subtraction -/

theorem subLoop_spec : ∀ (a b : List Word) (c : Bool),
    (subLoop a b c).1.length = max a.length b.length ∧
    unat (subLoop a b c).1 + unat b + c.toNat
      = unat a + 2 ^ (64 * max a.length b.length) * (subLoop a b c).2.toNat
  | [], [], c => by simp [subLoop, unat]
  | a :: as, [], c => by
    obtain ⟨h1, h2⟩ := subLoop_spec as [] (Word.subB a c).2
    have h3 := Word.subB_spec a c
    simp only [subLoop, unat, List.length_cons, List.length_nil, Nat.max_zero, Nat.add_zero] at *
    refine ⟨by omega, ?_⟩
    rw [Nat.mul_add, pow_add, Nat.mul_one]
    generalize 2 ^ (64 * as.length) = P at *
    rw [Nat.mul_comm P, Nat.mul_assoc]
    omega
  | [], b :: bs, c => by
    obtain ⟨h1, h2⟩ := subLoop_spec [] bs (Word.subC 0#64 b c).2
    have h3 := Word.subC_spec 0#64 b c
    rw [show (0#64).toNat = 0 from rfl] at h3
    simp only [subLoop, unat, List.length_cons, List.length_nil, Nat.zero_max] at *
    refine ⟨by omega, ?_⟩
    rw [Nat.mul_add, pow_add, Nat.mul_one]
    generalize 2 ^ (64 * bs.length) = P at *
    rw [Nat.mul_comm P, Nat.mul_assoc]
    omega
  | a :: as, b :: bs, c => by
    obtain ⟨h1, h2⟩ := subLoop_spec as bs (Word.subC a b c).2
    have h3 := Word.subC_spec a b c
    simp only [subLoop, unat, List.length_cons] at *
    rw [Nat.add_max_add_right]
    refine ⟨by omega, ?_⟩
    rw [Nat.mul_add, pow_add, Nat.mul_one]
    generalize 2 ^ (64 * max as.length bs.length) = P at *
    rw [Nat.mul_comm P, Nat.mul_assoc]
    omega

theorem isHalfWord_elim {a : List Word} (h : isHalfWord a = true) :
    ∃ w, a = [w] ∧ w.toNat < 2 ^ 32 := by
  unfold isHalfWord at h
  split at h
  · rename_i w
    exact ⟨w, rfl, by simp at h; omega⟩
  · simp at h

theorem sub_spec {a b : List Word} (ha : UCanon a) (hb : UCanon b) (h : unat b ≤ unat a) :
    ∃ r, sub a b = some r ∧ UCanon r ∧ unat r = unat a - unat b := by
  unfold sub
  split
  · rename_i hc
    simp only [Bool.and_eq_true] at hc
    obtain ⟨⟨h1, h2⟩, _⟩ := hc
    obtain ⟨x, rfl, hx⟩ := isHalfWord_elim h1
    obtain ⟨y, rfl, hy⟩ := isHalfWord_elim h2
    refine ⟨_, rfl, ucanon_singleton _, ?_⟩
    simp only [unat, BigInt.first, Nat.mul_zero, Nat.add_zero, BitVec.toNat_sub] at *
    omega
  · have hl := hb.length_le ha.1 h
    obtain ⟨h1, h2⟩ := subLoop_spec a b false
    rw [Nat.max_eq_left hl] at h1 h2
    have hlt := unat_lt (subLoop a b false).1
    have hlt2 := unat_lt a
    rw [h1] at hlt
    simp only
    have hc : (subLoop a b false).2 = false := by
      by_contra hc
      rw [Bool.not_eq_false] at hc
      rw [hc] at h2
      simp at h2
      omega
    rw [hc] at h2 ⊢
    simp only [Bool.false_eq_true, if_false, h1, ne_eq, not_true_eq_false, Bool.toNat_false,
      Nat.mul_zero, Nat.add_zero] at h2 ⊢
    have hne : (subLoop a b false).1 ≠ [] := by
      intro e
      rw [e] at h1
      exact ha.1 (List.length_eq_zero_iff.mp h1.symm)
    obtain ⟨t1, t2⟩ := trim_spec hne
    exact ⟨_, rfl, t1, by rw [t2]; omega⟩

/-! ### Product with a word -/

theorem mulWord_spec {ws : List Word} (h : ws ≠ []) (o : Word) :
    UCanon (mulWord ws o) ∧ unat (mulWord ws o) = unat ws * o.toNat := by
  unfold mulWord
  split
  · rename_i hc
    simp only [Bool.and_eq_true, decide_eq_true_eq] at hc
    obtain ⟨w, rfl, hw⟩ := isHalfWord_elim hc.1
    refine ⟨ucanon_singleton _, ?_⟩
    have : w.toNat * o.toNat ≤ (2 ^ 32 - 1) * (2 ^ 32 - 1) :=
      Nat.mul_le_mul (by omega) hc.2
    simp only [unat, BigInt.first, Nat.mul_zero, Nat.add_zero, BitVec.toNat_mul]
    rw [Nat.mod_eq_of_lt (by omega)]
  · have hne : BigInt.mulRow0 o ws 0#64 ≠ [] := by cases ws <;> simp [BigInt.mulRow0]
    obtain ⟨h1, h2⟩ := trim_spec hne
    refine ⟨h1, ?_⟩
    rw [h2]
    rw [(Walnut.mulRow0_spec o ws 0#64).2]
    simp [Nat.mul_comm]

end Walnut.BigUInt
