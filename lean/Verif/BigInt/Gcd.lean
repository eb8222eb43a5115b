/- Greatest common divisor and decimal output. -/
import Verif.BigInt.Div
import Verif.BigInt.Compare
import Mathlib.Data.Int.GCD

namespace Walnut.BigInt

theorem length_le_of_abs {r b : List Word} (hr : Canon r) (hb : b ≠ [])
    (h : (sint r).natAbs < (sint b).natAbs) : r.length ≤ b.length := by
  by_contra hlt
  have hl : b.length ≠ 0 := by simpa using hb
  have hbig := hr.large (by omega)
  obtain ⟨b1, b2⟩ := sint_bounds hb
  have hmono : (2 : Int) ^ (64 * b.length - 1) ≤ 2 ^ (64 * (r.length - 1) - 1) :=
    pow_le_pow_right₀ (by norm_num) (by omega)
  generalize (2 : Int) ^ (64 * b.length - 1) = P at *
  generalize (2 : Int) ^ (64 * (r.length - 1) - 1) = Q at *
  omega

theorem gcd_tmod (x y : Int) : Int.gcd y (x.tmod y) = Int.gcd x y := by
  rw [Int.gcd, Int.natAbs_tmod, Int.gcd, Nat.gcd_comm, Nat.gcd_comm x.natAbs]
  exact (Nat.gcd_rec _ _).symm

/-- Whatever value is returned is a greatest common divisor up to its sign. -/
theorem gcd_correct : ∀ {fuel : Nat} {a b g : List Word}, Canon a → Canon b →
    a.length ≤ 2 ^ 63 → b.length ≤ 2 ^ 63 → gcd false fuel a b = some g →
    Canon g ∧ (sint g).natAbs = Int.gcd (sint a) (sint b) := by
  intro fuel
  induction fuel with
  | zero => intro a b g _ _ _ _ h; cases h
  | succ n ih =>
    intro a b g ha hb hla hlb h
    unfold gcd at h
    rw [isZero_spec hb hlb] at h
    by_cases hz : sint b = 0
    · simp only [hz, decide_true, if_true, Option.some.injEq] at h
      subst h
      rw [hz, Int.gcd_zero_right]
      exact ⟨ha, rfl⟩
    · simp only [hz, decide_false] at h
      by_cases hm : sint a = -2 ^ 63 ∧ sint b = -1
      · have hone : ∀ {c : List Word}, Canon c → -2 ^ 63 ≤ sint c → sint c < 2 ^ 63 → c.length = 1 := by
          intro c hc h1 h2
          have h0 : c.length ≠ 0 := by simpa using hc.ne_nil
          by_contra hne
          have hbig := hc.large (by omega)
          have : (2 : Int) ^ 63 ≤ 2 ^ (64 * (c.length - 1) - 1) :=
            pow_le_pow_right₀ (by norm_num) (by omega)
          omega
        obtain ⟨x, rfl⟩ := canon_one ha (hone ha (by omega) (by omega))
        obtain ⟨y, rfl⟩ := canon_one hb (hone hb (by omega) (by omega))
        simp only [rem, List.length_singleton, and_self, if_true, first] at h
        rw [wordDivRem_undefined hm] at h
        simp at h
      · obtain ⟨q, r, _, _, e, _, hr, _, hrv⟩ := divideRemainder_spec ha hb hz hm
        rw [e, Option.bind_some] at h
        have hlt : (sint r).natAbs < (sint b).natAbs := by
          rw [hrv, Int.natAbs_tmod]; exact Nat.mod_lt _ (by omega)
        have hlr := length_le_of_abs hr hb.ne_nil hlt
        obtain ⟨h1, h2⟩ := ih hb hr hlb (by omega) h
        refine ⟨h1, ?_⟩
        rw [h2, hrv, gcd_tmod]

/-- The recursion ends and is defined when one argument is not negative. -/
theorem gcd_defined : ∀ {fuel : Nat} {a b : List Word}, Canon a → Canon b →
    a.length ≤ 2 ^ 63 → b.length ≤ 2 ^ 63 → (sint b).natAbs < fuel → 0 ≤ sint a ∨ 0 ≤ sint b →
    ∃ g, gcd false fuel a b = some g := by
  intro fuel
  induction fuel with
  | zero => intro a b _ _ _ _ h; omega
  | succ n ih =>
    intro a b ha hb hla hlb hf hs
    unfold gcd
    rw [isZero_spec hb hlb]
    by_cases hz : sint b = 0
    · exact ⟨a, by simp [hz]⟩
    · simp only [hz, decide_false]
      obtain ⟨q, r, _, _, e, _, hr, _, hrv⟩ := divideRemainder_spec ha hb hz (by omega)
      rw [e, Option.bind_some]
      have hlt : (sint r).natAbs < (sint b).natAbs := by
        rw [hrv, Int.natAbs_tmod]; exact Nat.mod_lt _ (by omega)
      have hlr := length_le_of_abs hr hb.ne_nil hlt
      refine ih hb hr hlb (by omega) (by omega) ?_
      rcases hs with h | h
      · right; rw [hrv]; exact Int.tmod_nonneg _ h
      · left; exact h

theorem gcd_mono : ∀ {fuel : Nat} {a b g : List Word}, gcd true fuel a b = some g →
    gcd false fuel a b = some g := by
  intro fuel
  induction fuel with
  | zero => intro a b g h; cases h
  | succ n ih =>
    intro a b g h
    unfold gcd at h ⊢
    split at h
    · rename_i hc; rw [if_pos hc]; exact h
    · rename_i hc; rw [if_neg hc]
      simp only [Option.bind_eq_some_iff] at h ⊢
      obtain ⟨m, h1, h2⟩ := h
      exact ⟨m, rem_mono h1, ih h2⟩

/-! ### Decimal output -/

theorem canon_small {c : List Word} (hc : Canon c) (h1 : -2 ^ 63 ≤ sint c) (h2 : sint c < 2 ^ 63) :
    ∃ w : Word, c = [w] ∧ w.toInt = sint c := by
  have h0 : c.length ≠ 0 := by simpa using hc.ne_nil
  have : c.length = 1 := by
    by_contra hne
    have hbig := hc.large (by omega)
    have : (2 : Int) ^ 63 ≤ 2 ^ (64 * (c.length - 1) - 1) :=
      pow_le_pow_right₀ (by norm_num) (by omega)
    omega
  obtain ⟨w, rfl⟩ := canon_one hc this
  exact ⟨w, rfl, rfl⟩

theorem signedAbs_spec {w : Word} (h : w.toInt ≠ -2 ^ 63) :
    ∃ v, Word.signedAbs w = some v ∧ v.toNat = w.toInt.natAbs := by
  unfold Word.signedAbs
  rw [if_neg (by rintro rfl; exact h rfl)]
  refine ⟨_, rfl, ?_⟩
  have hb := Word.toInt_bounds w
  have hlt := w.isLt
  rcases Word.toInt_cases w with ⟨h1, h2⟩ | ⟨h1, h2⟩
  · rw [if_neg (by omega)]; omega
  · rw [if_pos (by omega), BitVec.toNat_neg]; omega

theorem digitChar_eq (n : Nat) (h : n < 10) : Char.ofNat (n % 2 ^ 32 % 2 ^ 8 + '0'.toNat) = n.digitChar := by
  have : ∀ k : Fin 10, Char.ofNat (k.val % 2 ^ 32 % 2 ^ 8 + '0'.toNat) = k.val.digitChar := by decide
  exact this ⟨n, h⟩

theorem digitOf_spec {r : List Word} (hr : Canon r) (h : (sint r).natAbs < 10) :
    digitOf r = some (sint r).natAbs.digitChar := by
  obtain ⟨w, rfl, hw⟩ := canon_small hr (by omega) (by omega)
  obtain ⟨v, e, hv⟩ := signedAbs_spec (w := w) (by omega)
  simp only [digitOf, first, e, Option.map_some]
  rw [hv, hw, digitChar_eq _ h]

theorem canon_ten : Canon [10#64] := canon_singleton _

theorem sint_ten : sint [10#64] = 10 := by decide

theorem printLoop_spec : ∀ {fuel : Nat} {a : List Word} {free k : Nat} {out : List Char},
    Canon a → (sint a).natAbs < fuel → (sint a).natAbs < 10 ^ k → 1 ≤ k → k + 2 ≤ free →
    ∃ d free', printLoop false fuel a free out =
        some (d, free', Nat.toDigits 10 (sint a).natAbs ++ out) ∧
      Canon d ∧ Int.sign (sint d) = Int.sign (sint a) ∧ d.length = 1 ∧ 2 ≤ free' := by
  intro fuel
  induction fuel with
  | zero => intro a free k out _ h; omega
  | succ n ih =>
    intro a free k out ha hf hk hk1 hfree
    obtain ⟨q, r, e, _, _, hq, hr, hqv, hrv⟩ := divideRemainder_spec (b := [10#64]) ha canon_ten
      (by rw [sint_ten]; norm_num) (by rw [sint_ten]; omega)
    rw [sint_ten] at hqv hrv
    have hqn : (sint q).natAbs = (sint a).natAbs / 10 := by
      rw [hqv]; exact Int.natAbs_tdiv _ _
    have hrn : (sint r).natAbs = (sint a).natAbs % 10 := by
      rw [hrv]; exact Int.natAbs_tmod _ _
    have hid := Int.tmod_add_mul_tdiv (sint a) 10
    rw [← hqv, ← hrv] at hid
    have hdig := digitOf_spec hr (by omega)
    unfold printLoop
    rw [e, Option.bind_some, hdig, Option.bind_some, putChar, if_neg (by omega), Option.bind_some]
    simp only [neInt, eqInt_spec hq]
    rw [show (0#32 : BitVec 32).toInt = 0 from rfl]
    by_cases hz : sint q = 0
    · simp only [hz, decide_true, Bool.not_true, Bool.false_eq_true, if_false]
      have hlt : (sint a).natAbs < 10 := by omega
      obtain ⟨w, rfl, _⟩ := canon_small hr (by omega) (by omega)
      refine ⟨_, free - 1, ?_, hr, ?_, rfl, ?_⟩
      · rw [Nat.toDigits_of_lt_base hlt, hrn, Nat.mod_eq_of_lt hlt]; rfl
      · congr 1; rw [hz] at hid; omega
      · omega
    · simp only [hz, decide_false, Bool.not_false, if_true]
      have hge : 10 ≤ (sint a).natAbs := by omega
      have hk2 : 2 ≤ k := by
        by_contra h2
        have : k = 1 := by omega
        subst this
        omega
      obtain ⟨k', rfl⟩ : ∃ k', k = k' + 1 := ⟨k - 1, by omega⟩
      rw [pow_succ] at hk
      obtain ⟨d, free', h1, h2, h3, h4, h5⟩ := ih (k := k') (free := free - 1)
        (out := (sint r).natAbs.digitChar :: out) hq (by omega) (by rw [hqn]; omega) (by omega)
        (by omega)
      refine ⟨d, free', ?_, h2, ?_, h4, h5⟩
      · rw [h1, hqn, hrn, Nat.toDigits_of_base_le (by norm_num) hge]
        simp
      · rw [h3]
        rcases lt_trichotomy (sint a) 0 with h | h | h
        · rw [Int.sign_eq_neg_one_of_neg h, Int.sign_eq_neg_one_of_neg]
          omega
        · omega
        · rw [Int.sign_eq_one_of_pos h, Int.sign_eq_one_of_pos]
          omega

/-- The numeral of an integer. -/
theorem print_spec {a : List Word} (ha : Canon a) {fuel : Nat} (hf : (sint a).natAbs < fuel) :
    print false fuel a = some (if sint a < 0 then '-' :: Nat.toDigits 10 (sint a).natAbs
      else Nat.toDigits 10 (sint a).natAbs) := by
  have h0 : a.length ≠ 0 := by simpa using ha.ne_nil
  obtain ⟨b1, b2⟩ := sint_bounds ha.ne_nil
  have hk : (sint a).natAbs < 10 ^ (24 * a.length - 1) := by
    have h1 : (sint a).natAbs ≤ 2 ^ (64 * a.length - 1) := by
      zify; rw [abs_le]; constructor <;> linarith
    have h2 : (2 : Nat) ^ (64 * a.length - 1) < 2 ^ (3 * (24 * a.length - 1)) :=
      Nat.pow_lt_pow_right (by norm_num) (by omega)
    have h3 : (2 : Nat) ^ (3 * (24 * a.length - 1)) = 8 ^ (24 * a.length - 1) := by
      rw [pow_mul]; norm_num
    have h4 : (8 : Nat) ^ (24 * a.length - 1) ≤ 10 ^ (24 * a.length - 1) :=
      Nat.pow_le_pow_left (by norm_num) _
    omega
  obtain ⟨d, free', h1, h2, h3, h4, h5⟩ := printLoop_spec (out := []) (free := a.length * 8 * 3 + 1)
    ha hf hk (by omega) (by omega)
  unfold print
  rw [h1, Option.bind_some]
  simp only [List.append_nil]
  have hs := getSign_spec h2 (by omega)
  rw [h3] at hs
  by_cases hn : sint a < 0
  · rw [Int.sign_eq_neg_one_of_neg hn] at hs
    rw [if_pos (Int.sign_eq_neg_one_iff_neg.mp hs), if_pos hn, putChar, if_neg (by omega)]
    rfl
  · have : ¬ getSign d < 0 := by
      intro h
      rw [Int.sign_eq_neg_one_of_neg h] at hs
      exact hn (Int.sign_eq_neg_one_iff_neg.mp hs.symm)
    rw [if_neg this, if_neg hn]

end Walnut.BigInt
