/- The normalised divisor of the long division. -/
import Verif.BigInt.UBlk
import Verif.BigInt.UDivMath
import Verif.BigInt.WordBits

namespace Walnut.BigUInt
open Walnut.BigInt (top)

theorem top_two (ws : List Word) (h : 2 ≤ ws.length) :
    ∃ r, r < 2 ^ (64 * (ws.length - 2)) ∧
      unat ws = r + 2 ^ (64 * (ws.length - 2))
        * ((ws.getD (ws.length - 2) 0#64).toNat + 2 ^ 64 * (top ws).toNat) := by
  have e := unat_split ws (n := ws.length - 2) (by omega)
  have e1 : ws.drop (ws.length - 2) = ws[ws.length - 2] :: ws.drop (ws.length - 2 + 1) :=
    List.drop_eq_getElem_cons (by omega)
  have e2 : ws.drop (ws.length - 2 + 1)
      = ws[ws.length - 2 + 1] :: ws.drop (ws.length - 2 + 1 + 1) :=
    List.drop_eq_getElem_cons (by omega)
  have e3 : ws.drop (ws.length - 2 + 1 + 1) = [] := List.drop_eq_nil_of_le (by omega)
  have e4 : top ws = ws[ws.length - 2 + 1] := by
    have := top_take ws ws.length (by omega) (le_refl _)
    rw [List.take_length, List.getElem?_eq_getElem (by omega)] at this
    rw [Option.some.inj this]
    congr 1; omega
  rw [e1, e2, e3] at e
  refine ⟨unat (ws.take (ws.length - 2)), unat_take_lt _ _, ?_⟩
  rw [e, e4, List.getD_eq_getElem?_getD, List.getElem?_eq_getElem (by omega)]
  simp [unat]

theorem div_of_split {r P x y : Nat} (hr : r < P) :
    (r + P * x) * 2 ^ 64 / (P * 2 ^ 64 * y) = x / y := by
  have hP : 0 < P := by omega
  rw [show (r + P * x) * 2 ^ 64 = 2 ^ 64 * (r + P * x) by ring,
    show P * 2 ^ 64 * y = 2 ^ 64 * (P * y) by ring, Nat.mul_div_mul_left _ _ (by positivity),
    ← Nat.div_div_eq_div_mul, Nat.add_mul_div_left _ _ hP, Nat.div_eq_of_lt hr, Nat.zero_add]

theorem lo32_toNat (s : Word) : (Word.lo32 s).toNat = s.toNat % 2 ^ 32 := by
  rw [Word.lo32, BitVec.toNat_and, show (0xFFFFFFFF#64 : Word).toNat = 2 ^ 32 - 1 from rfl,
    Nat.and_two_pow_sub_one_eq_mod]

theorem adjust_approx {W o : Nat} {s : Word} (hs : s.toNat = W / 2 ^ o) (h1 : 2 ^ 31 ≤ s.toNat)
    (h2 : s.toNat < 2 ^ 32) :
    ∃ (d : Word) (o' : Nat), o ≤ o' ∧
      (∀ z : Int, (if Word.lo32 s = 0xFFFFFFFF#64 then ((1#64 : Word) <<< 31, (o : Int) - z + 1)
        else (s + 1#64, (o : Int) - z)) = (d, (o' : Int) - z)) ∧ Approx W d.toNat o' := by
  have hP : 0 < 2 ^ o := by positivity
  have hl : s.toNat * 2 ^ o ≤ W := by rw [hs]; exact Nat.div_mul_le_self _ _
  have hu : W < (s.toNat + 1) * 2 ^ o := by
    rw [hs]
    have := Nat.lt_div_mul_add (a := W) (b := 2 ^ o) hP
    rw [Nat.add_mul]; omega
  by_cases hc : Word.lo32 s = 0xFFFFFFFF#64
  · have hc' : s.toNat = 2 ^ 32 - 1 := by
      have := congrArg BitVec.toNat hc
      rw [lo32_toNat, Nat.mod_eq_of_lt h2] at this
      exact this
    refine ⟨1#64 <<< 31, o + 1, by omega, ?_, ?_⟩
    · intro z
      simp only [hc, if_true]
      congr 1
      push_cast; ring
    · rw [hc'] at hl hu
      rw [show ((1#64 : Word) <<< 31).toNat = 2 ^ 31 from rfl]
      refine ⟨?_, ?_, le_refl _, by norm_num⟩
      · rw [pow_split (show o + 1 = o + 1 from rfl)]; generalize 2 ^ o = P at *; omega
      · rw [pow_split (show o + 1 = o + 1 from rfl)]; generalize 2 ^ o = P at *; omega
  · have hc' : s.toNat ≠ 2 ^ 32 - 1 := by
      intro h
      apply hc
      apply BitVec.eq_of_toNat_eq
      rw [lo32_toNat, h]; rfl
    refine ⟨s + 1#64, o, le_refl _, fun z => by simp only [hc, if_false], ?_⟩
    have e : (s + 1#64).toNat = s.toNat + 1 := by
      rw [BitVec.toNat_add, show (1#64).toNat = 1 from rfl]
      exact Nat.mod_eq_of_lt (by omega)
    rw [e]
    exact ⟨by simpa using hl, hu, by omega, by omega⟩

theorem divisorParts_spec {other : List Word} (h : UCanon other) (h0 : unat other ≠ 0) :
    ∃ (d : Word) (o' : Nat), divisorParts other = (d, (o' : Int) - 64) ∧ 33 ≤ o' ∧
      (2 ≤ other.length → 97 ≤ o') ∧ Approx (unat other * 2 ^ 64) d.toNat o' := by
  obtain ⟨r, hr, hV⟩ := unat_eq_top h.1
  have hT : (top other).toNat ≠ 0 := by
    intro hz
    by_cases h2 : 2 ≤ other.length
    · exact h.2 h2 (BitVec.eq_of_toNat_eq hz)
    · have hl : other.length - 1 = 0 := by omega
      rw [hl, hz] at hV
      rw [hl, Nat.mul_zero, pow_zero] at hr
      omega
  have hhb := Word.highestSetBit_spec (top other)
  have hTlt := (top other).isLt
  unfold divisorParts
  simp only
  obtain ⟨hb1, hb2⟩ := hhb
  generalize Word.highestSetBit (top other) = hb at *
  have hb0 : hb ≠ 0 := by
    intro hz; rw [hz] at hb1; omega
  replace hb2 : 2 ^ (hb - 1) ≤ (top other).toNat := by
    rcases hb2 with h3 | h3
    · exact absurd h3 hb0
    · exact h3
  have hb64 : hb ≤ 64 := by
    by_contra hgt
    have : 2 ^ 64 ≤ 2 ^ (hb - 1) := Nat.pow_le_pow_right (by norm_num) (by omega)
    omega
  -- the shifted divisor
  have key : ∃ s : Word, (if hb < 32 then
      if other.length - 1 > 0 then
        top other <<< (32 - hb) ||| (other.getD (other.length - 1 - 1) 0#64) >>> (32 + hb)
      else top other <<< (32 - hb)
      else top other >>> (hb - 32)) = s ∧
      s.toNat = unat other * 2 ^ 64 / 2 ^ (64 * (other.length - 1) + hb + 32) := by
    refine ⟨_, rfl, ?_⟩
    by_cases h32 : hb < 32
    · simp only [h32, if_true]
      have hshl : (top other <<< (32 - hb)).toNat = (top other).toNat * 2 ^ (32 - hb) := by
        rw [BitVec.toNat_shiftLeft, Nat.shiftLeft_eq]
        apply Nat.mod_eq_of_lt
        calc _ < 2 ^ hb * 2 ^ (32 - hb) := Nat.mul_lt_mul_of_pos_right hb1 (by positivity)
          _ = 2 ^ 32 := by rw [← pow_add]; congr 1; omega
          _ ≤ _ := by norm_num
      by_cases hl : other.length - 1 > 0
      · simp only [hl, if_true]
        obtain ⟨r', hr', hV'⟩ := top_two other (by omega)
        rw [show other.length - 1 - 1 = other.length - 2 by omega]
        have hw := (other.getD (other.length - 2) 0#64).isLt
        generalize other.getD (other.length - 2) 0#64 = w at *
        have hshr : (w >>> (32 + hb)).toNat = w.toNat / 2 ^ (32 + hb) := by
          rw [BitVec.toNat_ushiftRight, Nat.shiftRight_eq_div_pow]
        rw [hV', pow_split3 (show 64 * (other.length - 1) + hb + 32
            = 64 * (other.length - 2) + 64 + (32 + hb) by omega), ← Nat.mul_assoc,
          div_of_split hr', BitVec.toNat_or, hshl, hshr,
          show 2 ^ 64 * (top other).toNat = 2 ^ (32 + hb) * ((top other).toNat * 2 ^ (32 - hb)) by
            rw [show (2 : Nat) ^ 64 = 2 ^ (32 + hb) * 2 ^ (32 - hb) by
              rw [← pow_add]; congr 1; omega]
            ring,
          Nat.add_mul_div_left _ _ (by positivity), Nat.mul_comm ((top other).toNat),
          Nat.add_comm (_ / _)]
        refine (Nat.two_pow_add_eq_or_of_lt ?_ _).symm
        rw [Nat.div_lt_iff_lt_mul (by positivity), ← pow_add,
          show 32 - hb + (32 + hb) = 64 by omega]
        exact hw
      · simp only [hl, if_false]
        have hl0 : other.length - 1 = 0 := by omega
        rw [hl0] at hr hV ⊢
        have : r = 0 := by simpa using hr
        subst this
        rw [hshl, hV]
        simp only [Nat.mul_zero, pow_zero, Nat.zero_add, Nat.one_mul]
        rw [show (2 : Nat) ^ 64 = 2 ^ (32 - hb) * 2 ^ (hb + 32) by
          rw [← pow_add]; congr 1; omega, ← Nat.mul_assoc, Nat.mul_div_cancel _ (by positivity)]
    · simp only [h32, if_false]
      rw [hV, pow_split3 (show 64 * (other.length - 1) + hb + 32
            = 64 * (other.length - 1) + 64 + (hb - 32) by omega), ← Nat.mul_assoc,
          div_of_split hr, BitVec.toNat_ushiftRight, Nat.shiftRight_eq_div_pow]
  obtain ⟨s, hs1, hs2⟩ := key
  rw [hs1]
  have hWlo : 2 ^ 31 * 2 ^ (64 * (other.length - 1) + hb + 32) ≤ unat other * 2 ^ 64 := by
    have e : 2 ^ 31 * 2 ^ (64 * (other.length - 1) + hb + 32)
        = 2 ^ (64 * (other.length - 1)) * 2 ^ (hb - 1) * 2 ^ 64 := by
      rw [← pow_add, ← pow_add, ← pow_add]; congr 1; omega
    rw [e, hV]
    apply Nat.mul_le_mul_right
    have := Nat.mul_le_mul_left (2 ^ (64 * (other.length - 1))) hb2
    omega
  have hWhi : unat other * 2 ^ 64 < 2 ^ 32 * 2 ^ (64 * (other.length - 1) + hb + 32) := by
    have e : 2 ^ 32 * 2 ^ (64 * (other.length - 1) + hb + 32)
        = 2 ^ (64 * (other.length - 1)) * 2 ^ hb * 2 ^ 64 := by
      rw [← pow_add, ← pow_add, ← pow_add]; congr 1; omega
    rw [e, hV]
    apply Nat.mul_lt_mul_of_pos_right _ (by positivity)
    have := Nat.mul_le_mul_left (2 ^ (64 * (other.length - 1))) (Nat.succ_le_of_lt hb1)
    rw [Nat.mul_succ] at this
    omega
  have hb31 : 2 ^ 31 ≤ s.toNat := by
    rw [hs2, Nat.le_div_iff_mul_le (by positivity)]; exact hWlo
  have hb32 : s.toNat < 2 ^ 32 := by
    rw [hs2, Nat.div_lt_iff_lt_mul (by positivity)]; exact hWhi
  obtain ⟨d, o', ho, hd, ha⟩ := adjust_approx hs2 hb31 hb32
  refine ⟨d, o', ?_, by omega, by omega, ha⟩
  rw [← hd 64]
  have e : ((other.length - 1 : Nat) : Int) * 64 + ((hb : Int) - 32)
      = ((64 * (other.length - 1) + hb + 32 : Nat) : Int) - 64 := by
    push_cast; ring
  rw [e]

end Walnut.BigUInt
