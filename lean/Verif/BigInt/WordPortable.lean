/- Equivalence of the portable fallbacks of `BigUIntWord` with the builtins. -/
import Verif.BigInt.WordLemmas

namespace Walnut.Word

theorem lo32_toNat (a : Word) : (lo32 a).toNat = a.toNat % 2 ^ 32 := by
  simp only [lo32, BitVec.toNat_and]
  exact Nat.and_two_pow_sub_one_eq_mod a.toNat 32

theorem hi32_toNat (a : Word) : (hi32 a).toNat = a.toNat / 2 ^ 32 := by
  simp only [hi32, BitVec.toNat_ushiftRight, Nat.shiftRight_eq_div_pow]

theorem ofHalves_toNat (lo hi : Word) (hlo : lo.toNat < 2 ^ 32) (hhi : hi.toNat < 2 ^ 32) :
    (ofHalves lo hi).toNat = hi.toNat * 2 ^ 32 + lo.toNat := by
  simp only [ofHalves, BitVec.toNat_or, BitVec.toNat_shiftLeft]
  have e : hi.toNat <<< 32 % 2 ^ 64 = hi.toNat <<< 32 := by
    rw [Nat.shiftLeft_eq]; omega
  rw [e, ← Nat.shiftLeft_add_eq_or_of_lt hlo, Nat.shiftLeft_eq]

theorem mul32_lt {x y : Nat} (hx : x < 2 ^ 32) (hy : y < 2 ^ 32) :
    x * y ≤ (2 ^ 32 - 1) * (2 ^ 32 - 1) := Nat.mul_le_mul (by omega) (by omega)

/-- Splitting a product of 64-bit words into 32-bit limbs. -/
theorem mul_split (a b : Nat) :
    a * b = (a % 2 ^ 32) * (b % 2 ^ 32)
      + 2 ^ 32 * ((a / 2 ^ 32) * (b % 2 ^ 32) + (a % 2 ^ 32) * (b / 2 ^ 32))
      + 2 ^ 64 * ((a / 2 ^ 32) * (b / 2 ^ 32)) := by
  have ha := Nat.div_add_mod a (2 ^ 32)
  have hb := Nat.div_add_mod b (2 ^ 32)
  generalize a / 2 ^ 32 = p at *
  generalize a % 2 ^ 32 = q at *
  generalize b / 2 ^ 32 = r at *
  generalize b % 2 ^ 32 = s at *
  subst ha; subst hb
  ring

theorem shl32_bool (c : Bool) : (BitVec.ofNat 64 c.toNat <<< 32).toNat = 2 ^ 32 * c.toNat := by
  cases c <;> rfl

theorem mulPortable_spec (a b : Word) :
    (mulPortable a b).1.toNat + 2 ^ 64 * (mulPortable a b).2.toNat = a.toNat * b.toNat := by
  have ha := a.isLt
  have hb := b.isLt
  have e := mul_split a.toNat b.toNat
  have hL := mul32_lt (x := a.toNat % 2 ^ 32) (y := b.toNat % 2 ^ 32) (by omega) (by omega)
  have hM1 := mul32_lt (x := a.toNat / 2 ^ 32) (y := b.toNat % 2 ^ 32) (by omega) (by omega)
  have hM2 := mul32_lt (x := a.toNat % 2 ^ 32) (y := b.toNat / 2 ^ 32) (by omega) (by omega)
  have hH := mul32_lt (x := a.toNat / 2 ^ 32) (y := b.toNat / 2 ^ 32) (by omega) (by omega)
  have e0 : (lo32 a * lo32 b).toNat = (a.toNat % 2 ^ 32) * (b.toNat % 2 ^ 32) := by
    rw [BitVec.toNat_mul, lo32_toNat, lo32_toNat]; omega
  have e1 : (hi32 a * lo32 b).toNat = (a.toNat / 2 ^ 32) * (b.toNat % 2 ^ 32) := by
    rw [BitVec.toNat_mul, hi32_toNat, lo32_toNat]; omega
  have e2 : (lo32 a * hi32 b).toNat = (a.toNat % 2 ^ 32) * (b.toNat / 2 ^ 32) := by
    rw [BitVec.toNat_mul, hi32_toNat, lo32_toNat]; omega
  have e3 : (hi32 a * hi32 b).toNat = (a.toNat / 2 ^ 32) * (b.toNat / 2 ^ 32) := by
    rw [BitVec.toNat_mul, hi32_toNat, hi32_toNat]; omega
  simp only [mulPortable]
  have hadd := addO_spec (hi32 a * lo32 b + hi32 (lo32 a * lo32 b)) (lo32 a * hi32 b)
  generalize addO (hi32 a * lo32 b + hi32 (lo32 a * lo32 b)) (lo32 a * hi32 b) = m at *
  obtain ⟨m, c⟩ := m
  simp only at hadd ⊢
  have hc : c.toNat ≤ 1 := by cases c <;> decide
  rw [BitVec.toNat_add, e1, e2, hi32_toNat, e0] at hadd
  rw [ofHalves_toNat _ _ (by rw [lo32_toNat]; omega) (by rw [lo32_toNat]; omega),
    BitVec.toNat_add, BitVec.toNat_add, shl32_bool, e3, hi32_toNat, lo32_toNat, lo32_toNat, e0]
  have hm := m.isLt
  rw [e]
  generalize (a.toNat % 2 ^ 32) * (b.toNat % 2 ^ 32) = L at *
  generalize (a.toNat / 2 ^ 32) * (b.toNat % 2 ^ 32) = M1 at *
  generalize (a.toNat % 2 ^ 32) * (b.toNat / 2 ^ 32) = M2 at *
  have hH' : (a.toNat / 2 ^ 32) * (b.toNat / 2 ^ 32) ≤ (2 ^ 32 - 1) * (2 ^ 32 - 1) := hH
  generalize (a.toNat / 2 ^ 32) * (b.toNat / 2 ^ 32) = H at *
  omega

theorem mulAddPortable_spec (a b add : Word) (cin : Bool) :
    (mulAddPortable a b add cin).1.toNat + 2 ^ 64 * (mulAddPortable a b add cin).2.toNat
      = a.toNat * b.toNat + add.toNat + cin.toNat := by
  have ha := a.isLt
  have hb := b.isLt
  have hd := add.isLt
  have hcin : cin.toNat ≤ 1 := by cases cin <;> decide
  have e := mul_split a.toNat b.toNat
  have hL := mul32_lt (x := a.toNat % 2 ^ 32) (y := b.toNat % 2 ^ 32) (by omega) (by omega)
  have hM1 := mul32_lt (x := a.toNat / 2 ^ 32) (y := b.toNat % 2 ^ 32) (by omega) (by omega)
  have hM2 := mul32_lt (x := a.toNat % 2 ^ 32) (y := b.toNat / 2 ^ 32) (by omega) (by omega)
  have hH := mul32_lt (x := a.toNat / 2 ^ 32) (y := b.toNat / 2 ^ 32) (by omega) (by omega)
  have e0 : (lo32 a * lo32 b).toNat = (a.toNat % 2 ^ 32) * (b.toNat % 2 ^ 32) := by
    rw [BitVec.toNat_mul, lo32_toNat, lo32_toNat]; omega
  have e1 : (hi32 a * lo32 b).toNat = (a.toNat / 2 ^ 32) * (b.toNat % 2 ^ 32) := by
    rw [BitVec.toNat_mul, hi32_toNat, lo32_toNat]; omega
  have e2 : (lo32 a * hi32 b).toNat = (a.toNat % 2 ^ 32) * (b.toNat / 2 ^ 32) := by
    rw [BitVec.toNat_mul, hi32_toNat, lo32_toNat]; omega
  have e3 : (hi32 a * hi32 b).toNat = (a.toNat / 2 ^ 32) * (b.toNat / 2 ^ 32) := by
    rw [BitVec.toNat_mul, hi32_toNat, hi32_toNat]; omega
  simp only [mulAddPortable]
  have hlow := addC_spec (lo32 a * lo32 b) add cin
  generalize addC (lo32 a * lo32 b) add cin = l at *
  obtain ⟨l, lc⟩ := l
  simp only at hlow ⊢
  have hlc : lc.toNat ≤ 1 := by cases lc <;> decide
  have hadd := addO_spec (hi32 a * lo32 b + hi32 l) (lo32 a * hi32 b)
  generalize addO (hi32 a * lo32 b + hi32 l) (lo32 a * hi32 b) = m at *
  obtain ⟨m, c⟩ := m
  simp only at hadd ⊢
  have hc : c.toNat ≤ 1 := by cases c <;> decide
  have hl := l.isLt
  rw [BitVec.toNat_add, e1, e2, hi32_toNat] at hadd
  rw [ofHalves_toNat _ _ (by rw [lo32_toNat]; omega) (by rw [lo32_toNat]; omega),
    BitVec.toNat_add, BitVec.toNat_add, BitVec.toNat_add, shl32_bool, toNat_ofBool, e3, hi32_toNat,
    lo32_toNat, lo32_toNat]
  rw [e0] at hlow
  have hm := m.isLt
  have htot : a.toNat * b.toNat + add.toNat + cin.toNat < 2 ^ 128 := by
    have := mul_lt a b; omega
  rw [e] at htot ⊢
  generalize (a.toNat % 2 ^ 32) * (b.toNat % 2 ^ 32) = L at *
  generalize (a.toNat / 2 ^ 32) * (b.toNat % 2 ^ 32) = M1 at *
  generalize (a.toNat % 2 ^ 32) * (b.toNat / 2 ^ 32) = M2 at *
  have hH' : (a.toNat / 2 ^ 32) * (b.toNat / 2 ^ 32) ≤ (2 ^ 32 - 1) * (2 ^ 32 - 1) := hH
  generalize (a.toNat / 2 ^ 32) * (b.toNat / 2 ^ 32) = H at *
  omega

/-- A `(low, high)` pair is determined by its 128-bit value. -/
theorem pair_ext {p q : Word × Word}
    (h : p.1.toNat + 2 ^ 64 * p.2.toNat = q.1.toNat + 2 ^ 64 * q.2.toNat) : p = q := by
  have h1 := p.1.isLt
  have h2 := p.2.isLt
  have h3 := q.1.isLt
  have h4 := q.2.isLt
  ext1 <;> apply BitVec.eq_of_toNat_eq <;> omega

theorem mulPortable_eq (a b : Word) : mulPortable a b = mul a b :=
  pair_ext (by rw [mulPortable_spec, mul_spec])

theorem mulAddPortable_eq (a b add : Word) (c : Bool) :
    mulAddPortable a b add c = mulAdd a b add c :=
  pair_ext (by rw [mulAddPortable_spec, mulAdd_spec])

theorem signExt_cases (a : Word) :
    (a.toNat < 2 ^ 63 ∧ signExt a = 0#64) ∨ (2 ^ 63 ≤ a.toNat ∧ signExt a = BitVec.allOnes 64) := by
  have key : (signExt a).toInt = a.toInt / 2 ^ 63 := by
    rw [signExt, BitVec.toInt_sshiftRight, Int.shiftRight_eq_div_pow]; rfl
  have hlt := a.isLt
  rcases toInt_cases a with ⟨h, e⟩ | ⟨h, e⟩
  · left; refine ⟨h, ?_⟩
    apply BitVec.eq_of_toInt_eq
    rw [key, e]
    have : (0#64).toInt = 0 := by decide
    omega
  · right; refine ⟨h, ?_⟩
    apply BitVec.eq_of_toInt_eq
    rw [key, e]
    have : (BitVec.allOnes 64).toInt = -1 := by decide
    omega

theorem mulSigned_high (a b : Word) :
    (mulSigned a b).1 = (mul a b).1 ∧
    (mulSigned a b).2 = (mul a b).2 - (signExt b &&& a) - (signExt a &&& b) := by
  have hs := mulSigned_spec a b
  have hu := mul_spec a b
  generalize mulSigned a b = s at *
  generalize mul a b = u at *
  obtain ⟨sl, sh⟩ := s
  obtain ⟨ul, uh⟩ := u
  simp only at *
  have h1 := sl.isLt
  have h3 := ul.isLt
  have h4 := uh.isLt
  have ha := a.isLt
  have hb := b.isLt
  have hu' : (ul.toNat : Int) + 2 ^ 64 * uh.toNat = (a.toNat : Int) * b.toNat := by
    exact_mod_cast hu
  have hlow : sl = ul ∧ ∃ k : Int, sh.toInt = uh.toNat
      - (if 2 ^ 63 ≤ b.toNat then (a.toNat : Int) else 0)
      - (if 2 ^ 63 ≤ a.toNat then (b.toNat : Int) else 0) + 2 ^ 64 * k := by
    rcases toInt_cases a with ⟨hA, eA⟩ | ⟨hA, eA⟩ <;>
    rcases toInt_cases b with ⟨hB, eB⟩ | ⟨hB, eB⟩ <;>
    rw [eA, eB] at hs
    · have : (sl.toNat : Int) + 2 ^ 64 * sh.toInt = ul.toNat + 2 ^ 64 * uh.toNat := by
        rw [hs, hu']
      refine ⟨BitVec.eq_of_toNat_eq (by omega), 0, ?_⟩
      (try split) <;> (try split) <;> omega
    · have : (sl.toNat : Int) + 2 ^ 64 * sh.toInt
          = ul.toNat + 2 ^ 64 * uh.toNat - 2 ^ 64 * a.toNat := by
        rw [hs, hu']; ring
      refine ⟨BitVec.eq_of_toNat_eq (by omega), 0, ?_⟩
      (try split) <;> (try split) <;> omega
    · have : (sl.toNat : Int) + 2 ^ 64 * sh.toInt
          = ul.toNat + 2 ^ 64 * uh.toNat - 2 ^ 64 * b.toNat := by
        rw [hs, hu']; ring
      refine ⟨BitVec.eq_of_toNat_eq (by omega), 0, ?_⟩
      (try split) <;> omega
    · have : (sl.toNat : Int) + 2 ^ 64 * sh.toInt
          = ul.toNat + 2 ^ 64 * uh.toNat - 2 ^ 64 * a.toNat - 2 ^ 64 * b.toNat + 2 ^ 128 := by
        rw [hs, hu']; ring
      refine ⟨BitVec.eq_of_toNat_eq (by omega), 1, ?_⟩
      (try split) <;> omega
  refine ⟨hlow.1, ?_⟩
  obtain ⟨k, hk⟩ := hlow.2
  apply BitVec.eq_of_toNat_eq
  rw [BitVec.toNat_sub, BitVec.toNat_sub]
  have hsh := sh.isLt
  have hc := toInt_cases sh
  rcases signExt_cases a with ⟨hA, eA⟩ | ⟨hA, eA⟩ <;>
  rcases signExt_cases b with ⟨hB, eB⟩ | ⟨hB, eB⟩ <;>
  rw [eA, eB] <;>
  simp only [BitVec.zero_and, BitVec.allOnes_and, BitVec.toNat_ofNat, Nat.zero_mod] <;>
  (try split at hk) <;> (try split at hk) <;> omega

theorem mulSignedPortable_eq (a b : Word) : mulSignedPortable a b = mulSigned a b := by
  have h := mulSigned_high a b
  rw [← mulPortable_eq] at h
  ext1
  · rw [h.1]; rfl
  · rw [h.2]; rfl

theorem shiftRight_spec (lo hi : Word) (s : Nat) :
    (shiftRight lo hi s).toNat = (lo.toNat + 2 ^ 64 * hi.toNat) / 2 ^ s % 2 ^ 64 := by
  have hl := lo.isLt
  have hh := hi.isLt
  have e : (hi.setWidth 128 <<< 64 ||| lo.setWidth 128).toNat = lo.toNat + 2 ^ 64 * hi.toNat := by
    rw [BitVec.toNat_or, BitVec.toNat_shiftLeft, toNat_widen, toNat_widen]
    have e1 : hi.toNat <<< 64 % 2 ^ 128 = hi.toNat <<< 64 := by rw [Nat.shiftLeft_eq]; omega
    rw [e1, ← Nat.shiftLeft_add_eq_or_of_lt hl, Nat.shiftLeft_eq]; omega
  simp only [shiftRight, BitVec.toNat_setWidth, BitVec.toNat_ushiftRight,
    Nat.shiftRight_eq_div_pow, e]

theorem shiftRightPortable_eq (lo hi : Word) (s : Nat) (hs : s < 64) :
    shiftRightPortable lo hi s = shiftRight lo hi s := by
  apply BitVec.eq_of_toNat_eq
  rw [shiftRight_spec lo hi s]
  have hl := lo.isLt
  have hh := hi.isLt
  unfold shiftRightPortable
  split
  · rename_i h0
    rw [BitVec.toNat_or, BitVec.toNat_shiftLeft, BitVec.toNat_ushiftRight,
      Nat.shiftRight_eq_div_pow, Nat.shiftLeft_eq]
    have hpow : 2 ^ 64 = 2 ^ s * 2 ^ (64 - s) := by rw [← Nat.pow_add]; congr 1; omega
    have hpos : 0 < 2 ^ s := Nat.two_pow_pos s
    have e1 : (lo.toNat + 2 ^ 64 * hi.toNat) / 2 ^ s
        = lo.toNat / 2 ^ s + 2 ^ (64 - s) * hi.toNat := by
      rw [hpow, Nat.mul_assoc, Nat.add_mul_div_left _ _ hpos]
    have hlo : lo.toNat / 2 ^ s < 2 ^ (64 - s) := by
      rw [Nat.div_lt_iff_lt_mul hpos, Nat.mul_comm, ← hpow]; exact hl
    have e2 : hi.toNat * 2 ^ (64 - s) % 2 ^ 64 = (hi.toNat % 2 ^ s) <<< (64 - s) := by
      rw [Nat.shiftLeft_eq, hpow, Nat.mul_mod_mul_right]
    rw [e2, ← Nat.shiftLeft_add_eq_or_of_lt hlo, e1, Nat.shiftLeft_eq]
    have hmod : (lo.toNat / 2 ^ s + 2 ^ (64 - s) * hi.toNat) % 2 ^ 64
        = lo.toNat / 2 ^ s + 2 ^ (64 - s) * (hi.toNat % 2 ^ s) := by
      have hk := Nat.div_add_mod hi.toNat (2 ^ s)
      have hm : hi.toNat % 2 ^ s < 2 ^ s := Nat.mod_lt _ hpos
      have hlt : lo.toNat / 2 ^ s + 2 ^ (64 - s) * (hi.toNat % 2 ^ s) < 2 ^ 64 := by
        rw [hpow]
        generalize hi.toNat % 2 ^ s = r at *
        generalize lo.toNat / 2 ^ s = q at *
        generalize 2 ^ (64 - s) = A at *
        generalize 2 ^ s = B at *
        nlinarith
      conv_lhs => rw [← hk]
      rw [Nat.mul_add, ← Nat.mul_assoc, Nat.mul_comm (2 ^ (64 - s)) (2 ^ s), ← hpow]
      rw [show lo.toNat / 2 ^ s + (2 ^ 64 * (hi.toNat / 2 ^ s) + 2 ^ (64 - s) * (hi.toNat % 2 ^ s))
          = lo.toNat / 2 ^ s + 2 ^ (64 - s) * (hi.toNat % 2 ^ s) + 2 ^ 64 * (hi.toNat / 2 ^ s) by ring]
      rw [Nat.add_mul_mod_self_left, Nat.mod_eq_of_lt hlt]
    rw [hmod]; ring
  · rename_i h0
    have : s = 0 := by omega
    subst this
    simp only [Nat.pow_zero, Nat.div_one]
    omega

end Walnut.Word
