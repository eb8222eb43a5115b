/- Helper lemmas for multiplication. -/
import Verif.BigInt.AddSub
import Verif.BigInt.MulModel
import Mathlib.Algebra.Order.Ring.Abs

namespace Walnut

open BigInt

theorem mulRow0_spec (o : Word) : ∀ (as : List Word) (add : Word),
    (mulRow0 o as add).length = as.length + 1 ∧
    unat (mulRow0 o as add) = o.toNat * unat as + add.toNat
  | [], add => by simp [mulRow0, unat]
  | a :: as, add => by
    have h := Word.mulAdd_spec o a add false
    obtain ⟨h1, h2⟩ := mulRow0_spec o as (Word.mulAdd o a add false).2
    refine ⟨by simp [mulRow0, h1], ?_⟩
    simp only [mulRow0, unat, h2]
    simp only [Bool.toNat_false, add_zero] at h
    linarith

theorem mulRowJ_spec (o : Word) : ∀ (as acc : List Word) (add : Word) (c : Bool),
    acc.length = as.length →
    ∃ row k, mulRowJ o as acc add c = some row ∧ row.length = as.length + 1 ∧
      unat row + 2 ^ (64 * (as.length + 1)) * k
        = o.toNat * unat as + unat acc + add.toNat + c.toNat
  | [], acc, add, c, h => by
    have : acc = [] := by simpa using h
    subst this
    have hs := Word.addB_spec add c
    refine ⟨_, (Word.addB add c).2.toNat, rfl, rfl, ?_⟩
    simp only [unat, List.length_nil]
    omega
  | a :: as, [], add, c, h => by simp at h
  | a :: as, r :: acc, add, c, h => by
    have hs := Word.addC_spec add r c
    have hm := Word.mulAdd_spec o a (Word.addC add r c).1 false
    obtain ⟨row, k, e, hl, hv⟩ := mulRowJ_spec o as acc (Word.mulAdd o a (Word.addC add r c).1 false).2
      (Word.addC add r c).2 (by simpa using h)
    refine ⟨(Word.mulAdd o a (Word.addC add r c).1 false).1 :: row, k, ?_, ?_, ?_⟩
    · simp only [mulRowJ, e, Option.map_some]
    · simp [hl]
    · simp only [unat, List.length_cons]
      rw [show 64 * (as.length + 1 + 1) = 64 * (as.length + 1) + 64 by ring, pow_add]
      simp only [Bool.toNat_false, add_zero] at hm
      generalize 2 ^ (64 * (as.length + 1)) = p at *
      have hv' := congrArg (2 ^ 64 * ·) hv
      simp only [Nat.mul_add] at hv'
      have e1 : p * 2 ^ 64 * k = 2 ^ 64 * (p * k) := by ring
      have e2 : o.toNat * (a.toNat + 2 ^ 64 * unat as)
        = o.toNat * a.toNat + 2 ^ 64 * (o.toNat * unat as) := by ring
      rw [e1, e2]
      linarith

/-- A row never overflows its `n + 1` words when it starts from nothing. -/
theorem mulRowJ_exact (o : Word) (as acc : List Word) (h : acc.length = as.length) :
    ∃ row, mulRowJ o as acc 0#64 false = some row ∧ row.length = as.length + 1 ∧
      unat row = o.toNat * unat as + unat acc := by
  obtain ⟨row, k, e, hl, hv⟩ := mulRowJ_spec o as acc 0#64 false h
  refine ⟨row, e, hl, ?_⟩
  simp only [BitVec.toNat_ofNat, Nat.zero_mod, Bool.toNat_false, add_zero] at hv
  have ho := o.isLt
  have h1 := unat_lt as
  have h2 := unat_lt acc
  rw [h] at h2
  rw [show 64 * (as.length + 1) = 64 * as.length + 64 by ring, pow_add] at hv
  generalize 2 ^ (64 * as.length) = p at *
  rcases Nat.eq_zero_or_pos k with hk | hk
  · subst hk; simpa using hv
  · exfalso
    have hle : o.toNat * unat as ≤ (2 ^ 64 - 1) * (p - 1) :=
      Nat.mul_le_mul (by omega) (by omega)
    have hpk : p * 2 ^ 64 * 1 ≤ p * 2 ^ 64 * k := Nat.mul_le_mul_left _ hk
    have hp : 1 ≤ p := by omega
    obtain ⟨q, rfl⟩ : ∃ q, p = q + 1 := ⟨p - 1, by omega⟩
    simp only [Nat.add_sub_cancel] at hle
    have : (2 ^ 64 - 1) * q = 2 ^ 64 * q - q := by rw [Nat.sub_mul, Nat.one_mul]
    omega

theorem mulRows_spec (as : List Word) : ∀ (os acc : List Word), acc.length = as.length →
    ∃ r, mulRows as os acc = some r ∧ r.length = as.length + os.length ∧
      unat r = unat acc + unat as * unat os
  | [], acc, h => ⟨acc, rfl, by simpa using h, by simp [unat]⟩
  | o :: os, acc, h => by
    obtain ⟨row, e, hl, hv⟩ := mulRowJ_exact o as acc h
    cases row with
    | nil => simp at hl
    | cons r rs =>
      obtain ⟨t, e2, hl2, hv2⟩ := mulRows_spec as os rs (by simpa using hl)
      refine ⟨r :: t, ?_, ?_, ?_⟩
      · simp only [mulRows, e, e2, Option.map_some]
      · simp only [List.length_cons, hl2]; omega
      · simp only [unat] at hv ⊢
        rw [hv2, Nat.mul_add, Nat.mul_add]
        have : unat as * (2 ^ 64 * unat os) = 2 ^ 64 * (unat as * unat os) := by ring
        rw [this, Nat.mul_comm (unat as) o.toNat]
        omega

theorem and_mask (o mask : Word) (h : IsExt mask) :
    ((o &&& mask).toNat : Int) = -(extInt mask) * o.toNat := by
  rcases h with rfl | rfl
  · have : o &&& 0 = 0#64 := by simp
    rw [this]; simp [extInt]
  · have : o &&& BitVec.allOnes 64 = o := by rw [BitVec.and_allOnes]
    rw [this]
    have : extInt (BitVec.allOnes 64) = -1 := by decide
    rw [this]; simp

theorem subMasked_spec {mask : Word} (hm : IsExt mask) : ∀ (ws os : List Word) (c : Bool),
    ws.length = os.length →
    ∃ r k, subMasked mask ws os c = some r ∧ r.length = ws.length ∧
      (unat r : Int) = unat ws + extInt mask * unat os - c.toNat + 2 ^ (64 * ws.length) * k
  | [], [], c, _ => ⟨[], c.toNat, rfl, rfl, by simp [unat]⟩
  | [], _ :: _, _, h => by simp at h
  | _ :: _, [], _, h => by simp at h
  | w :: ws, o :: os, c, h => by
    obtain ⟨r, k, e, hl, hv⟩ := subMasked_spec hm ws os (Word.subC w (o &&& mask) c).2 (by simpa using h)
    have hs := Word.subC_spec w (o &&& mask) c
    refine ⟨(Word.subC w (o &&& mask) c).1 :: r, k, ?_, ?_, ?_⟩
    · simp only [subMasked, e, Option.map_some]
    · simp [hl]
    · simp only [unat, List.length_cons]
      rw [show 64 * (ws.length + 1) = 64 * ws.length + 64 by ring, pow_add]
      push_cast
      rw [hv]
      have hs' : ((Word.subC w (o &&& mask) c).1.toNat : Int) + (o &&& mask).toNat + c.toNat
        = w.toNat + 2 ^ 64 * (Word.subC w (o &&& mask) c).2.toNat := by exact_mod_cast hs
      rw [and_mask o mask hm] at hs'
      linarith

theorem subShifted_spec {mask : Word} (hm : IsExt mask) (ws other : List Word) (shift : Nat)
    (hlen : ws.length = shift + other.length) :
    ∃ r k, subtractLeftShiftedMasked ws other shift mask = some r ∧ r.length = ws.length ∧
      (unat r : Int) = unat ws + 2 ^ (64 * shift) * (extInt mask * unat other)
        + 2 ^ (64 * ws.length) * k := by
  obtain ⟨r, k, e, hl, hv⟩ := subMasked_spec hm (ws.drop shift) other false
    (by rw [List.length_drop]; omega)
  have htake : (ws.take shift).length = shift := by rw [List.length_take]; omega
  refine ⟨ws.take shift ++ r, k, ?_, ?_, ?_⟩
  · simp only [subtractLeftShiftedMasked, e, Option.map_some]
  · rw [List.length_append, htake, hl, List.length_drop]; omega
  · have hsplit : unat ws = unat (ws.take shift) + 2 ^ (64 * shift) * unat (ws.drop shift) := by
      conv_lhs => rw [← List.take_append_drop shift ws]
      rw [unat_append, htake]
    rw [unat_append, htake, hsplit]
    push_cast
    rw [hv, List.length_drop]
    have : 64 * ws.length = 64 * shift + 64 * (ws.length - shift) := by omega
    rw [this, pow_add]
    simp only [Bool.toNat_false, Nat.cast_zero]
    ring

theorem mulSlowOrdered_spec {a b : List Word} (ha : a ≠ []) (hb : b ≠ []) :
    ∃ r, mulSlowOrdered a b = some r ∧ Canon r ∧ sint r = sint a * sint b := by
  cases b with
  | nil => exact absurd rfl hb
  | cons b0 bs =>
    obtain ⟨hl0, hv0⟩ := mulRow0_spec b0 a 0#64
    unfold mulSlowOrdered
    cases hrow : mulRow0 b0 a 0#64 with
    | nil => rw [hrow] at hl0; simp at hl0
    | cons r rs =>
      rw [hrow] at hl0 hv0
      obtain ⟨t, e1, l1, v1⟩ := mulRows_spec a bs rs (by simpa using hl0)
      have hlen1 : (r :: t).length = (b0 :: bs).length + a.length := by
        simp only [List.length_cons, l1]; omega
      obtain ⟨s1, k1, e2, l2, v2⟩ := subShifted_spec (isExt_signExtension (b0 :: bs)) (r :: t) a
        (b0 :: bs).length hlen1
      have hlen2 : s1.length = a.length + (b0 :: bs).length := by
        rw [l2, hlen1]; omega
      obtain ⟨s2, k2, e3, l3, v3⟩ := subShifted_spec (isExt_signExtension a) s1 (b0 :: bs)
        a.length hlen2
      have hs2 : s2 ≠ [] := by
        intro h; rw [h] at l3; simp at l3; rw [hlen2] at l3; simp at l3
      refine ⟨trim s2, ?_, trim_canon hs2, ?_⟩
      · simp only [hrow, e1, e2, e3, Option.bind_eq_bind, Option.bind_some]
      · rw [sint_trim]
        have hprod : unat (r :: t) = unat a * unat (b0 :: bs) := by
          simp only [unat] at hv0 ⊢
          rw [v1]
          simp only [BitVec.toNat_ofNat, Nat.zero_mod, add_zero] at hv0
          rw [Nat.mul_add, Nat.mul_add, Nat.mul_comm (unat a) b0.toNat, ← hv0]
          ring
        rw [extInt_signExtension] at v2 v3
        have hsa := sint_eq ha
        have hsb := sint_eq hb
        obtain ⟨ba1, ba2⟩ := sint_bounds ha
        obtain ⟨bb1, bb2⟩ := sint_bounds hb
        have hla : a.length ≠ 0 := by simpa using ha
        have hlb : (b0 :: bs).length ≠ 0 := by simp
        generalize (b0 :: bs) = b at *
        have hlen3 : s2.length = a.length + b.length := by rw [l3, hlen2]
        have hpw : (2 : Int) ^ (64 * s2.length) = 2 ^ (64 * a.length) * 2 ^ (64 * b.length) := by
          rw [← pow_add]; congr 1; omega
        apply sint_of_modEq hs2
        · refine ⟨k1 + k2 - sgn a * sgn b, ?_⟩
          rw [v3, v2, hprod]
          rw [hlen2] at *
          rw [hlen1, hpw]
          have e1 : (2 : Int) ^ (64 * (b.length + a.length))
            = 2 ^ (64 * a.length) * 2 ^ (64 * b.length) := by
            rw [← pow_add]; congr 1; omega
          have e2 : (2 : Int) ^ (64 * (a.length + b.length))
            = 2 ^ (64 * a.length) * 2 ^ (64 * b.length) := by
            rw [← pow_add]; congr 1; omega
          rw [e1, e2, hsa, hsb]
          push_cast
          ring
        · have e : (2 : Int) ^ (64 * s2.length - 1)
            = 2 * (2 ^ (64 * a.length - 1) * 2 ^ (64 * b.length - 1)) := by
            rw [← pow_add, ← pow_succ']; congr 1; omega
          rw [e]
          have hp1 : (0 : Int) < 2 ^ (64 * a.length - 1) := by positivity
          have hp2 : (0 : Int) < 2 ^ (64 * b.length - 1) := by positivity
          generalize (2 : Int) ^ (64 * a.length - 1) = p at *
          generalize (2 : Int) ^ (64 * b.length - 1) = q at *
          have habs1 : |sint a| ≤ p := abs_le.mpr ⟨by linarith, by linarith⟩
          have habs2 : |sint b| ≤ q := abs_le.mpr ⟨by linarith, by linarith⟩
          have : |sint a * sint b| ≤ p * q := by
            rw [abs_mul]; exact mul_le_mul habs1 habs2 (abs_nonneg _) (by linarith)
          have := (abs_le.mp this).1
          have : 0 < p * q := mul_pos hp1 hp2
          linarith
        · have e : (2 : Int) ^ (64 * s2.length - 1)
            = 2 * (2 ^ (64 * a.length - 1) * 2 ^ (64 * b.length - 1)) := by
            rw [← pow_add, ← pow_succ']; congr 1; omega
          rw [e]
          have hp1 : (0 : Int) < 2 ^ (64 * a.length - 1) := by positivity
          have hp2 : (0 : Int) < 2 ^ (64 * b.length - 1) := by positivity
          generalize (2 : Int) ^ (64 * a.length - 1) = p at *
          generalize (2 : Int) ^ (64 * b.length - 1) = q at *
          have habs1 : |sint a| ≤ p := abs_le.mpr ⟨by linarith, by linarith⟩
          have habs2 : |sint b| ≤ q := abs_le.mpr ⟨by linarith, by linarith⟩
          have : |sint a * sint b| ≤ p * q := by
            rw [abs_mul]; exact mul_le_mul habs1 habs2 (abs_nonneg _) (by linarith)
          have := (abs_le.mp this).2
          have : 0 < p * q := mul_pos hp1 hp2
          linarith

theorem mulSlow_spec {a b : List Word} (ha : a ≠ []) (hb : b ≠ []) :
    ∃ r, mulSlow a b = some r ∧ Canon r ∧ sint r = sint a * sint b := by
  unfold mulSlow
  split
  · rw [mul_comm]; exact mulSlowOrdered_spec hb ha
  · exact mulSlowOrdered_spec ha hb

theorem half_mul_bounds {x y : Int} (hx : FitsHalf x) (hy : FitsHalf y) :
    -2 ^ 62 ≤ x * y ∧ x * y ≤ 2 ^ 62 := by
  obtain ⟨h1, h2⟩ := hx
  obtain ⟨h3, h4⟩ := hy
  have a1 : |x| ≤ 2 ^ 31 := abs_le.mpr ⟨by linarith, by linarith⟩
  have a2 : |y| ≤ 2 ^ 31 := abs_le.mpr ⟨by linarith, by linarith⟩
  have : |x * y| ≤ 2 ^ 31 * 2 ^ 31 := by
    rw [abs_mul]; exact mul_le_mul a1 a2 (abs_nonneg _) (by norm_num)
  have := abs_le.mp this
  constructor <;> linarith

theorem mul_spec {a b : List Word} (ha : a ≠ []) (hb : b ≠ []) :
    ∃ r, mul a b = some r ∧ Canon r ∧ sint r = sint a * sint b := by
  unfold mul
  split
  · rename_i h
    obtain ⟨x, y, rfl, rfl, hx, hy⟩ := allHalfWords_elim h
    obtain ⟨m1, m2⟩ := half_mul_bounds hx hy
    rw [if_pos ⟨show -2 ^ 63 ≤ x.toInt * y.toInt by linarith,
      show x.toInt * y.toInt < 2 ^ 63 by linarith⟩]
    refine ⟨_, rfl, canon_singleton _, ?_⟩
    simp only [sint, first]
    exact toInt_mul_of_fits x y (by linarith) (by linarith)
  · split
    · rename_i h
      obtain ⟨h1, h2⟩ := h
      refine ⟨_, rfl, trim_canon (by simp), ?_⟩
      rw [sint_trim]
      cases a with
      | nil => exact absurd rfl ha
      | cons x xs =>
        cases b with
        | nil => exact absurd rfl hb
        | cons y ys =>
          have : xs = [] := by simpa using h1
          have : ys = [] := by simpa using h2
          subst xs; subst ys
          simp only [first, sint]
          exact Word.mulSigned_spec x y
    · exact mulSlow_spec ha hb

theorem addMultiply_spec {t a b : List Word} (ht : t ≠ []) (ha : a ≠ []) (hb : b ≠ []) :
    ∃ r, addMultiply t a b = some r ∧ Canon r ∧ sint r = sint t + sint a * sint b := by
  unfold addMultiply
  split
  · rename_i h
    obtain ⟨z, x, y, rfl, rfl, rfl, ⟨hz1, hz2⟩, hx, hy⟩ := allHalfWords3_elim h
    obtain ⟨m1, m2⟩ := half_mul_bounds hx hy
    rw [if_pos ⟨show -2 ^ 63 ≤ x.toInt * y.toInt by linarith,
      show x.toInt * y.toInt < 2 ^ 63 by linarith⟩]
    refine ⟨_, rfl, canon_singleton _, ?_⟩
    simp only [sint, first]
    have e := toInt_mul_of_fits x y (by linarith) (by linarith)
    rw [toInt_add_of_fits _ _ (by rw [e]; linarith) (by rw [e]; linarith), e]
  · obtain ⟨p, e, hp, hv⟩ := mul_spec ha hb
    obtain ⟨c, v⟩ := add_spec ht hp.ne_nil
    exact ⟨add t p, by rw [e]; rfl, c, by rw [v, hv]⟩

theorem subtractMultiply_spec {t a b : List Word} (ht : t ≠ []) (ha : a ≠ []) (hb : b ≠ []) :
    ∃ r, subtractMultiply t a b = some r ∧ Canon r ∧ sint r = sint t - sint a * sint b := by
  unfold subtractMultiply
  split
  · rename_i h
    obtain ⟨z, x, y, rfl, rfl, rfl, ⟨hz1, hz2⟩, hx, hy⟩ := allHalfWords3_elim h
    obtain ⟨m1, m2⟩ := half_mul_bounds hx hy
    rw [if_pos ⟨show -2 ^ 63 ≤ x.toInt * y.toInt by linarith,
      show x.toInt * y.toInt < 2 ^ 63 by linarith⟩]
    refine ⟨_, rfl, canon_singleton _, ?_⟩
    simp only [sint, first]
    have e := toInt_mul_of_fits x y (by linarith) (by linarith)
    rw [toInt_sub_of_fits _ _ (by rw [e]; linarith) (by rw [e]; linarith), e]
  · obtain ⟨p, e, hp, hv⟩ := mul_spec ha hb
    obtain ⟨c, v⟩ := sub_spec ht hp.ne_nil
    exact ⟨sub t p, by rw [e]; rfl, c, by rw [v, hv]⟩

theorem determinant_spec {a b c d : List Word} (ha : a ≠ []) (hb : b ≠ []) (hc : c ≠ [])
    (hd : d ≠ []) :
    ∃ r, determinant a b c d = some r ∧ Canon r ∧
      sint r = sint a * sint d - sint c * sint b := by
  unfold determinant
  obtain ⟨p, e, hp, hv⟩ := mul_spec ha hd
  obtain ⟨r, e2, h2, v2⟩ := subtractMultiply_spec hp.ne_nil hc hb
  exact ⟨r, by rw [e]; exact e2, h2, by rw [v2, hv]⟩

end Walnut
