/- The in-place operations on blocks used by the long division, in a build
without assertions. -/
import Verif.BigInt.UCanon

namespace Walnut.BigUInt
open Walnut.BigInt (top shl_or_toNat nat_split unat_replicate_zero)

/-- Block invariant: at least one used word, the used words are inside of the
block, everything above them is zero. -/
structure Blk.WF (b : Blk) : Prop where
  pos : 1 ≤ b.used
  le : b.used ≤ b.mem.length
  zero : unat b.mem < 2 ^ (64 * b.used)

theorem pow_split {a b c : Nat} (h : a = b + c) : 2 ^ a = 2 ^ b * 2 ^ c := by
  subst h; exact pow_add _ _ _

theorem pow_split3 {a b c d : Nat} (h : a = b + c + d) : 2 ^ a = 2 ^ b * (2 ^ c * 2 ^ d) := by
  subst h; rw [pow_add, pow_add, Nat.mul_assoc]

theorem pow_split4 {a b c d e : Nat} (h : a = b + c + d + e) :
    2 ^ a = 2 ^ b * (2 ^ c * (2 ^ d * 2 ^ e)) := by
  subst h; rw [pow_add, pow_add, pow_add, Nat.mul_assoc, Nat.mul_assoc]

theorem unat_split (ws : List Word) {n : Nat} (h : n ≤ ws.length) :
    unat ws = unat (ws.take n) + 2 ^ (64 * n) * unat (ws.drop n) := by
  conv_lhs => rw [← List.take_append_drop n ws, unat_append]
  rw [List.length_take, Nat.min_eq_left h]

theorem unat_take_lt (ws : List Word) (n : Nat) : unat (ws.take n) < 2 ^ (64 * n) := by
  refine lt_of_lt_of_le (unat_lt _) (Nat.pow_le_pow_right (by norm_num) ?_)
  rw [List.length_take]; omega

theorem unat_drop_lt (ws : List Word) {n u : Nat} (hn : n ≤ ws.length)
    (h : unat ws < 2 ^ (64 * u)) : unat (ws.drop n) < 2 ^ (64 * (u - n)) := by
  have e := unat_split ws hn
  by_cases hc : u ≤ n
  · rw [show u - n = 0 by omega, Nat.mul_zero, pow_zero]
    have : 2 ^ (64 * u) ≤ 2 ^ (64 * n) := Nat.pow_le_pow_right (by norm_num) (by omega)
    by_contra hne
    have : 2 ^ (64 * n) * 1 ≤ 2 ^ (64 * n) * unat (ws.drop n) :=
      Nat.mul_le_mul_left _ (by omega)
    omega
  · have hp : 2 ^ (64 * u) = 2 ^ (64 * n) * 2 ^ (64 * (u - n)) := pow_split (by omega)
    rw [hp] at h
    by_contra hne
    have : 2 ^ (64 * n) * 2 ^ (64 * (u - n)) ≤ 2 ^ (64 * n) * unat (ws.drop n) :=
      Nat.mul_le_mul_left _ (by omega)
    omega

theorem Blk.WF.unat_words {b : Blk} (h : b.WF) : unat b.words = unat b.mem := by
  have e := unat_split b.mem h.le
  have := unat_drop_lt b.mem h.le h.zero
  rw [Nat.sub_self, Nat.mul_zero, pow_zero] at this
  rw [e, show unat (b.mem.drop b.used) = 0 by omega]
  simp [Blk.words]

theorem trimUsed_spec (mem : List Word) (n : Nat) (h1 : 1 ≤ n) (hl : n ≤ mem.length)
    (hz : unat mem < 2 ^ (64 * n)) :
    1 ≤ trimUsed mem n ∧ trimUsed mem n ≤ n ∧ unat mem < 2 ^ (64 * trimUsed mem n) ∧
    (2 ≤ trimUsed mem n → mem[trimUsed mem n - 1]? ≠ some 0#64) := by
  induction n with
  | zero => omega
  | succ n ih =>
    cases n with
    | zero => exact ⟨le_refl _, le_refl _, hz, by intro h; simp [trimUsed] at h⟩
    | succ n =>
      unfold trimUsed
      split
      · rename_i h
        have hz' : unat mem < 2 ^ (64 * (n + 1)) := by
          have e := unat_split mem (n := n + 1) (by omega)
          have e2 : mem.drop (n + 1) = 0#64 :: mem.drop (n + 2) := by
            rw [List.drop_eq_getElem_cons (by omega)]
            rw [List.getElem?_eq_getElem (by omega)] at h
            rw [Option.some.inj h]
          have h3 := unat_drop_lt mem hl hz
          rw [Nat.sub_self, Nat.mul_zero, pow_zero] at h3
          rw [e2] at e
          simp only [unat] at e
          have h4 : unat (mem.drop (n + 2)) = 0 := Nat.lt_one_iff.mp h3
          rw [h4] at e
          rw [show (0#64).toNat = 0 from rfl, Nat.mul_zero, Nat.add_zero, Nat.mul_zero,
            Nat.add_zero] at e
          rw [e]
          exact unat_take_lt _ _
        obtain ⟨h1, h2, h3, h4⟩ := ih (by omega) (by omega) hz'
        exact ⟨h1, by omega, h3, h4⟩
      · rename_i h
        exact ⟨by omega, le_refl _, hz, fun _ => h⟩

theorem top_take (mem : List Word) (n : Nat) (h1 : 1 ≤ n) (h2 : n ≤ mem.length) :
    some (top (mem.take n)) = mem[n - 1]? := by
  obtain ⟨m, rfl⟩ : ∃ m, n = m + 1 := ⟨n - 1, by omega⟩
  rw [List.take_add_one, List.getElem?_eq_getElem (show m < mem.length by omega),
    Option.toList_some, top_snoc, Nat.add_sub_cancel, List.getElem?_eq_getElem (by omega)]

theorem Blk.trim_spec {b : Blk} (h : b.WF) :
    b.trim.WF ∧ UCanon b.trim.words ∧ b.trim.mem = b.mem := by
  obtain ⟨h1, h2, h3, h4⟩ := trimUsed_spec b.mem b.used h.pos h.le h.zero
  have hw : b.trim.WF := ⟨h1, le_trans h2 h.le, h3⟩
  refine ⟨hw, ⟨?_, ?_⟩, rfl⟩
  · intro e
    have := congrArg List.length e
    simp only [Blk.words, Blk.trim, List.length_take, List.length_nil] at this
    have := h.le
    omega
  · intro hl e
    have hl' : 2 ≤ trimUsed b.mem b.used := by
      simp only [Blk.words, Blk.trim, List.length_take] at hl; omega
    apply h4 hl'
    rw [← top_take _ _ h1 (le_trans h2 h.le), ← e]
    rfl

/-! ### GetAtBitOffset -/

theorem div_mod_ignore (x y off : Nat) (h : off ≤ 64) :
    (x + 2 ^ 128 * y) / 2 ^ off % 2 ^ 64 = x / 2 ^ off % 2 ^ 64 := by
  have e : (2 : Nat) ^ 128 * y = 2 ^ off * (2 ^ 64 * (2 ^ (64 - off) * y)) := by
    have : (2 : Nat) ^ 128 = 2 ^ off * (2 ^ 64 * 2 ^ (64 - off)) := pow_split3 (by omega)
    rw [this]; ring
  rw [e, Nat.add_mul_div_left _ _ (by positivity), Nat.add_mul_mod_self_left]

theorem getAtBitOffset_spec {b : Blk} (h : b.WF) (s : Nat) (hs : s / 64 < b.mem.length) :
    ∃ w, getAtBitOffset false b s = some w ∧ w.toNat = unat b.mem / 2 ^ s % 2 ^ 64 := by
  have hd := Nat.div_add_mod s 64
  have ho : s % 64 < 64 := Nat.mod_lt _ (by norm_num)
  generalize s / 64 = i at *
  have e1 := unat_split b.mem (n := i) (by omega)
  have e2 : b.mem.drop i = b.mem[i] :: b.mem.drop (i + 1) := List.drop_eq_getElem_cons hs
  have hdiv : unat b.mem / 2 ^ s = (unat (b.mem.drop i)) / 2 ^ (s % 64) := by
    rw [← hd, pow_add, ← Nat.div_div_eq_div_mul, e1,
      Nat.add_mul_div_left _ _ (by positivity), Nat.div_eq_of_lt (unat_take_lt _ _), Nat.zero_add]
    congr 2; omega
  have hread : ∀ j, b.read false j = b.mem[j]? := fun j => by simp [Blk.read]
  have hrest := unat_drop_lt b.mem (n := i + 1) (by omega) h.zero
  unfold getAtBitOffset
  rw [show s / 64 = i by omega]
  simp only [hread, List.getElem?_eq_getElem hs]
  by_cases hn : i + 1 < b.used
  · have hl := h.le
    rw [if_pos hn, List.getElem?_eq_getElem (by omega)]
    refine ⟨_, rfl, ?_⟩
    rw [Word.shiftRight_spec, hdiv, e2, unat,
      List.drop_eq_getElem_cons (show i + 1 < b.mem.length by omega), unat, Nat.mul_add,
      ← Nat.add_assoc, ← Nat.mul_assoc, ← pow_add]
    exact (div_mod_ignore _ _ _ (by omega)).symm
  · rw [if_neg hn]
    refine ⟨_, rfl, ?_⟩
    rw [show b.used - (i + 1) = 0 by omega, Nat.mul_zero, pow_zero] at hrest
    rw [Word.shiftRight_spec, hdiv, e2, unat, show unat (b.mem.drop (i + 1)) = 0 by omega]
    simp

/-! ### AddLeftShifted -/

theorem addCarry_spec : ∀ (ws : List Word) (c : Bool), unat ws + c.toNat < 2 ^ (64 * ws.length) →
    ∃ t n, addCarry ws c = some (t, n) ∧ t.length = ws.length ∧ n ≤ ws.length ∧
      unat t = unat ws + c.toNat ∧ (∀ u, unat ws < 2 ^ (64 * u) → unat t < 2 ^ (64 * (max u n)))
  | ws, false, _ => by
    refine ⟨ws, 0, by unfold addCarry; cases ws <;> rfl, rfl, by omega, by simp, ?_⟩
    intro u hu; simpa using hu
  | [], true, h => by simp [unat] at h
  | w :: ws, true, h => by
    have hs := Word.addB_spec w true
    have hw := w.isLt
    have hr := (Word.addB w true).1.isLt
    have hp : 2 ^ (64 * (w :: ws).length) = 2 ^ 64 * 2 ^ (64 * ws.length) := pow_split (by simp only [List.length_cons]; omega)
    rw [hp] at h
    simp only [unat, Bool.toNat_true] at h hs
    obtain ⟨t, n, e1, e2, e3, e4, e5⟩ := addCarry_spec ws (Word.addB w true).2 (by
      generalize 2 ^ (64 * ws.length) = P at *
      omega)
    refine ⟨(Word.addB w true).1 :: t, n + 1, ?_, by simp [e2], by simp [e3], ?_, ?_⟩
    · rw [addCarry, e1]; rfl
    · simp only [unat, e4, Bool.toNat_true]; omega
    · intro u hu
      simp only [unat] at hu ⊢
      cases u with
      | zero =>
        simp at hu
        have h5 := e5 0 (by simp; omega)
        have hp2 : 2 ^ (64 * (max 0 (n + 1))) = 2 ^ 64 * 2 ^ (64 * max 0 n) := pow_split (by omega)
        rw [hp2]
        generalize 2 ^ (64 * max 0 n) = P at *
        omega
      | succ u =>
        have h5 := e5 u (by
          have hp3 : 2 ^ (64 * (u + 1)) = 2 ^ 64 * 2 ^ (64 * u) := pow_split (by omega)
          rw [hp3] at hu
          generalize 2 ^ (64 * u) = P at *
          omega)
        have hp2 : 2 ^ (64 * (max (u + 1) (n + 1))) = 2 ^ 64 * 2 ^ (64 * max u n) := pow_split (by omega)
        rw [hp2]
        generalize 2 ^ (64 * max u n) = P at *
        omega

theorem resizeZero_spec {b : Blk} (h : b.WF) (n : Nat) :
    (b.resizeZero n).mem.length = max b.mem.length n ∧
    (b.resizeZero n).used = max b.used n ∧
    unat (b.resizeZero n).mem = unat b.mem ∧ (b.resizeZero n).WF := by
  have key : (b.resizeZero n).mem.length = max b.mem.length n ∧
    (b.resizeZero n).used = max b.used n ∧ unat (b.resizeZero n).mem = unat b.mem := by
    unfold Blk.resizeZero
    have hle := h.le
    split
    · refine ⟨by omega, by omega, rfl⟩
    · rename_i hn
      refine ⟨by simp; omega, by simp; omega, ?_⟩
      simp only [unat_append, unat_replicate_zero, Nat.mul_zero, Nat.add_zero]
      have h1 : unat (b.mem.drop n) = 0 := by
        by_cases hc : n ≤ b.mem.length
        · have := unat_drop_lt b.mem hc h.zero
          rw [show b.used - n = 0 by omega] at this
          simpa using this
        · rw [List.drop_eq_nil_of_le (by omega)]; rfl
      rw [h1, Nat.mul_zero, Nat.add_zero]
      have := h.unat_words
      exact this
  refine ⟨key.1, key.2.1, key.2.2, ⟨?_, ?_, ?_⟩⟩
  · have := h.pos; omega
  · have := h.le; omega
  · rw [key.2.2, key.2.1]
    exact lt_of_lt_of_le h.zero (Nat.pow_le_pow_right (by norm_num) (by omega))

/-- Number of words `AddLeftShifted` makes available. -/
def addNeed (shift : Nat) : Nat := shift / 64 + 1 + (if shift % 64 ≠ 0 then 1 else 0)

theorem addNeed_ge (shift : Nat) : shift + 64 ≤ 64 * addNeed shift := by
  unfold addNeed; split <;> omega

theorem wf_of_parts {mem : List Word} {used : Nat} (h1 : 1 ≤ used) (h2 : used ≤ mem.length)
    (h3 : unat mem < 2 ^ (64 * used)) : Blk.WF ⟨mem, used⟩ := ⟨h1, h2, h3⟩

theorem addLeftShifted_spec {b : Blk} (h : b.WF) (add : Word) (shift : Nat)
    (hb : unat b.mem + add.toNat * 2 ^ shift < 2 ^ (64 * max b.mem.length (addNeed shift))) :
    ∃ r, addLeftShifted b add shift = some r ∧ r.WF ∧ UCanon r.words ∧
      r.mem.length = max b.mem.length (addNeed shift) ∧
      unat r.mem = unat b.mem + add.toNat * 2 ^ shift := by
  have hd := Nat.div_add_mod shift 64
  have ho : shift % 64 < 64 := Nat.mod_lt _ (by norm_num)
  unfold addLeftShifted
  simp only
  obtain ⟨r1, r2, r3, r4⟩ := resizeZero_spec h (max b.used (addNeed shift))
  rw [show max b.used (shift / 64 + 1 + if shift % 64 ≠ 0 then 1 else 0)
    = max b.used (addNeed shift) from rfl]
  generalize hB : b.resizeZero (max b.used (addNeed shift)) = b1 at *
  have hle := h.le
  rw [show max b.mem.length (max b.used (addNeed shift)) = max b.mem.length (addNeed shift) by
    omega] at r1
  rw [← r1, ← r3] at hb
  rw [← r1, ← r3]
  have hneed : addNeed shift ≤ b1.used := by omega
  have hb1le := r4.le
  have hpos : shift / 64 < b1.mem.length := by unfold addNeed at hneed; omega
  have hneed' : shift / 64 + 1 + (if shift % 64 ≠ 0 then 1 else 0) ≤ b1.used := hneed
  generalize shift / 64 = p at *
  generalize hm : shift % 64 = m at *
  have e1 := unat_split b1.mem (n := p) (by omega)
  have hlow := unat_take_lt b1.mem p
  have hdl := unat_drop_lt b1.mem (n := p) (by omega) r4.zero
  have hlenT : (b1.mem.take p).length = p := by rw [List.length_take]; omega
  have hsh : 2 ^ shift = 2 ^ (64 * p) * 2 ^ m := pow_split (by omega)
  have hdlen : (b1.mem.drop p).length = b1.mem.length - p := by rw [List.length_drop]
  have hcap : unat (b1.mem.drop p) + add.toNat * 2 ^ m < 2 ^ (64 * (b1.mem.length - p)) := by
    have hpw : 2 ^ (64 * b1.mem.length) = 2 ^ (64 * p) * 2 ^ (64 * (b1.mem.length - p)) := pow_split (by omega)
    rw [hpw, hsh, e1] at hb
    have : 2 ^ (64 * p) * (unat (b1.mem.drop p) + add.toNat * 2 ^ m)
        < 2 ^ (64 * p) * 2 ^ (64 * (b1.mem.length - p)) := by
      rw [Nat.mul_add]
      have : add.toNat * (2 ^ (64 * p) * 2 ^ m) = 2 ^ (64 * p) * (add.toNat * 2 ^ m) := by ring
      omega
    exact Nat.lt_of_mul_lt_mul_left this
  cases hdrop : b1.mem.drop p with
  | nil => rw [hdrop] at hdlen; simp at hdlen; omega
  | cons w ws =>
    rw [hdrop] at hdlen hcap hdl e1
    simp only [List.length_cons] at hdlen
    simp only [unat] at hcap hdl e1
    have hwl : ws.length = b1.mem.length - p - 1 := by omega
    have hpw1 : 2 ^ (64 * (b1.mem.length - p)) = 2 ^ 64 * 2 ^ (64 * ws.length) := pow_split (by omega)
    have hpu : 2 ^ (64 * (b1.used - p)) = 2 ^ 64 * 2 ^ (64 * (b1.used - p - 1)) := pow_split (by split at hneed' <;> omega)
    rw [hpw1] at hcap
    rw [hpu] at hdl
    have hsum := Word.addO_spec w (add <<< m)
    have hshl : (add <<< m).toNat = add.toNat * 2 ^ m % 2 ^ 64 := by
      rw [BitVec.toNat_shiftLeft, Nat.shiftLeft_eq]
    have hsplit := nat_split add.toNat (k := m) (by omega)
    by_cases hm0 : m ≠ 0
    · simp only [hm0, if_true, ne_eq, not_false_eq_true] at hneed' ⊢
      cases ws with
      | nil => simp at hwl; omega
      | cons w' ws' =>
        simp only [unat, List.length_cons] at hcap hdl hwl e1
        have hs2 := Word.addC_spec w' (add >>> (64 - m)) (Word.addO w (add <<< m)).2
        have hshr : (add >>> (64 - m)).toNat = add.toNat / 2 ^ (64 - m) := by
          rw [BitVec.toNat_ushiftRight, Nat.shiftRight_eq_div_pow]
        have hpw2 : 2 ^ (64 * (ws'.length + 1)) = 2 ^ 64 * 2 ^ (64 * ws'.length) := pow_split (by omega)
        have hpu2 : 2 ^ (64 * (b1.used - p - 1)) = 2 ^ 64 * 2 ^ (64 * (b1.used - p - 2)) := pow_split (by omega)
        rw [hpw2] at hcap
        rw [hpu2] at hdl
        rw [hshl] at hsum
        rw [hshr] at hs2
        have b1lt := (Word.addO w (add <<< m)).1.isLt
        have b2lt := (Word.addC w' (add >>> (64 - m)) (Word.addO w (add <<< m)).2).1.isLt
        dsimp only
        generalize Word.addO w (add <<< m) = r at *
        generalize Word.addC w' (add >>> (64 - m)) r.2 = r' at *
        generalize add.toNat * 2 ^ m % 2 ^ 64 = lo at *
        generalize add.toNat / 2 ^ (64 - m) = hi at *
        obtain ⟨t, n, c1, c2, c3, c4, c5⟩ := addCarry_spec ws' r'.2 (by
          generalize 2 ^ (64 * ws'.length) = P at *
          omega)
        have hc5 := c5 (b1.used - p - 2) (by
          generalize 2 ^ (64 * (b1.used - p - 2)) = P at *
          omega)
        rw [c1, Option.map_some]
        have hval : unat (b1.mem.take p ++ r.1 :: r'.1 :: t) = unat b1.mem + add.toNat * 2 ^ shift := by
          rw [unat_append, hlenT, e1, hsh]
          simp only [unat, c4]
          have : r.1.toNat + 2 ^ 64 * (r'.1.toNat + 2 ^ 64 * (unat ws' + r'.2.toNat))
              = w.toNat + 2 ^ 64 * (w'.toNat + 2 ^ 64 * unat ws') + add.toNat * 2 ^ m := by
            omega
          rw [this]; ring
        have hlen : (b1.mem.take p ++ r.1 :: r'.1 :: t).length = b1.mem.length := by
          simp only [List.length_append, hlenT, List.length_cons, c2]; omega
        have hwf : Blk.WF ⟨b1.mem.take p ++ r.1 :: r'.1 :: t, max b1.used (p + 2 + n)⟩ := by
          apply wf_of_parts
          · have := r4.pos; omega
          · rw [hlen]; omega
          · rw [unat_append, hlenT]
            simp only [unat]
            have hpp : 2 ^ (64 * max b1.used (p + 2 + n))
                = 2 ^ (64 * p) * (2 ^ 64 * (2 ^ 64 * 2 ^ (64 * max (b1.used - p - 2) n))) := pow_split4 (by omega)
            rw [hpp]
            generalize 2 ^ (64 * max (b1.used - p - 2) n) = Q at *
            have hq : r.1.toNat + 2 ^ 64 * (r'.1.toNat + 2 ^ 64 * unat t) + 1
                ≤ 2 ^ 64 * (2 ^ 64 * Q) := by omega
            have := Nat.mul_le_mul_left (2 ^ (64 * p)) hq
            rw [Nat.mul_add] at this
            omega
        obtain ⟨w1, w2, w3⟩ := Blk.trim_spec hwf
        exact ⟨_, rfl, w1, w2, by rw [w3]; exact hlen, by rw [w3]; exact hval⟩
    · simp only [hm0, if_false, Nat.add_zero] at hneed' ⊢
      rw [not_not] at hm0
      rw [show 2 ^ m = 1 by rw [hm0, pow_zero], Nat.mul_one] at hshl hcap
      rw [Nat.mod_eq_of_lt add.isLt] at hshl
      rw [hshl] at hsum
      have b1lt := (Word.addO w (add <<< m)).1.isLt
      generalize Word.addO w (add <<< m) = r at *
      obtain ⟨t, n, c1, c2, c3, c4, c5⟩ := addCarry_spec ws r.2 (by
        generalize 2 ^ (64 * ws.length) = P at *
        omega)
      have hc5 := c5 (b1.used - p - 1) (by
        generalize 2 ^ (64 * (b1.used - p - 1)) = P at *
        omega)
      rw [c1, Option.map_some]
      have hval : unat (b1.mem.take p ++ r.1 :: t) = unat b1.mem + add.toNat * 2 ^ shift := by
        rw [unat_append, hlenT, e1, hsh, hm0]
        simp only [unat, c4]
        have : r.1.toNat + 2 ^ 64 * (unat ws + r.2.toNat)
            = w.toNat + 2 ^ 64 * unat ws + add.toNat := by
          omega
        rw [this]; ring
      have hlen : (b1.mem.take p ++ r.1 :: t).length = b1.mem.length := by
        simp only [List.length_append, hlenT, List.length_cons, c2]; omega
      have hwf : Blk.WF ⟨b1.mem.take p ++ r.1 :: t, max b1.used (p + 1 + n)⟩ := by
        apply wf_of_parts
        · have := r4.pos; omega
        · rw [hlen]; omega
        · rw [unat_append, hlenT]
          simp only [unat]
          have hpp : 2 ^ (64 * max b1.used (p + 1 + n))
              = 2 ^ (64 * p) * (2 ^ 64 * 2 ^ (64 * max (b1.used - p - 1) n)) := pow_split3 (by omega)
          rw [hpp]
          generalize 2 ^ (64 * max (b1.used - p - 1) n) = Q at *
          have hq : r.1.toNat + 2 ^ 64 * unat t + 1 ≤ 2 ^ 64 * Q := by omega
          have := Nat.mul_le_mul_left (2 ^ (64 * p)) hq
          rw [Nat.mul_add] at this
          omega
      obtain ⟨w1, w2, w3⟩ := Blk.trim_spec hwf
      exact ⟨_, rfl, w1, w2, by rw [w3]; exact hlen, by rw [w3]; exact hval⟩

/-! ### SubtractLeftShifted -/

theorem subCarry_spec : ∀ (ws : List Word) (u : Nat) (c : Bool),
    c.toNat ≤ unat ws → unat ws < 2 ^ (64 * u) → u ≤ ws.length →
    ∃ t, subCarry ws u c = some t ∧ t.length = ws.length ∧ unat t + c.toNat = unat ws
  | ws, u, false, _, _, _ => ⟨ws, by cases ws <;> cases u <;> rfl, rfl, by simp⟩
  | ws, 0, true, h1, h2, _ => by simp at h1 h2; omega
  | [], u + 1, true, h1, _, _ => by simp [unat] at h1
  | w :: ws, u + 1, true, h1, h2, h3 => by
    have hs := Word.subB_spec w true
    have hr := (Word.subB w true).1.isLt
    have hp : 2 ^ (64 * (u + 1)) = 2 ^ 64 * 2 ^ (64 * u) := pow_split (by omega)
    rw [hp] at h2
    have hw := w.isLt
    simp only [unat, Bool.toNat_true] at h1 h2 hs
    simp only [List.length_cons] at h3
    obtain ⟨t, e1, e2, e3⟩ := subCarry_spec ws u (Word.subB w true).2 (by omega) (by
      generalize 2 ^ (64 * u) = P at *
      omega) (by omega)
    refine ⟨(Word.subB w true).1 :: t, ?_, by simp [e2], ?_⟩
    · rw [subCarry, e1]; rfl
    · simp only [unat, Bool.toNat_true]; omega

/-- Bits carried over from the previous word of the shifted operand. -/
def carryBits (k : Nat) (prev : Word) : Nat := if k > 0 then prev.toNat / 2 ^ (64 - k) else 0

theorem subShiftLoop_spec {k : Nat} (hk : k < 64) :
    ∀ (os ws : List Word) (u : Nat) (prev : Word) (c : Bool),
    unat os * 2 ^ k + carryBits k prev + c.toNat ≤ unat ws → unat ws < 2 ^ (64 * u) →
    u ≤ ws.length → os.length ≤ ws.length →
    ∃ t, subShiftLoop false k ws os u prev c = some t ∧ t.length = ws.length ∧
      unat t + (unat os * 2 ^ k + carryBits k prev + c.toNat) = unat ws
  | [], ws, u, prev, c, h1, h2, h3, h4 => by
    have hshr : (prev >>> (64 - k)).toNat = prev.toNat / 2 ^ (64 - k) := by
      rw [BitVec.toNat_ushiftRight, Nat.shiftRight_eq_div_pow]
    unfold subShiftLoop
    unfold carryBits at *
    simp only [unat, Nat.zero_mul, Nat.zero_add] at *
    split
    · rename_i hk0
      simp only [hk0, if_true] at *
      split
      · rename_i hu
        cases ws with
        | nil => simp at h3; omega
        | cons w ws' =>
          have hs := Word.subC_spec w (prev >>> (64 - k)) c
          have hr := (Word.subC w (prev >>> (64 - k)) c).1.isLt
          have hp : 2 ^ (64 * u) = 2 ^ 64 * 2 ^ (64 * (u - 1)) := pow_split (by omega)
          rw [hp] at h2
          rw [hshr] at hs
          simp only [unat, List.length_cons] at h1 h2 h3
          dsimp only
          generalize prev.toNat / 2 ^ (64 - k) = q at *
          generalize Word.subC w (prev >>> (64 - k)) c = r at *
          obtain ⟨t, e1, e2, e3⟩ := subCarry_spec ws' (u - 1) r.2 (by omega) (by
            generalize 2 ^ (64 * (u - 1)) = P at *
            omega) (by omega)
          refine ⟨r.1 :: t, ?_, by simp [e2], ?_⟩
          · simp only [e1, Option.map_some]
          · simp only [unat]; omega
      · rename_i hu
        have hu0 : u = 0 := by omega
        subst hu0
        simp only [Nat.mul_zero, pow_zero] at h2
        have hq : prev.toNat / 2 ^ (64 - k) = 0 := by omega
        have hz : prev >>> (64 - k) = 0#64 := BitVec.eq_of_toNat_eq (by rw [hshr, hq]; rfl)
        rw [if_pos hz, hq]
        simp only [Nat.zero_add]
        exact subCarry_spec ws 0 c (by omega) (by simpa using h2) (by omega)
    · rename_i hk0
      simp only [hk0, if_false, Nat.zero_add] at *
      exact subCarry_spec ws u c h1 h2 h3
  | o :: os, [], u, prev, c, h1, h2, h3, h4 => by simp at h4
  | o :: os, w :: ws, u, prev, c, h1, h2, h3, h4 => by
    have hs' : ((if k > 0 then o <<< k ||| prev >>> (64 - k) else o) : Word).toNat
        + 2 ^ 64 * carryBits k o = o.toNat * 2 ^ k + carryBits k prev := by
      unfold carryBits
      by_cases hk0 : k > 0
      · simp only [hk0, if_true]
        rw [shl_or_toNat o prev hk0 hk]
        have := nat_split o.toNat (k := k) (by omega)
        omega
      · have : k = 0 := by omega
        subst this; simp
    unfold subShiftLoop
    simp only [Bool.false_and, Bool.false_eq_true, if_false]
    generalize (if k > 0 then o <<< k ||| prev >>> (64 - k) else o) = s at *
    have hs := Word.subC_spec w s c
    have hr := (Word.subC w s c).1.isLt
    generalize Word.subC w s c = r at *
    have hmul : unat (o :: os) * 2 ^ k = o.toNat * 2 ^ k + 2 ^ 64 * (unat os * 2 ^ k) := by
      simp only [unat]; ring
    rw [hmul] at h1 ⊢
    have hu : unat ws < 2 ^ (64 * (u - 1)) := by
      rcases Nat.eq_zero_or_pos u with hu0 | hu0
      · subst hu0
        simp [unat] at h2 ⊢; omega
      · have hp : 2 ^ (64 * u) = 2 ^ 64 * 2 ^ (64 * (u - 1)) := pow_split (by omega)
        rw [hp] at h2
        simp only [unat] at h2
        generalize 2 ^ (64 * (u - 1)) = P at *
        omega
    simp only [unat, List.length_cons] at h1 h3 h4 ⊢
    obtain ⟨t, e1, e2, e3⟩ := subShiftLoop_spec hk os ws (u - 1) o r.2 (by
      generalize unat os * 2 ^ k = A at *
      generalize o.toNat * 2 ^ k = B at *
      omega) hu (by omega) (by omega)
    refine ⟨r.1 :: t, ?_, by simp [e2], ?_⟩
    · rw [e1]; rfl
    · simp only [unat]
      generalize unat os * 2 ^ k = A at *
      generalize o.toNat * 2 ^ k = B at *
      omega

theorem subtractLeftShifted_spec {b : Blk} (h : b.WF) {other : List Word} (ho : UCanon other)
    (shift : Nat) (hout : shift / 64 < b.mem.length) (hle : unat other * 2 ^ shift ≤ unat b.mem) :
    ∃ r, subtractLeftShifted false b other shift = some r ∧ r.WF ∧ UCanon r.words ∧
      r.mem.length = b.mem.length ∧ unat r.mem + unat other * 2 ^ shift = unat b.mem := by
  have hd := Nat.div_add_mod shift 64
  have hk : shift % 64 < 64 := Nat.mod_lt _ (by norm_num)
  unfold subtractLeftShifted
  simp only
  generalize shift / 64 = p at *
  generalize shift % 64 = k at *
  have e1 := unat_split b.mem (n := p) (by omega)
  have hlow := unat_take_lt b.mem p
  have hdl := unat_drop_lt b.mem (n := p) (by omega) h.zero
  have hlenT : (b.mem.take p).length = p := by rw [List.length_take]; omega
  have hsh : 2 ^ shift = 2 ^ (64 * p) * 2 ^ k := pow_split (by omega)
  have hle' : unat other * 2 ^ k ≤ unat (b.mem.drop p) := by
    rw [hsh, e1] at hle
    have h1 : 2 ^ (64 * p) * (unat other * 2 ^ k) < 2 ^ (64 * p) * (unat (b.mem.drop p) + 1) := by
      rw [Nat.mul_add]
      have : unat other * (2 ^ (64 * p) * 2 ^ k) = 2 ^ (64 * p) * (unat other * 2 ^ k) := by ring
      omega
    have := Nat.lt_of_mul_lt_mul_left h1
    omega
  have hol : other.length ≤ (b.mem.drop p).length := by
    have hne : b.mem.drop p ≠ [] := by simp; omega
    apply ho.length_le hne
    calc unat other = unat other * 1 := by ring
      _ ≤ unat other * 2 ^ k := Nat.mul_le_mul_left _ Nat.one_le_two_pow
      _ ≤ _ := hle'
  have hble := h.le
  obtain ⟨t, t1, t2, t3⟩ := subShiftLoop_spec hk other (b.mem.drop p) (b.used - p) 0#64 false
    (by simp [carryBits]; exact hle') hdl (by rw [List.length_drop]; omega) hol
  have hcb : carryBits k 0#64 = 0 := by simp [carryBits]
  rw [hcb] at t3
  simp only [Bool.toNat_false, Nat.add_zero] at t3
  rw [t1, Option.map_some]
  have hval : unat (b.mem.take p ++ t) + unat other * 2 ^ shift = unat b.mem := by
    rw [unat_append, hlenT, e1, hsh, ← t3]; ring
  have hlen : (b.mem.take p ++ t).length = b.mem.length := by
    rw [List.length_append, hlenT, t2, List.length_drop]; omega
  have hwf : Blk.WF ⟨b.mem.take p ++ t, b.used⟩ := by
    apply wf_of_parts h.pos
    · rw [hlen]; exact h.le
    · have := h.zero; omega
  obtain ⟨w1, w2, w3⟩ := Blk.trim_spec hwf
  exact ⟨_, rfl, w1, w2, by rw [w3]; exact hlen, by rw [w3]; exact hval⟩

end Walnut.BigUInt
