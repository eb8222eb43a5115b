/- Correctness of the long division in a build without assertions. -/
import Verif.BigInt.UDivisor

namespace Walnut.BigUInt
open Walnut.BigInt (top)

/-- What both loops keep. -/
structure DInv (A V L t0 : Nat) (s : DivState) : Prop where
  qwf : s.quot.WF
  qcan : UCanon s.quot.words
  rwf : s.rem.WF
  rlen : s.rem.mem.length = L
  eq : unat s.quot.mem * (V * 2 ^ 64) + unat s.rem.mem = A * 2 ^ 64
  tle : s.t ≤ t0

theorem mul_pow_mod_le (M t : Nat) : M / 2 ^ t % 2 ^ 64 * 2 ^ t ≤ M :=
  le_trans (Nat.mul_le_mul_right _ (Nat.mod_le _ _)) (Nat.div_mul_le_self _ _)

theorem divStep1_spec {A V L t0 o' : Nat} {other : List Word} {d : Word} {s : DivState}
    (ho : UCanon other) (hV : unat other = V) (ha : Approx (V * 2 ^ 64) d.toNat o')
    (ho33 : 33 ≤ o') (hN : A * 2 ^ 64 < 2 ^ (t0 + 64 + 64)) (hL : t0 / 64 + 2 ≤ L)
    (hmod : t0 % 64 = 0)
    (hi : DInv A V L t0 s) (ht : (o' : Int) - 64 ≤ s.t)
    (hM : unat s.rem.mem < 2 ^ (s.t + 128).toNat)
    (hcap : t0 + 64 + 34 - o' ≤ 64 * s.quot.mem.length ∨ s.t = t0) :
    ∃ s', divStep1 false other d ((o' : Int) - 64) s = some s' ∧ s'.t = s.t - 30 ∧
      DInv A V L t0 s' ∧ unat s'.rem.mem < 2 ^ (s'.t + 128).toNat ∧
      t0 + 64 + 34 - o' ≤ 64 * s'.quot.mem.length := by
  obtain ⟨t, htt⟩ : ∃ t : Nat, s.t = (t : Int) - 64 := ⟨(s.t + 64).toNat, by omega⟩
  have hto : o' ≤ t := by omega
  have htle := hi.tle
  have e1 : (s.t + 64).toNat = t := by omega
  have e2 : (s.t + 128).toNat = t + 64 := by omega
  have e3 : (s.t - ((o' : Int) - 64)).toNat = t - o' := by omega
  rw [e2] at hM
  obtain ⟨x, hx1, hx2⟩ := getAtBitOffset_spec hi.rwf t (by rw [hi.rlen]; omega)
  have hX64 : unat s.rem.mem / 2 ^ t < 2 ^ 64 := by
    rw [Nat.div_lt_iff_lt_mul (by positivity), ← pow_add, Nat.add_comm 64 t]; exact hM
  rw [Nat.mod_eq_of_lt hX64] at hx2
  have hd0 : d ≠ 0#64 := by
    intro h; have := ha.dlo; rw [h] at this; simp at this
  have hq : (x / d).toNat = x.toNat / d.toNat := BitVec.toNat_udiv
  have hle := est1_le ha hto (X := x.toNat) (M := unat s.rem.mem) (by
    rw [hx2]; exact Nat.div_mul_le_self _ _)
  have hlt := est1_lt ha hto hM
  rw [← hx2, ← hq] at hlt
  rw [← hq] at hle
  obtain ⟨q, hqe⟩ : ∃ q, x / d = q := ⟨_, rfl⟩
  rw [hqe] at hle hlt
  have hNe := hi.eq
  -- the quotient fits
  have hQW : (unat s.quot.mem + q.toNat * 2 ^ (t - o')) * (V * 2 ^ 64) ≤ A * 2 ^ 64 := by
    rw [Nat.add_mul]
    have : q.toNat * 2 ^ (t - o') * (V * 2 ^ 64) = V * 2 ^ 64 * q.toNat * 2 ^ (t - o') := by ring
    omega
  have hQlt := quot_bound ha (t := t0 + 64) hN hQW
  have hneed := addNeed_ge (t - o')
  have hcap' : t0 + 64 + 34 - o' ≤ 64 * max s.quot.mem.length (addNeed (t - o')) := by
    rcases hcap with h1 | h1
    · omega
    · omega
  obtain ⟨qb, q1, q2, q3, q4, q5⟩ := addLeftShifted_spec hi.qwf q (t - o')
    (lt_of_lt_of_le hQlt (Nat.pow_le_pow_right (by norm_num) hcap'))
  -- the subtraction
  obtain ⟨m1, m2⟩ := mulWord_spec ho.1 q
  have hsub : unat (mulWord other q) * 2 ^ (t - o' + 64) = V * 2 ^ 64 * q.toNat * 2 ^ (t - o') := by
    rw [m2, hV, pow_add]; ring
  obtain ⟨rb, r1, r2, r3, r4, r5⟩ := subtractLeftShifted_spec hi.rwf m1 (t - o' + 64)
    (by rw [hi.rlen]; omega) (by rw [hsub]; exact hle)
  refine ⟨{ quot := qb, rem := rb, t := s.t - 30 }, ?_, rfl, ⟨q2, q3, r2, ?_, ?_, ?_⟩, ?_, ?_⟩
  · unfold divStep1
    rw [e1, hx1, e3]
    simp only [Option.bind_eq_bind, Option.bind_some, hd0, if_false, hqe, q1, r1]
    rfl
  · rw [r4, hi.rlen]
  · simp only
    rw [q5, Nat.add_mul]
    rw [hsub] at r5
    have : q.toNat * 2 ^ (t - o') * (V * 2 ^ 64) = V * 2 ^ 64 * q.toNat * 2 ^ (t - o') := by ring
    omega
  · simp only; omega
  · simp only
    rw [show (s.t - 30 + 128).toNat = t + 34 by omega]
    omega
  · simp only
    rw [q4]; exact hcap'

theorem divLoop1_spec {A V L t0 o' : Nat} {other : List Word} {d : Word}
    (ho : UCanon other) (hV : unat other = V) (ha : Approx (V * 2 ^ 64) d.toNat o')
    (ho33 : 33 ≤ o') (hN : A * 2 ^ 64 < 2 ^ (t0 + 64 + 64))
    (hL : (o' : Int) - 64 ≤ t0 → t0 / 64 + 2 ≤ L) (hmod : t0 % 64 = 0) :
    ∀ (fuel : Nat) (s : DivState), DInv A V L t0 s →
    unat s.rem.mem < 2 ^ (s.t + 128).toNat →
    (t0 + 64 + 34 - o' ≤ 64 * s.quot.mem.length ∨ s.t = t0) →
    ((o' : Int) - 64 - 30 ≤ s.t ∨ s.t = t0) →
    s.t - ((o' : Int) - 64) < fuel →
    ∃ s', divLoop1 false other d ((o' : Int) - 64) fuel s = some s' ∧ s'.t < (o' : Int) - 64 ∧
      DInv A V L t0 s' ∧ unat s'.rem.mem < 2 ^ (s'.t + 128).toNat ∧
      (t0 + 64 + 34 - o' ≤ 64 * s'.quot.mem.length ∨ s'.t = t0) ∧
      ((o' : Int) - 64 - 30 ≤ s'.t ∨ s'.t = t0) := by
  intro fuel
  induction fuel with
  | zero =>
    intro s h1 h2 h3 h4 h5
    refine ⟨s, ?_, by omega, h1, h2, h3, h4⟩
    unfold divLoop1
    rw [if_neg (by omega)]
  | succ fuel ih =>
    intro s h1 h2 h3 h4 h5
    unfold divLoop1
    by_cases hc : s.t ≥ (o' : Int) - 64
    · rw [if_pos hc]
      have := h1.tle
      obtain ⟨s', e1, e2, e3, e4, e5⟩ := divStep1_spec ho hV ha ho33 hN (hL (by omega)) hmod h1 hc h2 h3
      rw [e1, Option.bind_eq_bind, Option.bind_some]
      exact ih s' e3 e4 (Or.inl e5) (by left; omega) (by omega)
    · rw [if_neg hc]
      exact ⟨s, rfl, by omega, h1, h2, h3, h4⟩

theorem divStep2_spec {A V L t0 o' : Nat} {other : List Word} {d : Word} {s : DivState}
    (ho : UCanon other) (hV : unat other = V) (ha : Approx (V * 2 ^ 64) d.toNat o')
    (ho33 : 33 ≤ o') (hN : A * 2 ^ 64 < 2 ^ (t0 + 64 + 64)) (hL : t0 / 64 + 2 ≤ L)
    (hi : DInv A V L t0 s) (ht : (o' : Int) - 64 ≤ s.t + 32) (ht' : s.t < (o' : Int) - 64)
    (hM : unat s.rem.mem < 2 * (V * 2 ^ 64) ∨ unat s.rem.mem < 2 ^ (s.t + 128).toNat)
    (hcap : t0 + 64 + 34 - o' ≤ 64 * s.quot.mem.length) :
    ∃ s', divStep2 false other d ((o' : Int) - 64) s = some s' ∧ s'.t = s.t - 30 ∧
      DInv A V L t0 s' ∧
      (unat s'.rem.mem < 2 * (V * 2 ^ 64) ∨ unat s'.rem.mem < 2 ^ (s'.t + 128).toNat) ∧
      t0 + 64 + 34 - o' ≤ 64 * s'.quot.mem.length := by
  obtain ⟨t, htt⟩ : ∃ t : Nat, s.t = (t : Int) - 64 := ⟨(s.t + 64).toNat, by omega⟩
  have hto : t < o' := by omega
  have htle := hi.tle
  have e1 : (s.t + 64).toNat = t := by omega
  have e2 : (s.t + 128).toNat = t + 64 := by omega
  have e3 : ((o' : Int) - 64 - s.t).toNat = o' - t := by omega
  rw [e2] at hM
  obtain ⟨x, hx1, hx2⟩ := getAtBitOffset_spec hi.rwf t (by rw [hi.rlen]; omega)
  have hd0 : d ≠ 0#64 := by
    intro h; have := ha.dlo; rw [h] at this; simp at this
  have hq : ((x / d) >>> (o' - t)).toNat = x.toNat / d.toNat / 2 ^ (o' - t) := by
    rw [BitVec.toNat_ushiftRight, Nat.shiftRight_eq_div_pow, BitVec.toNat_udiv]
  have hle := est2_le ha hto.le (X := x.toNat) (M := unat s.rem.mem) (by
    rw [hx2]; exact mul_pow_mod_le _ _)
  have hlt : unat s.rem.mem < V * 2 ^ 64 * (x.toNat / d.toNat / 2 ^ (o' - t)) + 2 * (V * 2 ^ 64) ∨
      unat s.rem.mem < V * 2 ^ 64 * (x.toNat / d.toNat / 2 ^ (o' - t)) + 2 ^ (t + 34) := by
    rcases hM with hM | hM
    · left; omega
    · have hX64 : unat s.rem.mem / 2 ^ t < 2 ^ 64 := by
        rw [Nat.div_lt_iff_lt_mul (by positivity), ← pow_add, Nat.add_comm 64 t]; exact hM
      rw [Nat.mod_eq_of_lt hX64] at hx2
      rw [hx2]
      exact est2_lt ha hto hM
  rw [← hq] at hlt hle
  obtain ⟨q, hqe⟩ : ∃ q, (x / d) >>> (o' - t) = q := ⟨_, rfl⟩
  rw [hqe] at hle hlt
  have hNe := hi.eq
  have hQW : (unat s.quot.mem + q.toNat * 2 ^ 0) * (V * 2 ^ 64) ≤ A * 2 ^ 64 := by
    rw [pow_zero, Nat.mul_one, Nat.add_mul]
    have : q.toNat * (V * 2 ^ 64) = V * 2 ^ 64 * q.toNat := by ring
    omega
  have hQlt := quot_bound ha (t := t0 + 64) hN hQW
  have hcap' : t0 + 64 + 34 - o' ≤ 64 * max s.quot.mem.length (addNeed 0) := by omega
  obtain ⟨qb, q1, q2, q3, q4, q5⟩ := addLeftShifted_spec hi.qwf q 0
    (lt_of_lt_of_le hQlt (Nat.pow_le_pow_right (by norm_num) hcap'))
  obtain ⟨m1, m2⟩ := mulWord_spec ho.1 q
  have hsub : unat (mulWord other q) * 2 ^ 64 = V * 2 ^ 64 * q.toNat := by
    rw [m2, hV]; ring
  obtain ⟨rb, r1, r2, r3, r4, r5⟩ := subtractLeftShifted_spec hi.rwf m1 64
    (by rw [hi.rlen]; omega) (by rw [hsub]; exact hle)
  refine ⟨{ quot := qb, rem := rb, t := s.t - 30 }, ?_, rfl, ⟨q2, q3, r2, ?_, ?_, ?_⟩, ?_, ?_⟩
  · unfold divStep2
    rw [e1, hx1, e3]
    simp only [Option.bind_eq_bind, Option.bind_some, hd0, if_false, hqe, q1, r1]
  · rw [r4, hi.rlen]
  · simp only
    rw [q5, Nat.add_mul, pow_zero, Nat.mul_one]
    rw [hsub] at r5
    have : q.toNat * (V * 2 ^ 64) = V * 2 ^ 64 * q.toNat := by ring
    omega
  · simp only; omega
  · simp only
    rw [show (s.t - 30 + 128).toNat = t + 34 by omega]
    rcases hlt with hlt | hlt
    · left; omega
    · right; omega
  · simp only
    rw [q4]; exact hcap'

theorem divLoop2_spec {A V L t0 o' : Nat} {other : List Word} {d : Word}
    (ho : UCanon other) (hV : unat other = V) (ha : Approx (V * 2 ^ 64) d.toNat o')
    (ho33 : 33 ≤ o') (hN : A * 2 ^ 64 < 2 ^ (t0 + 64 + 64))
    (hL : (o' : Int) - 64 ≤ t0 + 32 → t0 / 64 + 2 ≤ L) :
    ∀ (fuel : Nat) (s : DivState), DInv A V L t0 s → s.t < (o' : Int) - 64 →
    (unat s.rem.mem < 2 * (V * 2 ^ 64) ∨ unat s.rem.mem < 2 ^ (s.t + 128).toNat) →
    t0 + 64 + 34 - o' ≤ 64 * s.quot.mem.length →
    s.t + 32 - ((o' : Int) - 64) < 30 * fuel →
    ∃ s', divLoop2 false other d ((o' : Int) - 64) fuel s = some s' ∧
      DInv A V L t0 s' ∧ unat s'.rem.mem < 2 * (V * 2 ^ 64) ∧
      t0 + 64 + 34 - o' ≤ 64 * s'.quot.mem.length := by
  have hexit : ∀ s : DivState, s.t + 32 < (o' : Int) - 64 →
      (unat s.rem.mem < 2 * (V * 2 ^ 64) ∨ unat s.rem.mem < 2 ^ (s.t + 128).toNat) →
      unat s.rem.mem < 2 * (V * 2 ^ 64) := by
    intro s h1 h2
    rcases h2 with h2 | h2
    · exact h2
    · exact exit_lt ha (by omega) h2
  intro fuel
  induction fuel with
  | zero =>
    intro s h1 h2 h3 h4 h5
    refine ⟨s, ?_, h1, hexit s (by omega) h3, h4⟩
    unfold divLoop2
    rw [if_neg (by omega)]
  | succ fuel ih =>
    intro s h1 h2 h3 h4 h5
    unfold divLoop2
    by_cases hc : s.t + 32 ≥ (o' : Int) - 64
    · rw [if_pos hc]
      have := h1.tle
      obtain ⟨s', e1, e2, e3, e4, e5⟩ :=
        divStep2_spec ho hV ha ho33 hN (hL (by omega)) h1 hc h2 h3 h4
      rw [e1, Option.bind_eq_bind, Option.bind_some]
      exact ih s' e3 (by omega) e4 e5 (by omega)
    · rw [if_neg hc]
      exact ⟨s, rfl, h1, hexit s (by omega) h3, h4⟩

theorem ucanon_zero_cons {a : List Word} (h : UCanon a) (h2 : unat a ≠ 0) : UCanon (0#64 :: a) := by
  refine ⟨by simp, fun _ => ?_⟩
  rw [top_cons _ h.1]
  by_cases hl : 2 ≤ a.length
  · exact h.2 hl
  · intro e
    obtain ⟨r, hr, hV⟩ := unat_eq_top h.1
    rw [show a.length - 1 = 0 by omega] at hr hV
    rw [e] at hV
    simp at hr hV
    omega

theorem unat_zero_cons (a : List Word) : unat (0#64 :: a) = unat a * 2 ^ 64 := by
  simp only [unat, show (0#64).toNat = 0 from rfl]; ring

theorem shl64_spec (a : List Word) :
    shl a 64 = some (trim (0#64 :: a)) := by
  unfold shl
  simp

theorem trim_of_canon {ws : List Word} (h : UCanon ws) : trim ws = ws :=
  let t := trim_spec h.1
  t.1.unique h t.2

theorem shiftRightWord_spec {ws : List Word} (h : ws ≠ []) :
    UCanon (shiftRightWord ws) ∧ unat (shiftRightWord ws) = unat ws / 2 ^ 64 := by
  cases ws with
  | nil => exact absurd rfl h
  | cons w ws =>
    obtain ⟨h1, h2⟩ := trim_spec (ws := ws ++ [0#64]) (by simp)
    refine ⟨h1, ?_⟩
    rw [shiftRightWord, h2, unat_append]
    have := w.isLt
    simp only [unat, show (0#64).toNat = 0 from rfl]
    omega

theorem divideRemainderSlow_spec {a b : List Word} (ha : UCanon a) (hb : UCanon b)
    (hb0 : unat b ≠ 0) (hl : 2 ≤ a.length ∨ 2 ≤ b.length) :
    ∃ q r, divideRemainderSlow false a b = some (q, r) ∧ UCanon q ∧ UCanon r ∧
      unat a = unat q * unat b + unat r ∧ unat r < unat b := by
  obtain ⟨d, o', hd, ho33, ho97, hap⟩ := divisorParts_spec hb hb0
  unfold divideRemainderSlow
  rw [hd, shl64_spec]
  simp only [Option.bind_eq_bind, Option.bind_some]
  obtain ⟨c1, c2⟩ := trim_spec (ws := 0#64 :: a) (by simp)
  rw [unat_zero_cons] at c2
  have halen : a.length ≠ 0 := by simpa using ha.1
  have hLen : 2 ≤ a.length → (trim (0#64 :: a)).length = a.length + 1 := by
    intro h2
    have hne : unat a ≠ 0 := by
      have := ha.lower h2
      have : 0 < 2 ^ (64 * (a.length - 1)) := by positivity
      omega
    rw [trim_of_canon (ucanon_zero_cons ha hne), List.length_cons]
  have hr0ne : (trim (0#64 :: a)).length ≠ 0 := by
    have := c1.1
    simpa using this
  generalize trim (0#64 :: a) = r0 at *
  obtain ⟨t0, ht0⟩ : ∃ t0, (a.length - 1) * 64 = t0 := ⟨_, rfl⟩
  rw [ht0]
  have hAlt : unat a * 2 ^ 64 < 2 ^ (t0 + 64 + 64) := by
    have h1 := unat_lt a
    rw [pow_split (show t0 + 64 + 64 = 64 * a.length + 64 by omega)]
    exact Nat.mul_lt_mul_of_pos_right h1 (by positivity)
  have hInv : DInv (unat a) (unat b) r0.length t0
      { quot := { mem := [0#64], used := 1 }, rem := { mem := r0, used := r0.length }, t := t0 } := by
    refine ⟨⟨le_refl _, le_refl _, ?_⟩, ucanon_singleton _, ⟨?_, le_refl _, unat_lt _⟩, rfl, ?_,
      le_refl _⟩
    · simp [unat]
    · simp only; omega
    · simp only
      rw [c2, show unat [0#64] = 0 by simp [unat], Nat.zero_mul, Nat.zero_add]
  have hLcond : (o' : Int) - 64 ≤ t0 + 32 → t0 / 64 + 2 ≤ r0.length := by
    intro h
    by_cases h2 : 2 ≤ a.length
    · rw [hLen h2]; omega
    · have := ho97 (by omega); omega
  obtain ⟨s1, l1, l2, l3, l4, l5, l6⟩ := divLoop1_spec (A := unat a) (L := r0.length) (t0 := t0)
    hb rfl hap ho33 hAlt (fun h => hLcond (by omega)) (by omega)
    (((t0 : Int) - ((o' : Int) - 64)).toNat + 1) _ hInv
    (by simp only; rw [c2, show ((t0 : Int) + 128).toNat = t0 + 64 + 64 by omega]; exact hAlt)
    (Or.inr rfl) (Or.inr rfl) (by simp only; omega)
  rw [l1, Option.bind_some]
  have hcap : t0 + 64 + 34 - o' ≤ 64 * s1.quot.mem.length := by
    rcases l5 with h | h
    · exact h
    · have h1 := l3.qwf.pos
      have h2 := l3.qwf.le
      omega
  obtain ⟨s2, k1, k2, k3, k4⟩ := divLoop2_spec (A := unat a) (L := r0.length) (t0 := t0)
    hb rfl hap ho33 hAlt hLcond 3 s1 l3 l2 (Or.inr l4) hcap (by omega)
  rw [k1, Option.bind_some]
  simp only [Bool.false_and, Bool.false_eq_true, if_false]
  have hwne : s2.rem.words ≠ [] := by
    have h1 := k2.rwf.pos
    have h2 := k2.rwf.le
    intro e
    have := congrArg List.length e
    rw [Blk.words, List.length_take, List.length_nil] at this
    omega
  obtain ⟨w1, w2⟩ := shiftRightWord_spec hwne
  rw [k2.rwf.unat_words] at w2
  have heq := k2.eq
  -- the remainder is a multiple of 2^64
  have hR : unat a = unat s2.quot.mem * unat b + unat s2.rem.mem / 2 ^ 64 ∧
      unat s2.rem.mem / 2 ^ 64 < 2 * unat b := by
    have e : unat s2.quot.mem * (unat b * 2 ^ 64) = (unat s2.quot.mem * unat b) * 2 ^ 64 := by ring
    rw [e] at heq
    generalize unat s2.quot.mem * unat b = X at *
    omega
  rw [← w2] at hR
  generalize shiftRightWord s2.rem.words = r at *
  rw [ge_spec w1 hb]
  have hqw := k2.qwf.unat_words
  by_cases hc : unat b ≤ unat r
  · simp only [hc, decide_true, if_true]
    obtain ⟨r', s3, s4, s5⟩ := sub_spec w1 hb hc
    rw [s3, Option.bind_some]
    have hQW : (unat s2.quot.mem + (1#64).toNat * 2 ^ 0) * (unat b * 2 ^ 64) ≤ unat a * 2 ^ 64 := by
      rw [show (1#64).toNat * 2 ^ 0 = 1 from rfl, ← Nat.mul_assoc]
      apply Nat.mul_le_mul_right
      rw [Nat.add_mul]; omega
    have hQlt := quot_bound hap (t := t0 + 64) hAlt hQW
    obtain ⟨qb, q1, q2, q3, q4, q5⟩ := addLeftShifted_spec k2.qwf 1#64 0
      (lt_of_lt_of_le hQlt (Nat.pow_le_pow_right (by norm_num) (by omega)))
    rw [q1, Option.bind_some]
    refine ⟨_, _, rfl, q3, s4, ?_, by omega⟩
    rw [q2.unat_words, q5, s5, show (1#64).toNat * 2 ^ 0 = 1 from rfl, Nat.add_mul]
    omega
  · simp only [hc, decide_false]
    exact ⟨_, _, rfl, k2.qcan, w1, by rw [hqw]; exact hR.1, by omega⟩

theorem ucanon_length_one {w : List Word} (h : UCanon w) (hl : w.length < 2) : ∃ x, w = [x] := by
  have := h.1
  match w, this, hl with
  | [x], _, _ => exact ⟨x, rfl⟩
  | _ :: _ :: _, _, h => simp at h; omega

theorem divideRemainder_spec {a b : List Word} (ha : UCanon a) (hb : UCanon b)
    (hb0 : unat b ≠ 0) :
    ∃ q r, divideRemainder false a b = some (q, r) ∧ UCanon q ∧ UCanon r ∧
      unat a = unat q * unat b + unat r ∧ unat r < unat b := by
  unfold divideRemainder
  split
  · rename_i h
    obtain ⟨x, rfl⟩ := ucanon_length_one ha (by omega)
    obtain ⟨y, rfl⟩ := ucanon_length_one hb (by omega)
    simp only [unat, Nat.mul_zero, Nat.add_zero] at hb0
    have hy : y ≠ 0#64 := by intro h; rw [h] at hb0; exact hb0 rfl
    simp only [BigInt.first, hy, if_false]
    refine ⟨_, _, rfl, ucanon_singleton _, ucanon_singleton _, ?_, ?_⟩
    · simp only [unat, Nat.mul_zero, Nat.add_zero, BitVec.toNat_udiv, BitVec.toNat_umod]
      have := Nat.div_add_mod x.toNat y.toNat
      rw [Nat.mul_comm] at this
      exact this.symm
    · simp only [unat, Nat.mul_zero, Nat.add_zero, BitVec.toNat_umod]
      exact Nat.mod_lt _ (by omega)
  · rename_i h
    have h1 : a.length ≠ 0 := by simpa using ha.1
    have h2 : b.length ≠ 0 := by simpa using hb.1
    exact divideRemainderSlow_spec ha hb hb0 (by omega)

end Walnut.BigUInt
