/- Increment, decrement, shift, extreme values, absolute values. -/
import Verif.BigInt.Sign
import Verif.BigInt.MiscModel
import Mathlib.Algebra.Order.Ring.Abs
import Mathlib.Tactic.IntervalCases

namespace Walnut.BigInt

/-- A nonempty word list is canonical when its value does not fit fewer words. -/
theorem canon_of_large {ws : List Word} (h0 : ws ≠ [])
    (h : 2 ≤ ws.length → sint ws < -2 ^ (64 * (ws.length - 1) - 1) ∨
      2 ^ (64 * (ws.length - 1) - 1) ≤ sint ws) : Canon ws := by
  rw [canon_iff_minimal]
  refine ⟨h0, fun ws' h' e => ?_⟩
  by_contra hlt
  have hl : ws'.length ≠ 0 := by simpa using h'
  have hb := sint_bounds h'
  have h2 := h (by omega)
  rw [← e] at h2
  have hp : (2 : Int) ^ (64 * ws'.length - 1) ≤ 2 ^ (64 * (ws.length - 1) - 1) :=
    pow_le_pow_right₀ (by norm_num) (by omega)
  omega

/-! ### Increment and decrement -/

theorem word_add_one (w : Word) (h : (w + 1#64).toInt ≠ -2 ^ 63) :
    (w + 1#64).toInt = w.toInt + 1 := by
  have h1 : (w + 1#64).toNat = (w.toNat + 1) % 2 ^ 64 := by simp [BitVec.toNat_add]
  have hw := w.isLt
  rcases Word.toInt_cases (w + 1#64) with ⟨a, b⟩ | ⟨a, b⟩ <;>
    rcases Word.toInt_cases w with ⟨c, d⟩ | ⟨c, d⟩ <;> omega

theorem word_add_one_overflow (w : Word) :
    (w + 1#64).toInt = -2 ^ 63 ↔ w.toInt = 2 ^ 63 - 1 := by
  have h1 : (w + 1#64).toNat = (w.toNat + 1) % 2 ^ 64 := by simp [BitVec.toNat_add]
  have hw := w.isLt
  rcases Word.toInt_cases (w + 1#64) with ⟨a, b⟩ | ⟨a, b⟩ <;>
    rcases Word.toInt_cases w with ⟨c, d⟩ | ⟨c, d⟩ <;> omega

theorem word_add_one_zero (w : Word) : w + 1#64 = 0#64 ↔ w.toNat = 2 ^ 64 - 1 := by
  have h1 : (w + 1#64).toNat = (w.toNat + 1) % 2 ^ 64 := by simp [BitVec.toNat_add]
  have hw := w.isLt
  constructor
  · intro h; rw [h] at h1; simp at h1; omega
  · intro h; apply BitVec.eq_of_toNat_eq; rw [h1, h]; rfl

theorem incLoop_spec : ∀ {ws : List Word}, ws ≠ [] →
    (incLoop ws = none ∧ sint ws = 2 ^ (64 * ws.length - 1) - 1) ∨
    ∃ r t, incLoop ws = some (r, t) ∧ r.length = ws.length ∧ sint r = sint ws + 1 ∧
      sint ws ≠ 2 ^ (64 * ws.length - 1) - 1
  | [], h => absurd rfl h
  | [w], _ => by
    unfold incLoop
    split
    · rename_i h
      exact .inl ⟨rfl, (word_add_one_overflow w).mp h⟩
    · rename_i h
      refine .inr ⟨_, _, rfl, rfl, word_add_one w h, fun e => h ((word_add_one_overflow w).mpr e)⟩
  | w :: w' :: ws, _ => by
    have hw := w.isLt
    have hb := sint_bounds (ws := w' :: ws) (by simp)
    have hpow : (2 : Int) ^ (64 * (w :: w' :: ws).length - 1)
        = 2 ^ 64 * 2 ^ (64 * (w' :: ws).length - 1) := by
      rw [← pow_add]; congr 1; simp only [List.length_cons]; omega
    unfold incLoop
    split
    · rename_i h
      have h' : w.toNat ≠ 2 ^ 64 - 1 := fun e => h ((word_add_one_zero w).mpr e)
      have e1 : (w + 1#64).toNat = w.toNat + 1 := by
        rw [BitVec.toNat_add]; simp; omega
      refine .inr ⟨_, _, rfl, rfl, ?_, ?_⟩
      · simp only [sint, e1]; push_cast; ring
      · rw [hpow]; simp only [sint]
        generalize (2 : Int) ^ (64 * (w' :: ws).length - 1) = P at *
        omega
    · rename_i h
      rw [not_not] at h
      have h' := (word_add_one_zero w).mp h
      rcases incLoop_spec (ws := w' :: ws) (by simp) with ⟨e1, e2⟩ | ⟨r, t, e1, e2, e3, e4⟩
      · left
        rw [e1, hpow]
        refine ⟨rfl, ?_⟩
        simp only [sint, e2, h']; push_cast; ring
      · right
        rw [e1, hpow]
        have hr : r ≠ [] := by
          intro e; rw [e] at e2; simp at e2
        refine ⟨_, _, rfl, by simpa using e2, ?_, ?_⟩
        · show sint ((w + 1#64) :: r) = _
          rw [sint_cons _ hr, e3, h]; simp only [sint, h']; simp; ring
        · simp only [sint, h']
          intro e
          apply e4
          push_cast at e
          generalize (2 : Int) ^ (64 * (w' :: ws).length - 1) = P at *
          omega

theorem isHalfWord_len {ws : List Word} (h : isHalfWord ws = true) :
    ∃ w, ws = [w] ∧ FitsHalf w.toInt := isHalfWord_elim h

theorem inc_spec {ws : List Word} (h : Canon ws) :
    (inc ws = none ∧ sint ws = 2 ^ (64 * ws.length - 1) - 1) ∨
    ∃ r, inc ws = some r ∧ sint r = sint ws + 1 ∧ sint ws ≠ 2 ^ (64 * ws.length - 1) - 1 ∧
      ((2 ≤ ws.length → sint ws ≠ -2 ^ (64 * (ws.length - 1) - 1) - 1) → Canon r) := by
  unfold inc
  split
  · rename_i hh
    obtain ⟨w, rfl, hf⟩ := isHalfWord_len hh
    have hv : (w + 1#64).toInt = w.toInt + 1 := by
      apply word_add_one
      intro e
      have := (word_add_one_overflow w).mp e
      unfold FitsHalf at hf
      omega
    refine .inr ⟨_, rfl, hv, ?_, fun _ => canon_singleton _⟩
    unfold FitsHalf at hf
    simp [sint]; omega
  · rcases incLoop_spec h.ne_nil with ⟨e1, e2⟩ | ⟨r, t, e1, e2, e3, e4⟩
    · left; rw [e1]; exact ⟨rfl, e2⟩
    · right
      have hr : r ≠ [] := by
        intro e; rw [e] at e2; exact h.ne_nil (List.length_eq_zero_iff.mp e2.symm)
      rw [e1]
      refine ⟨_, rfl, ?_, e4, ?_⟩
      · cases t <;> simp [sint_trim, e3]
      · intro hb
        cases t
        · simp only [Bool.false_eq_true, if_false]
          apply canon_of_large hr
          rw [e2, e3]
          intro h2
          have := hb h2
          have := h.large h2
          omega
        · exact trim_canon hr

theorem word_sub_one (w : Word) (h : (w - 1#64).toInt ≠ 2 ^ 63 - 1) :
    (w - 1#64).toInt = w.toInt - 1 := by
  have h1 : (w - 1#64).toNat = (2 ^ 64 - 1 + w.toNat) % 2 ^ 64 := by simp [BitVec.toNat_sub]
  have hw := w.isLt
  rcases Word.toInt_cases (w - 1#64) with ⟨a, b⟩ | ⟨a, b⟩ <;>
    rcases Word.toInt_cases w with ⟨c, d⟩ | ⟨c, d⟩ <;> omega

theorem word_sub_one_overflow (w : Word) (h : (w - 1#64).toInt = 2 ^ 63 - 1) :
    w.toInt = -2 ^ 63 ∧ (w - 1#64).toNat = 2 ^ 63 - 1 := by
  have h1 : (w - 1#64).toNat = (2 ^ 64 - 1 + w.toNat) % 2 ^ 64 := by simp [BitVec.toNat_sub]
  have hw := w.isLt
  rcases Word.toInt_cases (w - 1#64) with ⟨a, b⟩ | ⟨a, b⟩ <;>
    rcases Word.toInt_cases w with ⟨c, d⟩ | ⟨c, d⟩ <;> omega

theorem word_sub_one_neg (w : Word) : (w - 1#64).toInt = -1 ↔ w.toNat = 0 := by
  have h1 : (w - 1#64).toNat = (2 ^ 64 - 1 + w.toNat) % 2 ^ 64 := by simp [BitVec.toNat_sub]
  have hw := w.isLt
  rcases Word.toInt_cases (w - 1#64) with ⟨a, b⟩ | ⟨a, b⟩ <;> omega

theorem decLoop_spec : ∀ {ws : List Word}, ws ≠ [] →
    sint (decLoop ws).1 = sint ws - 1 ∧
    ((decLoop ws).1.length = ws.length ∨
     ((decLoop ws).1.length = ws.length + 1 ∧ sint ws = -2 ^ (64 * ws.length - 1)))
  | [], h => absurd rfl h
  | [w], _ => by
    unfold decLoop
    split
    · rename_i h
      obtain ⟨h1, h2⟩ := word_sub_one_overflow w h
      refine ⟨?_, .inr ⟨rfl, h1⟩⟩
      simp only [sint, h1, h2]
      decide
    · rename_i h
      exact ⟨word_sub_one w h, .inl rfl⟩
  | w :: w' :: ws, _ => by
    have hw := w.isLt
    have hb := sint_bounds (ws := w' :: ws) (by simp)
    have hpow : (2 : Int) ^ (64 * (w :: w' :: ws).length - 1)
        = 2 ^ 64 * 2 ^ (64 * (w' :: ws).length - 1) := by
      rw [← pow_add]; congr 1; simp only [List.length_cons]; omega
    have hs : (w - 1#64).toNat = (2 ^ 64 - 1 + w.toNat) % 2 ^ 64 := by simp [BitVec.toNat_sub]
    unfold decLoop
    split
    · rename_i h
      have h' : w.toNat ≠ 0 := fun e => h ((word_sub_one_neg w).mpr e)
      refine ⟨?_, .inl rfl⟩
      simp only [sint]
      omega
    · rename_i h
      rw [not_not] at h
      have h' := (word_sub_one_neg w).mp h
      obtain ⟨e1, e2⟩ := decLoop_spec (ws := w' :: ws) (by simp)
      have hne : (decLoop (w' :: ws)).1 ≠ [] := by
        intro e; rw [e] at e2; simp at e2
      refine ⟨?_, ?_⟩
      · show sint ((w - 1#64) :: (decLoop (w' :: ws)).1) = _
        rw [sint_cons _ hne, e1, hs, h']; simp only [sint, h']; norm_num; ring
      · rcases e2 with e2 | ⟨e2, e3⟩
        · left; simpa using e2
        · right
          rw [hpow]
          refine ⟨by simpa using e2, ?_⟩
          simp only [sint, h', e3]; push_cast; ring

theorem dec_spec {ws : List Word} (h : Canon ws) :
    sint (dec ws) = sint ws - 1 ∧
      ((2 ≤ ws.length → sint ws ≠ 2 ^ (64 * (ws.length - 1) - 1)) → Canon (dec ws)) := by
  unfold dec
  split
  · rename_i hh
    obtain ⟨w, rfl, hf⟩ := isHalfWord_len hh
    unfold FitsHalf at hf
    refine ⟨?_, fun _ => canon_singleton _⟩
    apply word_sub_one
    intro e
    have := (word_sub_one_overflow w e).1
    omega
  · obtain ⟨e1, e2⟩ := decLoop_spec h.ne_nil
    have h0 : ws.length ≠ 0 := by simpa using h.ne_nil
    have hne : (decLoop ws).1 ≠ [] := by
      intro e; rw [e] at e2; simp at e2; omega
    split
    · exact ⟨by rw [sint_trim, e1], fun _ => trim_canon hne⟩
    · refine ⟨e1, fun hb => canon_of_large hne ?_⟩
      rw [e1]
      intro h2
      rcases e2 with e2 | ⟨e2, e3⟩
      · rw [e2] at h2 ⊢
        have := h.large h2
        have := hb h2
        omega
      · rw [e2, e3]
        left
        simp

/-! ### Left shift -/

theorem shl_or_toNat (w p : Word) {k : Nat} (hk : 0 < k) (hk' : k < 64) :
    (w <<< k ||| p >>> (64 - k)).toNat = w.toNat * 2 ^ k % 2 ^ 64 + p.toNat / 2 ^ (64 - k) := by
  have hp := p.isLt
  have e1 : (w <<< k).toNat = 2 ^ k * (w.toNat % 2 ^ (64 - k)) := by
    rw [BitVec.toNat_shiftLeft, Nat.shiftLeft_eq, Nat.mul_comm,
      show (2 : Nat) ^ 64 = 2 ^ k * 2 ^ (64 - k) by rw [← pow_add]; congr 1; omega,
      Nat.mul_mod_mul_left]
  have e2 : w.toNat * 2 ^ k % 2 ^ 64 = 2 ^ k * (w.toNat % 2 ^ (64 - k)) := by
    rw [← e1, BitVec.toNat_shiftLeft, Nat.shiftLeft_eq]
  have e3 : p.toNat / 2 ^ (64 - k) < 2 ^ k := by
    rw [Nat.div_lt_iff_lt_mul (by positivity), ← pow_add,
      show k + (64 - k) = 64 by omega]
    exact hp
  rw [BitVec.toNat_or, e1, BitVec.toNat_ushiftRight, Nat.shiftRight_eq_div_pow, e2,
    Nat.two_pow_add_eq_or_of_lt e3]

theorem nat_split (x : Nat) {k : Nat} (hk' : k ≤ 64) :
    x * 2 ^ k = x * 2 ^ k % 2 ^ 64 + 2 ^ 64 * (x / 2 ^ (64 - k)) := by
  have h := Nat.mod_add_div (x * 2 ^ k) (2 ^ 64)
  have e : x * 2 ^ k / 2 ^ 64 = x / 2 ^ (64 - k) := by
    rw [show (2 : Nat) ^ 64 = 2 ^ (64 - k) * 2 ^ k by rw [← pow_add]; congr 1; omega,
      Nat.mul_div_mul_right _ _ (by positivity)]
  rw [← e]; exact h.symm

theorem int_split (w : Word) {k : Nat} (hk' : k ≤ 64) :
    w.toInt * 2 ^ k = ((w.toNat * 2 ^ k % 2 ^ 64 : Nat) : Int)
      + 2 ^ 64 * (w.toInt / 2 ^ (64 - k)) := by
  have hn := nat_split w.toNat hk'
  have hp : (2 : Int) ^ (64 - k) * 2 ^ k = 2 ^ 64 := by rw [← pow_add]; congr 1; omega
  have hn' : ((w.toNat : Int)) * 2 ^ k = ((w.toNat * 2 ^ k % 2 ^ 64 : Nat) : Int)
      + 2 ^ 64 * ((w.toNat : Int) / 2 ^ (64 - k)) := by exact_mod_cast hn
  rcases Word.toInt_cases w with ⟨h1, h2⟩ | ⟨h1, h2⟩
  · rw [h2]; exact hn'
  · have e : (w.toInt) / 2 ^ (64 - k) = (w.toNat : Int) / 2 ^ (64 - k) - 2 ^ k := by
      rw [h2, ← hp, sub_eq_add_neg, ← mul_neg, Int.add_mul_ediv_left _ _ (by positivity)]; ring
    rw [e, h2, sub_mul, hn']
    ring

theorem sint_shlLoop {k : Nat} (hk : 0 < k) (hk' : k < 64) : ∀ (ws : List Word) (p : Word),
    ws ≠ [] → sint (shlLoop k ws p) = sint ws * 2 ^ k + (p.toNat / 2 ^ (64 - k) : Nat)
  | [], _, h => absurd rfl h
  | [w], p, _ => by
    simp only [shlLoop, sint, shl_or_toNat w p hk hk', BitVec.toInt_sshiftRight,
      Int.shiftRight_eq_div_pow]
    rw [int_split w hk'.le]
    push_cast
    ring
  | w :: w' :: ws, p, _ => by
    have ih := sint_shlLoop hk hk' (w' :: ws) w (by simp)
    have hne : shlLoop k (w' :: ws) w ≠ [] := by simp [shlLoop]
    rw [shlLoop, sint_cons _ hne, ih, shl_or_toNat w p hk hk']
    have hn := nat_split w.toNat hk'.le
    simp only [sint]
    have hn' : ((w.toNat : Int)) * 2 ^ k = ((w.toNat * 2 ^ k % 2 ^ 64 : Nat) : Int)
        + 2 ^ 64 * ((w.toNat / 2 ^ (64 - k) : Nat) : Int) := by exact_mod_cast hn
    rw [add_mul, hn']
    generalize (w.toNat * 2 ^ k % 2 ^ 64) = A
    generalize (w.toNat / 2 ^ (64 - k)) = B
    generalize (p.toNat / 2 ^ (64 - k)) = C
    push_cast
    ring

theorem unat_replicate_zero (n : Nat) : unat (List.replicate n 0#64) = 0 := by
  induction n with
  | zero => rfl
  | succ n ih => simp [List.replicate_succ, unat, ih]

theorem sint_zeros_append (n : Nat) {ws : List Word} (h : ws ≠ []) :
    sint (List.replicate n 0#64 ++ ws) = sint ws * 2 ^ (64 * n) := by
  induction n with
  | zero => simp
  | succ n ih =>
    rw [List.replicate_succ, List.cons_append, sint_cons _ (by simp [h]), ih,
      show 64 * (n + 1) = 64 * n + 64 by ring, pow_add]
    simp; ring

theorem shl_spec {ws : List Word} (h : ws ≠ []) (s : Nat) :
    Canon (shl ws s) ∧ sint (shl ws s) = sint ws * 2 ^ s := by
  unfold shl
  split
  · rename_i hc
    obtain ⟨h1, h2, h3⟩ := hc
    obtain ⟨w, rfl⟩ := List.length_eq_one_iff.mp h1
    refine ⟨canon_singleton _, ?_⟩
    simp only [first, sint] at h3 ⊢
    have e := congrArg BitVec.toInt h3
    rw [BitVec.toInt_sshiftRight, Int.shiftRight_eq_div_pow] at e
    have hn : ((w <<< s).toInt) % 2 ^ s = 0 := by
      have : ((w <<< s).toNat : Int) % 2 ^ s = 0 := by
        rw [BitVec.toNat_shiftLeft, Nat.shiftLeft_eq]
        apply Int.emod_eq_zero_of_dvd
        have hd : (2 : Nat) ^ s ∣ w.toNat * 2 ^ s % 2 ^ 64 :=
          (Nat.dvd_mod_iff (pow_dvd_pow 2 h2.le)).mpr (Dvd.intro_left _ rfl)
        exact_mod_cast hd
      have hd : (2 : Int) ^ s ∣ 2 ^ 64 := pow_dvd_pow 2 h2.le
      rcases Word.toInt_cases (w <<< s) with ⟨_, b⟩ | ⟨_, b⟩
      · rw [b, this]
      · rw [b, Int.sub_emod, this, Int.emod_eq_zero_of_dvd hd]; simp
    have := Int.mul_ediv_add_emod (w <<< s).toInt (2 ^ s)
    rw [hn] at this
    push_cast at e
    rw [e] at this
    linarith
  · simp only
    have hd := Nat.div_add_mod s 64
    split
    · rename_i hk
      have hk' : s % 64 < 64 := Nat.mod_lt _ (by norm_num)
      have hne : shlLoop (s % 64) ws 0#64 ≠ [] := by cases ws <;> simp [shlLoop]
      refine ⟨trim_canon (by simp [hne]), ?_⟩
      rw [sint_trim, sint_zeros_append _ hne, sint_shlLoop hk hk' ws _ h]
      simp only [BitVec.toNat_ofNat, Nat.zero_mod, Nat.zero_div, Nat.cast_zero, add_zero]
      rw [mul_assoc, ← pow_add]; congr 2; omega
    · rename_i hk
      refine ⟨trim_canon (by simp [h]), ?_⟩
      rw [sint_trim, sint_zeros_append _ h]; congr 2; omega

/-! ### Extreme values -/

theorem unat_replicate_ones (n : Nat) :
    unat (List.replicate n (BitVec.allOnes 64)) + 1 = 2 ^ (64 * n) := by
  induction n with
  | zero => rfl
  | succ n ih =>
    rw [List.replicate_succ, unat, show 64 * (n + 1) = 64 * n + 64 by ring, pow_add, ← ih]
    simp only [BitVec.toNat_allOnes]
    omega

theorem setBits_toNat : ∀ n, n < 64 → (setBits n).toNat = 2 ^ n - 1
  | 0, _ => rfl
  | n + 1, h => by
    have ih := setBits_toNat n (by omega)
    have hp : 2 ^ n < 2 ^ 64 := Nat.pow_lt_pow_right (by norm_num) (by omega)
    have h1 : (1#64 <<< n).toNat = 2 ^ n * 1 := by
      rw [BitVec.toNat_shiftLeft, Nat.shiftLeft_eq]
      rw [show (1#64).toNat = 1 from rfl, one_mul, mul_one]
      exact Nat.mod_eq_of_lt hp
    have hp0 : 0 < 2 ^ n := by positivity
    rw [setBits, BitVec.toNat_or, ih, h1, Nat.or_comm,
      ← Nat.two_pow_add_eq_or_of_lt (by omega)]
    rw [pow_succ]
    omega

theorem clearBits_toNat : ∀ n, n < 64 → (clearBits n) = ~~~ (setBits n)
  | 0, _ => rfl
  | n + 1, h => by
    have ih := clearBits_toNat n (by omega)
    rw [clearBits, ih, setBits, BitVec.not_or]

theorem size_split (n : Nat) :
    64 * ((n + 64) / 64 - 1) + (n - ((n + 64) / 64 - 1) * 64) = n ∧
      n - ((n + 64) / 64 - 1) * 64 < 64 := by
  omega

theorem maxValue_spec (n : Nat) :
    Canon (maxValue n) ∧ sint (maxValue n) = 2 ^ n - 1 := by
  unfold maxValue
  simp only
  obtain ⟨h1, h2⟩ := size_split n
  generalize (n + 64) / 64 - 1 = k at *
  generalize n - k * 64 = m at *
  refine ⟨trim_canon (by simp), ?_⟩
  rw [sint_trim, sint_snoc, List.length_replicate]
  have hu := unat_replicate_ones k
  have hu' : (unat (List.replicate k (BitVec.allOnes 64)) : Int) = 2 ^ (64 * k) - 1 := by
    have : ((unat (List.replicate k (BitVec.allOnes 64)) : Int)) + 1 = 2 ^ (64 * k) := by
      exact_mod_cast hu
    omega
  have hs := setBits_toNat m h2
  have hm : 2 ^ m ≤ 2 ^ 63 := Nat.pow_le_pow_right (by norm_num) (by omega)
  have hm0 : 0 < 2 ^ m := by positivity
  have hi : (setBits m).toInt = 2 ^ m - 1 := by
    have hc : ((2 : Int)) ^ m = ((2 ^ m : Nat) : Int) := by push_cast; rfl
    rw [hc]
    rcases Word.toInt_cases (setBits m) with ⟨a, b⟩ | ⟨a, b⟩ <;> omega
  rw [hu', hi, ← h1, pow_add]
  ring

theorem minValue_spec (n : Nat) :
    Canon (minValue n) ∧ sint (minValue n) = -2 ^ n := by
  unfold minValue
  simp only
  obtain ⟨h1, h2⟩ := size_split n
  generalize (n + 64) / 64 - 1 = k at *
  generalize n - k * 64 = m at *
  refine ⟨trim_canon (by simp), ?_⟩
  rw [sint_trim, sint_snoc, List.length_replicate, unat_replicate_zero]
  have hs := setBits_toNat m h2
  have hm : 2 ^ m ≤ 2 ^ 63 := Nat.pow_le_pow_right (by norm_num) (by omega)
  have hm0 : 0 < 2 ^ m := by positivity
  have hi : (clearBits m).toInt = -2 ^ m := by
    have hc : ((2 : Int)) ^ m = ((2 ^ m : Nat) : Int) := by push_cast; rfl
    rw [hc]
    have hcb : (clearBits m).toNat = 2 ^ 64 - 1 - (2 ^ m - 1) := by
      rw [clearBits_toNat m h2, BitVec.toNat_not, hs]
    rcases Word.toInt_cases (clearBits m) with ⟨a, b⟩ | ⟨a, b⟩ <;> omega
  rw [hi, ← h1, pow_add]
  simp

/-! ### Absolute values -/

theorem abs_spec {ws : List Word} (h : Canon ws) :
    (BigInt.abs ws = none ∧ sint ws = -2 ^ 63) ∨
    ∃ r, BigInt.abs ws = some r ∧ Canon r ∧ sint r = |sint ws| ∧ sint ws ≠ -2 ^ 63 := by
  unfold BigInt.abs
  split
  · rename_i h1
    obtain ⟨w, rfl⟩ := List.length_eq_one_iff.mp h1
    rw [show first [w] = w from rfl, show sint [w] = w.toInt from rfl]
    unfold Word.signedAbs
    have hmin : (BitVec.intMin 64).toInt = -2 ^ 63 := by decide
    by_cases e : w = BitVec.intMin 64
    · left; rw [if_pos e]; exact ⟨rfl, by rw [e, hmin]⟩
    · right
      rw [if_neg e]
      have e' : w.toInt ≠ -2 ^ 63 := fun h => e (BitVec.eq_of_toInt_eq (by rw [h, hmin]))
      refine ⟨_, rfl, canon_singleton _, ?_, e'⟩
      show (if w.toInt < 0 then -w else w).toInt = _
      split
      · rename_i hneg
        rw [BitVec.toInt_neg_of_ne_intMin e, abs_of_neg hneg]
      · rename_i hneg
        rw [abs_of_nonneg (by omega)]
  · rename_i h1
    have h0 : ws.length ≠ 0 := by simpa using h.ne_nil
    have hne : sint ws ≠ -2 ^ 63 := by
      intro e
      exact h1 (canon_length_one h (by rw [e]) (by rw [e]; norm_num))
    have hs := sint_neg_iff h.ne_nil
    right
    split
    · rename_i hp
      exact ⟨_, rfl, h, (abs_of_nonneg (by omega)).symm, hne⟩
    · rename_i hp
      obtain ⟨a, b⟩ := negate_spec h.ne_nil
      refine ⟨_, rfl, a, ?_, hne⟩
      unfold neg
      rw [b, abs_of_neg (by omega)]

theorem getAbs_spec {ws : List Word} (h : Canon ws) (hl : ws.length ≤ 2 ^ 63) :
    Canon (getAbs ws).1 ∧ sint (getAbs ws).1 = |sint ws| ∧
      (getAbs ws).2 = decide (sint ws < 0) := by
  unfold getAbs
  simp only [getSign_neg h hl, decide_eq_true_eq]
  split
  · rename_i hn
    obtain ⟨a, b⟩ := negate_spec h.ne_nil
    exact ⟨a, by rw [b, abs_of_neg hn], trivial⟩
  · rename_i hn
    exact ⟨h, (abs_of_nonneg (by omega)).symm, trivial⟩

end Walnut.BigInt
