/- The conversions of `BigInt`s to floating point numbers. -/
import Verif.Float.Convert
import Verif.Float.Exact

namespace Walnut.Float
open Walnut Walnut.BigInt

variable {F : Format} {rnd : ℚ → Fl}

/-- The words of a number with at least two words. -/
theorem words_two {ws : List Word} {v : ℤ} (hr : Rep ws v) {t s : Word} {rest : List Word} (hw : ws.reverse = t :: s :: rest) :
    ∃ r : ℤ, 0 ≤ r ∧ r < 2 ^ (64 * rest.length) ∧ r = unat rest.reverse ∧ v = ((s.toNat : ℤ) + 2 ^ 64 * t.toInt) * 2 ^ (64 * rest.length) + r ∧
      ((s.toNat : ℤ) + 2 ^ 64 * t.toInt < -2 ^ 63 ∨ 2 ^ 63 ≤ (s.toNat : ℤ) + 2 ^ 64 * t.toInt) := by
  obtain ⟨hm, hv⟩ := hr
  have hc := (canon_iff_minimal ws).2 hm
  unfold Canon at hc
  rw [hw] at hc
  have hws : ws = rest.reverse ++ [s] ++ [t] := by
    have := congrArg List.reverse hw
    rw [List.reverse_reverse] at this
    rw [this]; simp
  have hlt := unat_lt rest.reverse
  rw [List.length_reverse] at hlt
  refine ⟨unat rest.reverse, by omega, by exact_mod_cast hlt, rfl, ?_, ?_⟩
  · rw [← hv, hws, sint_snoc2, List.length_reverse]; ring
  · have h1 : canTrim s t = false := by simpa [CanonRev] using hc
    have := mt (canTrim_value s t).2 (by rw [h1]; simp)
    omega

theorem trunc {v V r : ℤ} {b : ℕ} (hv : v = V * 2 ^ b + r) (r0 : 0 ≤ r) (r1 : r < 2 ^ b) (hV : 2 ^ 63 ≤ |V|) :
    |(v : ℚ) - V * 2 ^ b| ≤ 2 ^ b ∧ 2 ^ b * 2 ^ 63 ≤ |(V : ℚ) * 2 ^ b| ∧ |(V : ℚ) * 2 ^ b| ≤ |(v : ℚ)| * (1 + 1 / 2 ^ 62) := by
  have hb0 : (0 : ℚ) < 2 ^ b := by positivity
  have h1 : |(v : ℚ) - V * 2 ^ b| ≤ 2 ^ b := by
    have : (v : ℚ) - V * 2 ^ b = r := by rw [hv]; push_cast; ring
    rw [this, abs_of_nonneg (by exact_mod_cast r0)]
    exact_mod_cast r1.le
  have h2 : (2 : ℚ) ^ b * 2 ^ 63 ≤ |(V : ℚ) * 2 ^ b| := by
    rw [abs_mul, abs_of_pos hb0, mul_comm]
    refine mul_le_mul_of_nonneg_right ?_ hb0.le
    rw [← Int.cast_abs]; exact_mod_cast hV
  refine ⟨h1, h2, ?_⟩
  have h3 := abs_sub_abs_le_abs_sub ((V : ℚ) * 2 ^ b) v
  rw [abs_sub_comm] at h3
  generalize |(V : ℚ) * 2 ^ b| = X at *
  norm_num at h2 ⊢
  linarith

/-- The exponent of a number of the format is high enough for its words. -/
theorem exp_ge {v V r m : ℤ} {b e : ℕ} (hv : v = V * 2 ^ b + r) (r0 : 0 ≤ r) (r1 : r < 2 ^ b) (hl : V < -2 ^ 63 ∨ 2 ^ 63 ≤ V) (hm : |m| < 2 ^ F.p) (hme : v = m * 2 ^ e) :
    b + 64 ≤ e + F.p := by
  have pb : (0 : ℤ) < 2 ^ b := by positivity
  have h1 : (2 : ℤ) ^ (b + 63) ≤ |v| := by
    rw [pow_add]
    rcases hl with hl | hl
    · rw [abs_of_neg (by nlinarith)]; nlinarith
    · rw [abs_of_nonneg (by nlinarith)]; nlinarith
  have h2 : |v| < 2 ^ (e + F.p) := by
    rw [hme, abs_mul, abs_of_pos (by positivity : (0 : ℤ) < 2 ^ e), pow_add, mul_comm]
    exact mul_lt_mul_of_pos_left hm (by positivity)
  have := (pow_lt_pow_iff_right₀ (by norm_num : (1 : ℤ) < 2)).1 (lt_of_le_of_lt h1 h2)
  omega

theorem parts_has (hF : F.Usual) {v V T r m : ℤ} {S b e : ℕ} (hS : S < 2 ^ 64) (hV : V = S + 2 ^ 64 * T) (hl : V < -2 ^ 63 ∨ 2 ^ 63 ≤ V) (hv : v = V * 2 ^ b + r) (r0 : 0 ≤ r) (r1 : r < 2 ^ b)
    (hb : |(V : ℚ) * 2 ^ b| ≤ 2 ^ (F.emax - 3)) (hm : |m| < 2 ^ F.p) (he : (e : ℤ) + F.p ≤ F.emax) (hme : v = m * 2 ^ e) :
    F.Has (T * 2 ^ (b + 64)) ∧ F.Has ((S : ℤ) * 2 ^ b) ∧ F.Has (V * 2 ^ b) := by
  have hle := exp_ge hv r0 r1 hl hm hme
  obtain ⟨l1, l2, l3⟩ := leading (by omega) (by exact_mod_cast hS) hV hl
  have pb : (0 : ℤ) < 2 ^ b := by positivity
  have hb0 : (0 : ℚ) < 2 ^ b := by positivity
  have e3 : (2 : ℚ) ^ F.emax = 8 * 2 ^ (F.emax - 3) := by
    rw [show F.emax = (F.emax - 3) + 3 by ring, pow_add']; norm_num; ring
  have pos := two_pos (F.emax - 3)
  have hXV : |(V : ℚ) * 2 ^ b| = |(V : ℚ)| * 2 ^ b := by rw [abs_mul, abs_of_pos hb0]
  have q1 : |(T : ℚ) * 2 ^ (b + 64)| ≤ 2 * |(V : ℚ) * 2 ^ b| := by
    rw [abs_mul, abs_of_pos (show (0 : ℚ) < 2 ^ (b + 64) by positivity), pow_add, hXV]
    have : (2 : ℚ) ^ 64 * |(T : ℚ)| ≤ 2 * |(V : ℚ)| := by rw [← Int.cast_abs, ← Int.cast_abs]; exact_mod_cast l1
    calc |(T : ℚ)| * (2 ^ b * 2 ^ 64) = (2 ^ 64 * |(T : ℚ)|) * 2 ^ b := by ring
      _ ≤ (2 * |(V : ℚ)|) * 2 ^ b := mul_le_mul_of_nonneg_right this hb0.le
      _ = _ := by ring
  have q2 : |((S : ℤ) : ℚ) * 2 ^ b| ≤ |(V : ℚ) * 2 ^ b| := by
    rw [abs_mul, abs_of_pos hb0, hXV]
    refine mul_le_mul_of_nonneg_right ?_ hb0.le
    rw [abs_of_nonneg (by exact_mod_cast Int.natCast_nonneg S), ← Int.cast_abs]
    exact_mod_cast l2
  have hS0 : (0 : ℤ) ≤ S * 2 ^ b := by positivity
  refine ⟨?_, ?_, ?_⟩
  · have := floor_has hF (q := T) (r := S * 2 ^ b + r) (l := b + 64) hm he hme (by rw [hv, hV, pow_add]; ring) (by omega)
      (by rw [pow_add]; have : (S : ℤ) + 1 ≤ 2 ^ 64 := by exact_mod_cast hS
          nlinarith) hle (by push_cast; linarith)
    push_cast at this
    exact this
  · have := word_has hF (T := T) (S := S) (r := r) (l := b) hm he hme (by rw [hv, hV, pow_add]; ring) r0 r1 (by omega) (by exact_mod_cast hS) hle (by push_cast at q2 ⊢; linarith)
    push_cast at this ⊢
    exact this
  · have := floor_has hF (q := V) (r := r) (l := b) hm he hme hv r0 r1 (by omega) (by push_cast; linarith)
    push_cast at this
    exact this

theorem rem_zero {v V r m : ℤ} {b e : ℕ} (hv : v = V * 2 ^ b + r) (r0 : 0 ≤ r) (r1 : r < 2 ^ b) (hme : v = m * 2 ^ e) (hbe : b ≤ e) : r = 0 := by
  obtain ⟨j, rfl⟩ := Nat.exists_eq_add_of_le hbe
  refine zero_of_dvd (d := 2 ^ b) ⟨m * 2 ^ j - V, ?_⟩ r0 r1
  rw [pow_add] at hme
  linear_combination hme - hv

theorem one_word (hF : F.Usual) (h : Nearest F rnd) (w : Word) : ∃ y, rnd w.toInt = .fin y ∧ |y - w.toInt| ≤ |(w.toInt : ℚ)| / 2 ^ F.p ∧ (F.Has w.toInt → y = w.toInt) := by
  have hw := Word.toInt_bounds w
  by_cases h0 : w.toInt = 0
  · rw [h0]
    exact ⟨0, by rw [Int.cast_zero]; exact rnd_has h (has_zero (by have := hF.emax_ge; omega)), by simp, by simp⟩
  have c1 : (1 : ℚ) ≤ |(w.toInt : ℚ)| := by
    rw [← Int.cast_abs]; exact_mod_cast Int.one_le_abs h0
  have c2 : |(w.toInt : ℚ)| ≤ 2 ^ (64 : ℤ) := by
    rw [← Int.cast_abs]
    have : |w.toInt| ≤ 2 ^ 64 := abs_le.2 ⟨by omega, by omega⟩
    calc ((|w.toInt| : ℤ) : ℚ) ≤ ((2 ^ 64 : ℤ) : ℚ) := by exact_mod_cast this
      _ = _ := by norm_num
  have he := hF.emax_ge
  obtain ⟨y, y1, -, y3⟩ := rnd_err h (by have := hF.p_ge; omega) (le_trans (by rw [← zpow_zero (2 : ℚ)]; exact pow_le (by omega)) c1) (lt_of_le_of_lt c2 (pow_lt (by omega)))
  refine ⟨y, y1, y3, fun hH => ?_⟩
  rw [rnd_has h hH] at y1
  cases y1; rfl

theorem unit (hF : F.Usual) : ∃ u : ℚ, u = 1 / 2 ^ F.p ∧ 0 < u ∧ u ≤ 1 / 2 ^ 53 :=
  ⟨_, rfl, by positivity, one_div_le_one_div_of_le (by positivity) (pow_le_pow_right₀ (by norm_num) hF.p_ge)⟩

/-- A shift that does not fit into an `int` would belong to a greater number. -/
theorem shift_small {v V r : ℤ} {b : ℕ} (hv : v = V * 2 ^ b + r) (r0 : 0 ≤ r) (r1 : r < 2 ^ b) (hV : 2 ^ 63 ≤ |V|) (hb : |(v : ℚ)| ≤ 2 ^ (F.emax - 4)) :
    (b : ℤ) + 60 < F.emax := by
  obtain ⟨-, h2, h3⟩ := trunc hv r0 r1 hV
  have : (2 : ℚ) ^ ((b : ℤ) + 63) < 2 ^ (F.emax - 3) := by
    rw [show F.emax - 3 = (F.emax - 4) + 1 by ring, pow_add', pow_add', zpow_natCast]
    have := two_pos (F.emax - 4)
    norm_num at h2 h3 ⊢
    linarith
  have := pow_lt_iff.1 this
  omega

theorem toInt_abs (w : Word) : |w.toInt| ≤ 2 ^ 63 := by
  have := Word.toInt_bounds w
  exact abs_le.2 ⟨by omega, by omega⟩

/-- The conversion to `double`. -/
theorem toDouble_spec (hF : F.Usual) (hp : F.p ≤ 60) (h : Nearest F rnd) {ws : List Word} {v : ℤ} (hr : Rep ws v) (hb : |(v : ℚ)| ≤ 2 ^ (F.emax - 4)) :
    ∃ y, toDouble rnd ws = .fin y ∧ |y - v| ≤ 5 / 2 ^ F.p * |(v : ℚ)| ∧ (F.Has v → y = v) := by
  obtain ⟨u, hu, hu1, hu2⟩ := unit hF
  unfold toDouble
  cases hw : ws.reverse with
  | nil => exact absurd (List.reverse_eq_nil_iff.1 hw) hr.1.1
  | cons t l =>
    cases l with
    | nil =>
      have hws : ws = [t] := by
        have := congrArg List.reverse hw
        rw [List.reverse_reverse] at this
        simpa using this
      have hv : v = t.toInt := by rw [← hr.2, hws]; rfl
      obtain ⟨y, y1, y2, y3⟩ := one_word hF h t
      rw [hv]
      refine ⟨y, y1, le_trans y2 ?_, y3⟩
      rw [div_eq_mul_one_div, show (5 : ℚ) / 2 ^ F.p = 5 * (1 / 2 ^ F.p) by ring, ← hu]
      nlinarith [abs_nonneg (t.toInt : ℚ)]
    | cons s rest =>
      obtain ⟨r, r0, r1, -, hv, hl⟩ := words_two hr hw
      have hs : s.toNat < 2 ^ 64 := s.isLt
      obtain ⟨V, hV⟩ : ∃ V : ℤ, V = (s.toNat : ℤ) + 2 ^ 64 * t.toInt := ⟨_, rfl⟩
      rw [← hV] at hv hl
      obtain ⟨-, -, l3⟩ := leading (by omega) (by exact_mod_cast hs) hV hl
      obtain ⟨t1, t2, t3⟩ := trunc hv r0 r1 l3
      have hsh := shift_small hv r0 r1 l3 hb
      have hem := hF.emax_le
      have hX : |(V : ℚ) * 2 ^ (64 * rest.length)| ≤ 2 ^ (F.emax - 3) := by
        rw [show F.emax - 3 = (F.emax - 4) + 1 by ring, pow_add']
        have := abs_nonneg (v : ℚ)
        norm_num at t3 ⊢
        linarith
      obtain ⟨y, y1, y2, y3⟩ := two_parts hF h hs hV (toInt_abs t) hl (64 * rest.length) hX
      simp only
      rw [if_neg (by push_cast at hsh; omega)]
      refine ⟨y, y1, ?_, fun hH => ?_⟩
      · rw [show (4 : ℚ) / 2 ^ F.p = 4 * u by rw [hu]; ring, show (3 : ℚ) / 2 ^ F.p = 3 * u by rw [hu]; ring, ← hu] at y2
        rw [show (5 : ℚ) / 2 ^ F.p = 5 * u by rw [hu]; ring]
        obtain ⟨X, hXe⟩ : ∃ X, X = |(V : ℚ) * 2 ^ (64 * rest.length)| := ⟨_, rfl⟩
        rw [← hXe] at y2 t2 t3
        have X0 : 0 ≤ X := by rw [hXe]; exact abs_nonneg _
        have hu3 : 1 / 2 ^ 60 ≤ u := by rw [hu]; exact one_div_le_one_div_of_le (by positivity) (pow_le_pow_right₀ (by norm_num) hp)
        have k1 : 1 / 2 ^ 60 * X ≤ u * X := mul_le_mul_of_nonneg_right hu3 X0
        have k2 : u * (u * X) ≤ 1 / 2 ^ 53 * (u * X) := mul_le_mul_of_nonneg_right hu2 (by positivity)
        have k3 : u * X ≤ u * |(v : ℚ)| * (1 + 1 / 2 ^ 62) := by rw [mul_assoc]; exact mul_le_mul_of_nonneg_left t3 hu1.le
        have t := abs_sub_le y (V * 2 ^ (64 * rest.length)) (v : ℚ)
        rw [abs_sub_comm ((V : ℚ) * 2 ^ (64 * rest.length)) (v : ℚ)] at t
        have k4 : (0 : ℚ) ≤ u * |(v : ℚ)| := by positivity
        rw [show (4 * u + 3 * u * u) * X = 4 * (u * X) + 3 * (u * (u * X)) by ring] at y2
        rw [mul_assoc]
        generalize u * (u * X) = Z2 at *
        generalize u * X = Z at *
        generalize u * |(v : ℚ)| = W at *
        norm_num at k1 k2 k3 t2 ⊢
        linarith
      · obtain ⟨m, e, m1, m2, m3⟩ := has_nat hF hH
        obtain ⟨h1, h2, h3⟩ := parts_has hF hs hV hl hv r0 r1 hX m1 m2 m3
        rw [y3 h1 h2 h3]
        have := exp_ge hv r0 r1 hl m1 m3
        rw [hv, rem_zero hv r0 r1 m3 (by omega)]
        push_cast; ring

/-- The conversion to `long double`. -/
theorem toLongDouble_spec (hF : F.Usual) (h : Nearest F rnd) {ws : List Word} {v : ℤ} (hr : Rep ws v) (hb : |(v : ℚ)| ≤ 2 ^ (F.emax - 4)) :
    ∃ y, toLongDouble rnd ws = .fin y ∧ |y - v| ≤ 6 / 2 ^ F.p * |(v : ℚ)| ∧ (F.Has v → y = v) := by
  obtain ⟨u, hu, hu1, hu2⟩ := unit hF
  unfold toLongDouble
  cases hw : ws.reverse with
  | nil => exact absurd (List.reverse_eq_nil_iff.1 hw) hr.1.1
  | cons t l =>
    cases l with
    | nil =>
      have hws : ws = [t] := by
        have := congrArg List.reverse hw
        rw [List.reverse_reverse] at this
        simpa using this
      have hv : v = t.toInt := by rw [← hr.2, hws]; rfl
      obtain ⟨y, y1, y2, y3⟩ := one_word hF h t
      rw [hv]
      refine ⟨y, y1, le_trans y2 ?_, y3⟩
      rw [div_eq_mul_one_div, show (6 : ℚ) / 2 ^ F.p = 6 * (1 / 2 ^ F.p) by ring, ← hu]
      nlinarith [abs_nonneg (t.toInt : ℚ)]
    | cons s rest =>
      obtain ⟨r, r0, r1, hru, hv, hl⟩ := words_two hr hw
      have hs : s.toNat < 2 ^ 64 := s.isLt
      obtain ⟨V, hV⟩ : ∃ V : ℤ, V = (s.toNat : ℤ) + 2 ^ 64 * t.toInt := ⟨_, rfl⟩
      rw [← hV] at hv hl
      obtain ⟨-, -, l3⟩ := leading (by omega) (by exact_mod_cast hs) hV hl
      obtain ⟨t1, t2, t3⟩ := trunc hv r0 r1 l3
      have hsh := shift_small hv r0 r1 l3 hb
      have hem := hF.emax_le
      have hX : |(V : ℚ) * 2 ^ (64 * rest.length)| ≤ 2 ^ (F.emax - 3) := by
        rw [show F.emax - 3 = (F.emax - 4) + 1 by ring, pow_add']
        have := abs_nonneg (v : ℚ)
        norm_num at t3 ⊢
        linarith
      obtain ⟨y, y1, y2, y3⟩ := two_parts hF h hs hV (toInt_abs t) hl (64 * rest.length) hX
      rw [show (4 : ℚ) / 2 ^ F.p = 4 * u by rw [hu]; ring, show (3 : ℚ) / 2 ^ F.p = 3 * u by rw [hu]; ring, ← hu] at y2
      rw [show (6 : ℚ) / 2 ^ F.p = 6 * u by rw [hu]; ring]
      have hexact : F.Has v → y = V * 2 ^ (64 * rest.length) ∧ ∃ (m : ℤ) (e : ℕ), |m| < 2 ^ F.p ∧ (e : ℤ) + F.p ≤ F.emax ∧ v = m * 2 ^ e ∧ 64 * rest.length + 64 ≤ e + F.p := by
        intro hH
        obtain ⟨m, e, m1, m2, m3⟩ := has_nat hF hH
        obtain ⟨h1, h2, h3⟩ := parts_has hF hs hV hl hv r0 r1 hX m1 m2 m3
        exact ⟨y3 h1 h2 h3, m, e, m1, m2, m3, exp_ge hv r0 r1 hl m1 m3⟩
      obtain ⟨X, hXe⟩ : ∃ X, X = |(V : ℚ) * 2 ^ (64 * rest.length)| := ⟨_, rfl⟩
      rw [← hXe] at y2 t2 t3 hX
      have X0 : 0 ≤ X := by rw [hXe]; exact abs_nonneg _
      have k2 : u * (u * X) ≤ 1 / 2 ^ 53 * (u * X) := mul_le_mul_of_nonneg_right hu2 (by positivity)
      have k3 : u * X ≤ u * |(v : ℚ)| * (1 + 1 / 2 ^ 62) := by rw [mul_assoc]; exact mul_le_mul_of_nonneg_left t3 hu1.le
      have k4 : (0 : ℚ) ≤ u * |(v : ℚ)| := by positivity
      rw [show (4 * u + 3 * u * u) * X = 4 * (u * X) + 3 * (u * (u * X)) by ring] at y2
      have tri := abs_sub_le y (V * 2 ^ (64 * rest.length)) (v : ℚ)
      rw [abs_sub_comm ((V : ℚ) * 2 ^ (64 * rest.length)) (v : ℚ)] at tri
      cases rest with
      | nil =>
        have hr0 : r = 0 := by rw [hru]; rfl
        have hv' : (v : ℚ) = V * 2 ^ (64 * ([] : List Word).length) := by rw [hv, hr0]; push_cast; ring
        refine ⟨y, y1, ?_, fun hH => ?_⟩
        · rw [← hv', sub_self, abs_zero] at tri
          rw [← hv'] at y2
          rw [mul_assoc]
          have : u * X = u * |(v : ℚ)| := by rw [hXe, hv']
          generalize u * (u * X) = Z2 at *
          generalize u * X = Z at *
          generalize u * |(v : ℚ)| = W at *
          norm_num at k2 ⊢
          linarith
        · rw [(hexact hH).1, hv']
      | cons w rest =>
        rw [List.length_cons] at *
        -- the rest consists of the third word and a remainder
        have hru' : r = (unat rest.reverse : ℤ) + 2 ^ (64 * rest.length) * w.toNat := by
          rw [hru, List.reverse_cons, unat_append, List.length_reverse]; simp [unat]
        have hq := unat_lt rest.reverse
        rw [List.length_reverse] at hq
        simp only
        generalize hk : rest.length = k at *
        have hw64 : w.toNat < 2 ^ 64 := w.isLt
        obtain ⟨q, hqe⟩ : ∃ q : ℤ, q = unat rest.reverse := ⟨_, rfl⟩
        rw [← hqe] at hru'
        have q0 : 0 ≤ q := by omega
        have q1 : q < 2 ^ (64 * k) := by rw [hqe]; exact_mod_cast hq
        have pk : (0 : ℚ) < 2 ^ (64 * k) := by positivity
        have e64 : (2 : ℚ) ^ (64 * (k + 1)) = 2 ^ (64 * k) * 2 ^ 64 := by rw [← pow_add, Nat.mul_add]
        have e64z : (2 : ℤ) ^ (64 * (k + 1)) = 2 ^ (64 * k) * 2 ^ 64 := by rw [← pow_add, Nat.mul_add]
        have hc1 : |((w.toNat : ℤ) : ℚ) * 2 ^ (64 * k)| ≤ 2 ^ (64 * k) * 2 ^ 64 := by
          rw [abs_mul, abs_of_pos pk, mul_comm, Int.cast_natCast, Nat.abs_cast]
          refine mul_le_mul_of_nonneg_left ?_ pk.le
          exact_mod_cast hw64.le
        rw [e64] at t2
        have e3 : (2 : ℚ) ^ (F.emax - 2) = 2 * 2 ^ (F.emax - 3) := by
          rw [show F.emax - 2 = (F.emax - 3) + 1 by ring, pow_add']; simp; ring
        have e4 : (2 : ℚ) ^ (F.emax - 1) = 4 * 2 ^ (F.emax - 3) := by
          rw [show F.emax - 1 = (F.emax - 3) + 2 by ring, pow_add']; norm_num; ring
        have hpk : (1 : ℚ) ≤ 2 ^ (64 * k) := one_le_pow₀ (by norm_num)
        obtain ⟨c, c1, c2, c3⟩ := part_spec hF h (w.toNat : ℤ) (64 * k) (by rw [Nat.abs_cast]; exact_mod_cast hw64.le) (by norm_num at t2 hc1 ⊢; linarith)
        have c1' : ldexp rnd (rnd (w.toNat : ℚ)) (64 * k) = .fin c := by rw [← c1]; norm_num
        have hvs : (v : ℚ) = V * 2 ^ (64 * (k + 1)) + (w.toNat : ℤ) * 2 ^ (64 * k) + q := by
          rw [hv, hru']; push_cast; ring
        have qq : |(q : ℚ)| ≤ 2 ^ (64 * k) := by rw [abs_of_nonneg (by exact_mod_cast q0)]; exact_mod_cast q1.le
        -- the error of the third word
        have c2' : |c - (w.toNat : ℤ) * 2 ^ (64 * k)| ≤ u * X / 2 ^ 62 := by
          refine le_trans c2 ?_
          rw [div_eq_mul_one_div, ← hu]
          have : |((w.toNat : ℤ) : ℚ) * 2 ^ (64 * k)| ≤ X / 2 ^ 62 := by norm_num at t2 hc1 ⊢; linarith
          calc _ ≤ X / 2 ^ 62 * u := mul_le_mul_of_nonneg_right this hu1.le
            _ = _ := by ring
        have huX : u * X ≤ 1 / 2 ^ 53 * X := mul_le_mul_of_nonneg_right hu2 X0
        have uX0 : 0 ≤ u * X := by positivity
        have hsum : |y + c - (V * 2 ^ (64 * (k + 1)) + (w.toNat : ℤ) * 2 ^ (64 * k))| ≤ 4 * (u * X) + 3 * (u * (u * X)) + u * X / 2 ^ 62 := by
          rw [show y + c - (V * 2 ^ (64 * (k + 1)) + (w.toNat : ℤ) * 2 ^ (64 * k)) = (y - V * 2 ^ (64 * (k + 1))) + (c - (w.toNat : ℤ) * 2 ^ (64 * k)) by ring]
          exact le_trans (abs_add_le _ _) (by linarith)
        have hyc : |y + c - v| ≤ 4 * (u * X) + 3 * (u * (u * X)) + u * X / 2 ^ 62 + 2 ^ (64 * k) := by
          have : y + c - v = (y + c - (V * 2 ^ (64 * (k + 1)) + (w.toNat : ℤ) * 2 ^ (64 * k))) - q := by rw [hvs]; ring
          rw [this]
          exact le_trans (abs_sub _ _) (by linarith)
        have s1 := abs_sub_abs_le_abs_sub (y + c) (v : ℚ)
        have s2 := abs_sub_abs_le_abs_sub (v : ℚ) (y + c)
        rw [abs_sub_comm] at s2
        have hlow : 2 ^ (2 - F.emax) ≤ |y + c| := by
          have := pow_le (show 2 - F.emax ≤ -1 by have := hF.emax_ge; omega)
          generalize u * (u * X) = Z2 at *
          generalize u * X = Z at *
          norm_num at this huX k2 t2 t3 hyc ⊢
          linarith
        have hhigh : |y + c| < 2 ^ (F.emax - 1) := by
          rw [e4]
          have e5 : (2 : ℚ) ^ (F.emax - 3) = 2 * 2 ^ (F.emax - 4) := by
            rw [show F.emax - 3 = (F.emax - 4) + 1 by ring, pow_add']; simp; ring
          have := two_pos (F.emax - 4)
          generalize u * (u * X) = Z2 at *
          generalize u * X = Z at *
          norm_num at huX k2 t2 t3 hyc ⊢
          linarith
        obtain ⟨z, z1, -, z3⟩ := rnd_err h (by have := hF.p_ge; omega) hlow hhigh
        have hshift : ¬ 64 * (k + 2) > 2 ^ 31 - 1 := by push_cast at hsh; omega
        rw [if_neg hshift]
        have hadd : add rnd (add rnd (ldexp rnd (rnd (t.toInt : ℚ)) (64 * (k + 2))) (ldexp rnd (rnd (s.toNat : ℚ)) (64 * (k + 1)))) (ldexp rnd (rnd (w.toNat : ℚ)) (64 * k)) = .fin z := by
          rw [show 64 * (k + 2) = 64 * (k + 1) + 64 by ring, y1, c1']
          exact z1
        refine ⟨z, hadd, ?_, fun hH => ?_⟩
        · rw [div_eq_mul_one_div, ← hu] at z3
          have tri2 := abs_sub_le z (y + c) (v : ℚ)
          have hu3 : 1 / 2 ^ 120 ≤ u := by rw [hu]; exact one_div_le_one_div_of_le (by positivity) (pow_le_pow_right₀ (by norm_num) hF.p_le)
          have j2 : 1 / 2 ^ 120 * X ≤ u * X := mul_le_mul_of_nonneg_right hu3 X0
          have j3 : |y + c| * u ≤ u * |(v : ℚ)| + u * |y + c - v| := by
            have : |y + c| ≤ |(v : ℚ)| + |y + c - v| := by linarith
            calc |y + c| * u ≤ (|(v : ℚ)| + |y + c - v|) * u := mul_le_mul_of_nonneg_right this hu1.le
              _ = _ := by ring
          have j4 : u * |y + c - v| ≤ 1 / 2 ^ 53 * |y + c - v| := mul_le_mul_of_nonneg_right hu2 (abs_nonneg _)
          rw [mul_assoc]
          generalize u * |y + c - v| = Z3 at *
          generalize u * (u * X) = Z2 at *
          generalize u * X = Z at *
          generalize u * |(v : ℚ)| = W at *
          norm_num at k2 k3 t2 t3 hyc j2 j4 ⊢
          linarith
        · obtain ⟨hy, m, e, m1, m2, m3, m4⟩ := hexact hH
          have hwH := word_has hF (T := V) (S := w.toNat) (r := q) (l := 64 * k) m1 m2 m3 (by rw [hv, hru', e64z, pow_add]; ring) q0 q1 (by omega) (by exact_mod_cast hw64) (by omega)
            (by
              push_cast at hc1 ⊢
              have e8 : (2 : ℚ) ^ F.emax = 8 * 2 ^ (F.emax - 3) := by
                rw [show F.emax = (F.emax - 3) + 3 by ring, pow_add']; norm_num; ring
              norm_num at t2 hc1 ⊢
              linarith)
          rw [Int.cast_mul, Int.cast_pow, show ((2 : ℤ) : ℚ) = 2 from rfl] at hwH
          have hc := c3 hwH
          have hq0 : q = 0 := rem_zero (V := V * 2 ^ 64 + w.toNat) (b := 64 * k) (m := m) (e := e) (by rw [← m3, hv, hru', e64z, add_mul]; generalize (2 : ℤ) ^ 64 = p64; ring) q0 q1 rfl (by have := hF.p_le; omega)
          rw [hy, hc] at z1
          have : (v : ℚ) = V * 2 ^ (64 * (k + 1)) + (w.toNat : ℤ) * 2 ^ (64 * k) := by rw [hvs, hq0]; simp
          rw [← this, rnd_has h hH] at z1
          cases z1
          rfl

end Walnut.Float
