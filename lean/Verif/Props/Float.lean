/-
C84 (floating point).

`Nearest F rnd` says that `rnd` rounds to the nearest number of the format `F` (Float/Spec.lean), with any rule for ties.
-/
import Verif.Float.BigInt
import Verif.Float.Instance
import Verif.Props.Double

namespace Walnut.Props
open Walnut Walnut.Geom Walnut.Util Walnut.Float

theorem binary64_usual : binary64.Usual := ⟨by decide, by decide, by decide, by decide⟩
theorem extended80_usual : extended80.Usual := ⟨by decide, by decide, by decide, by decide⟩
theorem binary128_usual : binary128.Usual := ⟨by decide, by decide, by decide, by decide⟩

/-- C84: the conversion of a `BigInt` to `double` returns numbers that are doubles unchanged, and otherwise has a relative error
of at most five times 2^-53. -/
theorem C84_double {rnd : ℚ → Fl} (h : Nearest binary64 rnd) {ws : List Word} {v : ℤ} (hr : Rep ws v) (hb : |(v : ℚ)| ≤ 2 ^ (1020 : ℤ)) :
    ∃ y, toDouble rnd ws = .fin y ∧ |y - v| ≤ 5 / 2 ^ 53 * |(v : ℚ)| ∧ (binary64.Has v → y = v) :=
  toDouble_spec binary64_usual (by decide) h hr hb

/-- C84: the same for `long double`. -/
theorem C84_long_double {F : Format} (hF : F.Usual) {rnd : ℚ → Fl} (h : Nearest F rnd) {ws : List Word} {v : ℤ} (hr : Rep ws v) (hb : |(v : ℚ)| ≤ 2 ^ (F.emax - 4)) :
    ∃ y, toLongDouble rnd ws = .fin y ∧ |y - v| ≤ 6 / 2 ^ F.p * |(v : ℚ)| ∧ (F.Has v → y = v) :=
  toLongDouble_spec hF h hr hb

/-- A quotient of two numbers with small relative errors. -/
theorem quotient_err {x w a b ε : ℚ} (hw : w ≠ 0) (h0 : 0 ≤ ε) (h1 : ε ≤ 1 / 2 ^ 50) (ha : |a - x| ≤ ε * |x|) (hb : |b - w| ≤ ε * |w|) :
    b ≠ 0 ∧ |a / b - x / w| ≤ (2 * ε + ε / 2 ^ 40) * |x / w| := by
  have w0 : 0 < |w| := abs_pos.2 hw
  have hεw : ε * |w| ≤ 1 / 2 ^ 50 * |w| := mul_le_mul_of_nonneg_right h1 w0.le
  have hb1 : |w| * (1 - 1 / 2 ^ 50) ≤ |b| := by
    have := abs_sub_abs_le_abs_sub w b
    rw [abs_sub_comm] at this
    linarith
  have b0 : 0 < |b| := lt_of_lt_of_le (mul_pos w0 (by norm_num)) hb1
  have hb0 : b ≠ 0 := abs_pos.1 b0
  refine ⟨hb0, ?_⟩
  have e1 : a / b - x / w = ((a - x) * w - x * (b - w)) / (b * w) := by field_simp; ring
  rw [e1, abs_div, abs_mul b w, abs_div x w, div_le_iff₀ (mul_pos b0 w0)]
  have e2 : |(a - x) * w - x * (b - w)| ≤ 2 * ε * (|x| * |w|) := by
    refine le_trans (abs_sub _ _) ?_
    rw [abs_mul, abs_mul]
    have := mul_le_mul_of_nonneg_right ha w0.le
    have := mul_le_mul_of_nonneg_left hb (abs_nonneg x)
    linarith
  refine le_trans e2 ?_
  have e3 : (2 * ε + ε / 2 ^ 40) * (|x| / |w|) * (|b| * |w|) = (2 * ε + ε / 2 ^ 40) * |x| * |b| := by field_simp
  rw [e3]
  have e4 : (2 * ε + ε / 2 ^ 40) * |x| * (|w| * (1 - 1 / 2 ^ 50)) ≤ (2 * ε + ε / 2 ^ 40) * |x| * |b| := mul_le_mul_of_nonneg_left hb1 (by positivity)
  refine le_trans ?_ e4
  have : 0 ≤ ε * (|x| * |w|) := by positivity
  have e5 : (2 * ε + ε / 2 ^ 40) * |x| * (|w| * (1 - 1 / 2 ^ 50)) = (2 + 1 / 2 ^ 40) * (1 - 1 / 2 ^ 50) * (ε * (|x| * |w|)) := by ring
  rw [e5, show 2 * ε * (|x| * |w|) = 2 * (ε * (|x| * |w|)) by ring]
  exact mul_le_mul_of_nonneg_right (by norm_num) this

/-- The error of one coordinate. -/
theorem coordinate_err {L : Format} (hL : L.Usual) {rndL rndD : ℚ → Fl} (h : Nearest L rndL) (hD : Nearest binary64 rndD) {xs ws : List Word} {x w : ℤ} (hx : Rep xs x)
    (hw : Rep ws w) (h0 : w ≠ 0) (bx : |(x : ℚ)| ≤ 2 ^ (L.emax - 4)) (bw : |(w : ℚ)| ≤ 2 ^ (L.emax - 4))
    (hq : x = 0 ∨ 2 ^ (-1021 : ℤ) ≤ |(x : ℚ) / w| ∧ |(x : ℚ) / w| ≤ 2 ^ (1022 : ℤ)) :
    ∃ d, coordinate rndL rndD xs ws = .fin d ∧ |d - (x : ℚ) / w| ≤ (1 / 2 ^ 53 + 14 / 2 ^ L.p) * |(x : ℚ) / w| := by
  obtain ⟨a, a1, a2, a3⟩ := C84_long_double hL h hx bx
  obtain ⟨b, b1, b2, b3⟩ := C84_long_double hL h hw bw
  obtain ⟨u, hu, hu1, hu2⟩ := unit hL
  rw [show (6 : ℚ) / 2 ^ L.p = 6 * u by rw [hu]; ring] at a2 b2
  rw [show (14 : ℚ) / 2 ^ L.p = 14 * u by rw [hu]; ring]
  have hemax := hL.emax_ge
  obtain ⟨hb0, herr⟩ := quotient_err (x := x) (w := w) (a := a) (b := b) (ε := 6 * u) (by exact_mod_cast h0) (by linarith) (by norm_num at hu2 ⊢; linarith) a2 b2
  unfold coordinate
  rw [a1, b1]
  have hdiv : div rndL (.fin a) (.fin b) = rndL (a / b) := by simp [div, hb0]
  rw [hdiv]
  rcases hq with rfl | ⟨q1, q2⟩
  · have ha : a = 0 := by rw [a3 (by rw [Int.cast_zero]; exact has_zero (by omega))]; simp
    rw [ha, zero_div, rnd_has h (has_zero (by omega))]
    refine ⟨0, rnd_has hD (has_zero (by decide)), by simp⟩
  obtain ⟨Q, hQ⟩ : ∃ Q, Q = |(x : ℚ) / w| := ⟨_, rfl⟩
  rw [← hQ] at q1 q2 herr ⊢
  have Q0 : 0 < Q := lt_of_lt_of_le (two_pos _) q1
  have huQ : u * Q ≤ 1 / 2 ^ 53 * Q := mul_le_mul_of_nonneg_right hu2 Q0.le
  have uQ0 : 0 ≤ u * Q := by positivity
  rw [show (2 * (6 * u) + 6 * u / 2 ^ 40) * Q = (12 + 6 / 2 ^ 40) * (u * Q) by ring] at herr
  have p21 : (2 : ℚ) ^ (-1021 : ℤ) = 2 * 2 ^ (-1022 : ℤ) := by rw [show (-1021 : ℤ) = -1022 + 1 by norm_num, pow_add']; simp; ring
  have p23 : (2 : ℚ) ^ (1023 : ℤ) = 2 * 2 ^ (1022 : ℤ) := by rw [show (1023 : ℤ) = 1022 + 1 by norm_num, pow_add']; simp; ring
  have s1 := abs_sub_abs_le_abs_sub (a / b) ((x : ℚ) / w)
  have s2 := abs_sub_abs_le_abs_sub ((x : ℚ) / w) (a / b)
  rw [abs_sub_comm, ← hQ] at s2
  rw [← hQ] at s1
  generalize hl22 : (2 : ℚ) ^ (-1022 : ℤ) = low at *
  generalize hh22 : (2 : ℚ) ^ (1022 : ℤ) = high at *
  have low0 : 0 < low := by rw [← hl22]; exact two_pos _
  have hlow : low ≤ |a / b| := by norm_num at herr huQ; linarith
  have hhigh : |a / b| < 2 ^ (1023 : ℤ) := by rw [p23]; norm_num at herr huQ; linarith
  obtain ⟨c, c1, -, c3⟩ := rnd_err h (by have := hL.p_ge; omega) (le_trans (by rw [← hl22]; exact pow_le (by omega)) hlow) (lt_of_lt_of_le hhigh (pow_le (by omega)))
  rw [c1]
  show ∃ d, rndD c = .fin d ∧ _
  rw [div_eq_mul_one_div |a / b|, ← hu] at c3
  have t1 := abs_sub_le c (a / b) ((x : ℚ) / w)
  have c4 : |a / b| * u ≤ (Q + (12 + 6 / 2 ^ 40) * (u * Q)) * u := mul_le_mul_of_nonneg_right (by linarith) hu1.le
  have c5 : u * (u * Q) ≤ 1 / 2 ^ 53 * (u * Q) := mul_le_mul_of_nonneg_right hu2 uQ0
  rw [show (Q + (12 + 6 / 2 ^ 40) * (u * Q)) * u = u * Q + (12 + 6 / 2 ^ 40) * (u * (u * Q)) by ring] at c4
  generalize u * (u * Q) = Z2 at *
  rw [show (1 / 2 ^ 53 + 14 * u) * Q = 1 / 2 ^ 53 * Q + 14 * (u * Q) by ring]
  generalize u * Q = Z at *
  have c6 : |c - (x : ℚ) / w| ≤ (13 + 1 / 2 ^ 20) * Z := by norm_num at herr c4 c5 ⊢; linarith
  have s3 := abs_sub_abs_le_abs_sub c ((x : ℚ) / w)
  have s4 := abs_sub_abs_le_abs_sub ((x : ℚ) / w) c
  rw [abs_sub_comm, ← hQ] at s4
  rw [← hQ] at s3
  obtain ⟨d, d1, -, d3⟩ := rnd_err hD (x := c) (by decide) (show 2 ^ (2 - 1024 : ℤ) ≤ |c| by norm_num only; rw [hl22]; norm_num at c6 huQ; linarith)
    (show |c| < 2 ^ (1024 - 1 : ℤ) by norm_num only; rw [p23]; norm_num at c6 huQ; linarith)
  refine ⟨d, d1, ?_⟩
  have t2 := abs_sub_le d c ((x : ℚ) / w)
  have d4 : |d - c| ≤ |c| / 2 ^ 53 := d3
  norm_num at c6 huQ d4 ⊢
  linarith

/-- **C84**, as far as it holds: each coordinate that `GetDoublePoint3` returns has a relative error of at most 2^-53
for the rounding to `double` and 14 units of the last place of `long double`.

Partial: the numerator and the denominator must be in the range of `long double` (`C84_overflow_false`), and the coordinate in that of
`double`. -/
theorem C84_point_partial {L : Format} (hL : L.Usual) {rndL rndD : ℚ → Fl} (h : Nearest L rndL) (hD : Nearest binary64 rndD) {p : HP3} {xs ys zs ws : List Word} (hx : Rep xs p.v.x)
    (hy : Rep ys p.v.y) (hz : Rep zs p.v.z) (hw : Rep ws p.w) (h0 : p.w ≠ 0) (bv : ∀ i, |(p.v.comp i : ℚ)| ≤ 2 ^ (L.emax - 4)) (bw : |(p.w : ℚ)| ≤ 2 ^ (L.emax - 4))
    (hq : ∀ i, p.pt i = 0 ∨ 2 ^ (-1021 : ℤ) ≤ |p.pt i| ∧ |p.pt i| ≤ 2 ^ (1022 : ℤ)) :
    ∃ X Y Z, getDoublePoint3 rndL rndD xs ys zs ws = (.fin X, .fin Y, .fin Z) ∧ ∀ i, |![X, Y, Z] i - p.pt i| ≤ (1 / 2 ^ 53 + 14 / 2 ^ L.p) * |p.pt i| := by
  have hq' : ∀ i, p.v.comp i = 0 ∨ 2 ^ (-1021 : ℤ) ≤ |(p.v.comp i : ℚ) / p.w| ∧ |(p.v.comp i : ℚ) / p.w| ≤ 2 ^ (1022 : ℤ) := by
    intro i
    refine (hq i).imp_left fun hi => ?_
    have : (p.w : ℚ) ≠ 0 := by exact_mod_cast h0
    exact_mod_cast (div_eq_zero_iff.1 (show (p.v.comp i : ℚ) / p.w = 0 from hi)).resolve_right this
  obtain ⟨X, x1, x2⟩ := coordinate_err hL h hD hx hw h0 (bv 0) bw (hq' 0)
  obtain ⟨Y, y1, y2⟩ := coordinate_err hL h hD hy hw h0 (bv 1) bw (hq' 1)
  obtain ⟨Z, z1, z2⟩ := coordinate_err hL h hD hz hw h0 (bv 2) bw (hq' 2)
  refine ⟨X, Y, Z, by unfold getDoublePoint3; rw [x1, y1, z1], fun i => ?_⟩
  match i with
  | 0 => exact x2
  | 1 => exact y2
  | 2 => exact z2

/-- The finite doubles are the numbers of `binary64`. -/
theorem has_doubleValue {b : BitVec 64} {x : ℚ} (h : doubleValue b = some x) : binary64.Has x := by
  unfold doubleValue at h
  simp only at h
  have hf : b.toNat % 2 ^ 52 < 2 ^ 52 := Nat.mod_lt _ (by norm_num)
  have he : b.toNat / 2 ^ 52 % 2 ^ 11 < 2 ^ 11 := Nat.mod_lt _ (by norm_num)
  generalize b.toNat % 2 ^ 52 = f at h hf
  generalize b.toNat / 2 ^ 52 % 2 ^ 11 = e at h he
  have key : ∀ (n : ℕ) (k : ℤ), n < 2 ^ 53 → -1074 ≤ k → k ≤ 971 → binary64.Has ((if b.msb then -1 else 1) * (n : ℚ) * 2 ^ k) := by
    intro n k h1 h2 h3
    refine ⟨(if b.msb then -1 else 1) * n, k, ?_, h2, by show k + 53 ≤ 1024; omega, by push_cast; split <;> rfl⟩
    show |_| < (2 : ℤ) ^ 53
    split
    · rw [neg_one_mul, abs_neg, Nat.abs_cast]; exact_mod_cast h1
    · rw [one_mul, Nat.abs_cast]; exact_mod_cast h1
  by_cases h1 : e = 2047
  · rw [if_pos h1] at h; cases h
  rw [if_neg h1] at h
  by_cases h2 : e = 0
  · rw [if_pos h2] at h
    cases h
    exact key f (-1074) (by omega) (by omega) (by omega)
  · rw [if_neg h2] at h
    cases h
    have := key (2 ^ 52 + f) (e - 1075) (by omega) (by omega) (by omega)
    push_cast at this
    exact this

theorem coordinate_exact {L : Format} (hL : L.Usual) {rndL rndD : ℚ → Fl} (h : Nearest L rndL) (hD : Nearest binary64 rndD) {xs ws : List Word} {x w : ℤ} {q : ℚ} (hx : Rep xs x)
    (hw : Rep ws w) (h0 : w ≠ 0) (bx : |(x : ℚ)| ≤ 2 ^ (L.emax - 4)) (bw : |(w : ℚ)| ≤ 2 ^ (L.emax - 4)) (hxH : L.Has x) (hwH : L.Has w) (hq : (x : ℚ) / w = q) (hqL : L.Has q)
    (hqD : binary64.Has q) : coordinate rndL rndD xs ws = .fin q := by
  obtain ⟨a, a1, -, a3⟩ := C84_long_double hL h hx bx
  obtain ⟨b, b1, -, b3⟩ := C84_long_double hL h hw bw
  unfold coordinate
  rw [a1, b1, a3 hxH, b3 hwH]
  have hdiv : div rndL (.fin (x : ℚ)) (.fin (w : ℚ)) = rndL (x / w) := by simp [div, h0]
  rw [hdiv, hq, rnd_has h hqL]
  exact rnd_has hD hqD

/-- C84: a point that `FromDoublesExact` makes from three doubles is converted back to these doubles, if `long double` has the range
of the formats with 15 bits for the exponent. -/
theorem C84_round_trip {L : Format} (hL : L.Usual) (he : 16384 ≤ L.emax) {rndL rndD : ℚ → Fl} (h : Nearest L rndL) (hD : Nearest binary64 rndD) {bx by' bz : BitVec 64} {x y z : ℚ}
    (hx : doubleValue bx = some x) (hy : doubleValue by' = some y) (hz : doubleValue bz = some z) {p : HP3} (hp : fromDoublesExact x y z = some p) {xs ys zs ws : List Word}
    (rx : Rep xs p.v.x) (ry : Rep ys p.v.y) (rz : Rep zs p.v.z) (rw' : Rep ws p.w) : getDoublePoint3 rndL rndD xs ys zs ws = (.fin x, .fin y, .fin z) := by
  obtain ⟨mx, ex, x1, x2, -, -, x3, x4, x5⟩ := decompose_spec hx
  obtain ⟨my, ey, y1, y2, -, -, y3, y4, y5⟩ := decompose_spec hy
  obtain ⟨mz, ez, z1, z2, -, -, z3, z4, z5⟩ := decompose_spec hz
  unfold fromDoublesExact at hp
  simp only [x1, y1, z1, Option.bind_eq_bind, Option.bind_some] at hp
  generalize hd : min 0 (min ex (min ey ez)) = d at hp
  have h0 : d ≤ 0 ∧ d ≤ ex ∧ d ≤ ey ∧ d ≤ ez ∧ -1074 ≤ d := by omega
  obtain ⟨d0, dx, dy, dz, dl⟩ := h0
  rw [if_pos (by omega)] at hp
  cases hp
  simp only at rx ry rz rw'
  have hp1 := hL.p_ge
  have hp2 := hL.p_le
  have p53 : (2 : ℤ) ^ 53 ≤ 2 ^ L.p := pow_le_pow_right₀ (by norm_num) hp1
  have small : ∀ (m : ℤ) (n : ℕ), |m| < 2 ^ 53 → n ≤ 2100 → L.Has ((m * 2 ^ n : ℤ) : ℚ) ∧ |((m * 2 ^ n : ℤ) : ℚ)| ≤ 2 ^ (L.emax - 4) := by
    intro m n hm hn
    refine ⟨⟨m, n, by omega, by omega, by omega, by push_cast; rw [zpow_natCast]⟩, ?_⟩
    push_cast
    rw [abs_mul, abs_of_pos (show (0 : ℚ) < 2 ^ n by positivity), ← zpow_natCast]
    have : |(m : ℚ)| ≤ 2 ^ (53 : ℤ) := by
      rw [← Int.cast_abs]
      calc ((|m| : ℤ) : ℚ) ≤ ((2 ^ 53 : ℤ) : ℚ) := by exact_mod_cast hm.le
        _ = _ := by norm_num
    calc |(m : ℚ)| * 2 ^ (n : ℤ) ≤ 2 ^ (53 : ℤ) * 2 ^ (n : ℤ) := mul_le_mul_of_nonneg_right this (two_pos _).le
      _ = 2 ^ (53 + (n : ℤ)) := (pow_add' _ _).symm
      _ ≤ _ := pow_le (by omega)
  obtain ⟨w1, w2⟩ := small 1 (-d).toNat (by norm_num) (by omega)
  have wpos : (1 * 2 ^ (-d).toNat : ℤ) ≠ 0 := by positivity
  have coord : ∀ {m e : ℤ} {q : ℚ} {b : BitVec 64} {us : List Word}, doubleValue b = some q → q = m * 2 ^ e → |m| < 2 ^ 53 → -1074 ≤ e → e ≤ 1023 → d ≤ e → Rep us (m * 2 ^ (e - d).toNat) →
      coordinate rndL rndD us ws = .fin q := by
    intro m e q b us hb h1 h2 h3 h4 h5 h6
    obtain ⟨m1, m2⟩ := small m (e - d).toNat h2 (by omega)
    exact coordinate_exact hL h hD h6 rw' wpos m2 w2 m1 w1 (shift_coord h1 h5 d0) ⟨m, e, by omega, by omega, by omega, h1⟩ (has_doubleValue hb)
  unfold getDoublePoint3
  rw [coord hx x2 x3 x4 x5 dx rx, coord hy y2 y3 y4 y5 dy ry, coord hz z2 z3 z4 z5 dz rz]

/-- The words of a power of two. -/
theorem rep_power (n : ℕ) (w : Word) (h : 0 < w.toInt) : Rep (List.replicate (n + 1) (0 : Word) ++ [w]) (w.toInt * 2 ^ (64 * (n + 1))) := by
  refine ⟨(canon_iff_minimal _).1 ?_, ?_⟩
  · unfold Canon
    rw [List.reverse_append, List.reverse_replicate]
    show CanonRev (w :: 0 :: List.replicate n 0)
    have : BigInt.canTrim 0 w = false := by
      rw [← Bool.not_eq_true, canTrim_value]
      simp
      omega
    simpa [CanonRev] using this
  · rw [sint_snoc, List.length_replicate]
    have : unat (List.replicate (n + 1) (0 : Word)) = 0 := by
      induction n with
      | zero => rfl
      | succ n ih => rw [List.replicate_succ, unat, ih]; rfl
    rw [this]; push_cast; ring

/-- A number that is too great for the format. -/
theorem toLongDouble_inf {L : Format} (hL : L.Usual) {rnd : ℚ → Fl} (h : Nearest L rnd) {n : ℕ} {w : Word} (hn : 64 * (n + 2) ≤ 2 ^ 31 - 1)
    (hH : L.Has w.toInt) (hbig : (2 : ℚ) ^ L.emax ≤ w.toInt * 2 ^ (64 * (n + 2))) : toLongDouble rnd (List.replicate (n + 2) (0 : Word) ++ [w]) = .inf false := by
  have he := hL.emax_ge
  have hr : (List.replicate (n + 2) (0 : Word) ++ [w]).reverse = w :: 0 :: 0 :: List.replicate n 0 := by
    rw [List.reverse_append, List.reverse_replicate]; rfl
  unfold toLongDouble
  rw [hr]
  simp only [List.length_replicate]
  rw [if_neg (by omega), rnd_has h hH]
  have hz : rnd (((0 : Word).toNat : ℕ) : ℚ) = .fin 0 := by simpa using rnd_has h (has_zero (by omega))
  have hz2 : ∀ k, ldexp rnd (.fin 0) k = .fin 0 := fun k => by
    show rnd (0 * 2 ^ k) = _
    rw [zero_mul]; exact rnd_has h (has_zero (by omega))
  rw [hz, hz2, hz2]
  have : ldexp rnd (.fin (w.toInt : ℚ)) (64 * (n + 2)) = .inf false := by
    show rnd (w.toInt * 2 ^ (64 * (n + 2))) = _
    have pos : (0 : ℚ) < w.toInt * 2 ^ (64 * (n + 2)) := lt_of_lt_of_le (two_pos _) hbig
    rw [h.overflow _ (by rw [abs_of_pos pos]; have := two_pos (L.emax - L.p - 1); linarith)]
    simp [pos.le]
  rw [this]
  rfl

/-- C84 (disagreement): numerators and denominators that do not fit into a `long double` give NaNs, even if the
coordinates are small: the point (1, 1, 1) with the coordinates and the denominator 2^32768. -/
theorem C84_overflow_false {L : Format} (hL : L.Usual) {rndL rndD : ℚ → Fl} (h : Nearest L rndL) :
    ∃ (xs : List Word) (p : HP3), Rep xs p.v.x ∧ Rep xs p.v.y ∧ Rep xs p.v.z ∧ Rep xs p.w ∧ p.pt = ![1, 1, 1] ∧ getDoublePoint3 rndL rndD xs xs xs xs = (.nan, .nan, .nan) := by
  have hr := rep_power 511 1 (by decide)
  have hpos : (0 : ℤ) < 2 ^ (64 * (511 + 1)) := by positivity
  have hone : (1 : Word).toInt = 1 := by decide
  refine ⟨_, ⟨⟨_, _, _⟩, _⟩, hr, hr, hr, hr, ?_, ?_⟩
  · rw [hone, one_mul]
    generalize (2 ^ (64 * (511 + 1)) : ℤ) = v at hpos
    have : (v : ℚ) ≠ 0 := by exact_mod_cast hpos.ne'
    funext i
    match i with
    | 0 => exact div_self this
    | 1 => exact div_self this
    | 2 => exact div_self this
  · have h1 : toLongDouble rndL (List.replicate (511 + 1) (0 : Word) ++ [1]) = .inf false := by
      have hp1 := hL.p_ge
      have hp2 := hL.p_le
      have he1 := hL.emax_ge
      have he2 := hL.emax_le
      refine toLongDouble_inf hL h (n := 510) (by norm_num) ?_ ?_
      · rw [hone]
        exact ⟨1, 0, by rw [abs_one]; exact one_lt_pow₀ (by norm_num) (by omega), by omega, by omega, by norm_num⟩
      · rw [hone, Int.cast_one, one_mul]
        rw [← zpow_natCast]
        exact pow_le (by push_cast; omega)
    unfold getDoublePoint3 coordinate
    rw [h1]
    rfl

/-- C84 (disagreement): where `long double` is the same as `double`, small doubles are not converted back to
themselves: the point with the coordinates 2^-1074 becomes the origin. -/
theorem C84_tiny_false {rndL rndD : ℚ → Fl} (h : Nearest binary64 rndL) (hD : Nearest binary64 rndD) :
    ∃ (b : BitVec 64) (x : ℚ) (p : HP3) (xs ws : List Word), doubleValue b = some x ∧ x ≠ 0 ∧ fromDoublesExact x x x = some p ∧ Rep xs p.v.x ∧ Rep xs p.v.y ∧ Rep xs p.v.z ∧ Rep ws p.w ∧
      getDoublePoint3 rndL rndD xs xs xs ws = (.fin 0, .fin 0, .fin 0) := by
  have hv : (2 ^ 50 : Word).toInt = 2 ^ 50 := by decide
  have hr := rep_power 15 (2 ^ 50) (by decide)
  have r1 : Rep [1] 1 := ⟨(canon_iff_minimal _).1 trivial, by decide⟩
  have hd : doubleValue 1 = some (2 ^ (-1074 : ℤ)) := by
    have m : (1 : BitVec 64).msb = false := by decide
    have t : (1 : BitVec 64).toNat = 1 := by decide
    unfold doubleValue
    rw [m, t]
    norm_num
  obtain ⟨m, e, d1, d2, -, -, -, d3, -⟩ := decompose_spec hd
  have hme : m = 1 ∧ e = -1074 := by
    obtain ⟨n, rfl⟩ : ∃ n : ℕ, e = -1074 + n := ⟨(e + 1074).toNat, by omega⟩
    rw [pow_add', zpow_natCast] at d2
    have p0 := (two_pos (-1074)).ne'
    have d4 : (m : ℚ) * 2 ^ n = 1 := by
      apply mul_right_cancel₀ p0
      rw [one_mul]
      nth_rewrite 2 [d2]
      ring
    have d5 : m * 2 ^ n = 1 := by exact_mod_cast d4
    rcases n with _ | n
    · exact ⟨by simpa using d5, by simp⟩
    · rw [pow_succ] at d5
      generalize (2 : ℤ) ^ n = k at d5
      have : 2 * (m * k) = 1 := by rw [← d5]; ring
      omega
  obtain ⟨rfl, rfl⟩ := hme
  have hf : fromDoublesExact (2 ^ (-1074 : ℤ)) (2 ^ (-1074 : ℤ)) (2 ^ (-1074 : ℤ)) = some ⟨⟨1, 1, 1⟩, 2 ^ 1074⟩ := by
    unfold fromDoublesExact
    simp only [d1, Option.bind_eq_bind, Option.bind_some]
    have : min (0 : ℤ) (min (-1074) (min (-1074) (-1074))) = -1074 := by decide
    rw [this, if_pos (by decide)]
    simp
  refine ⟨1, 2 ^ (-1074 : ℤ), ⟨⟨1, 1, 1⟩, 2 ^ 1074⟩, [1], List.replicate (15 + 1) (0 : Word) ++ [2 ^ 50], hd, (two_pos _).ne', hf, r1, r1, r1, ?_, ?_⟩
  · rw [hv, ← pow_add] at hr
    exact hr
  · have h1 : toLongDouble rndL (List.replicate (15 + 1) (0 : Word) ++ [2 ^ 50]) = .inf false := by
      refine toLongDouble_inf binary64_usual h (n := 14) (by norm_num) ?_ ?_
      · rw [hv]
        exact ⟨2 ^ 50, 0, by decide, by decide, by decide, by norm_num⟩
      · rw [hv]
        rw [← zpow_natCast]
        calc (2 : ℚ) ^ binary64.emax = 1 * 2 ^ (1024 : ℤ) := (one_mul _).symm
          _ ≤ ((2 ^ 50 : ℤ) : ℚ) * 2 ^ (1024 : ℤ) := mul_le_mul_of_nonneg_right (by norm_num) (two_pos _).le
          _ = _ := by norm_num only [Nat.cast_ofNat]
    obtain ⟨a, a1, -, -⟩ := C84_long_double binary64_usual h r1 (by
      rw [Int.cast_one, abs_one]
      exact le_trans (by norm_num) (pow_le (show (0 : ℤ) ≤ binary64.emax - 4 by decide)))
    unfold getDoublePoint3 coordinate
    rw [h1, a1]
    have : cast rndD (div rndL (.fin a) (.inf false)) = .fin 0 := by
      show rndD 0 = _
      exact rnd_has hD (has_zero (by decide))
    rw [this]

theorem nearest64 : Nearest binary64 (roundNearest binary64) := roundNearest_ok _ (by decide) (by decide)
theorem nearest80 : Nearest extended80 (roundNearest extended80) := roundNearest_ok _ (by decide) (by decide)

theorem rep_one_word (w : Word) : Rep [w] w.toInt := ⟨(canon_iff_minimal _).1 trivial, rfl⟩

/-- The theorem on `double` applies to 3 * 2^64, a number of two words. -/
example : ∃ y, toDouble (roundNearest binary64) (List.replicate (0 + 1) (0 : Word) ++ [3]) = .fin y ∧ |y - (3 * 2 ^ 64 : ℤ)| ≤ 5 / 2 ^ 53 * |((3 * 2 ^ 64 : ℤ) : ℚ)| ∧
    (binary64.Has ((3 * 2 ^ 64 : ℤ) : ℚ) → y = (3 * 2 ^ 64 : ℤ)) :=
  C84_double nearest64 (rep_power 0 3 (by decide)) (le_trans (by norm_num : _ ≤ (2 : ℚ) ^ (66 : ℤ)) (pow_le (by norm_num)))

/-- The hypotheses of `C84_point_partial` hold for the point (1/3, -2/3, 0) and `long double` with 64 bits. -/
example : ∃ X Y Z, getDoublePoint3 (roundNearest extended80) (roundNearest binary64) [1] [-2] [0] [3] = (.fin X, .fin Y, .fin Z) ∧
    ∀ i, |![X, Y, Z] i - (⟨⟨1, -2, 0⟩, 3⟩ : HP3).pt i| ≤ (1 / 2 ^ 53 + 14 / 2 ^ 64) * |(⟨⟨1, -2, 0⟩, 3⟩ : HP3).pt i| := by
  have big : (3 : ℚ) ≤ 2 ^ (16384 - 4 : ℤ) := le_trans (by norm_num : (3 : ℚ) ≤ 2 ^ (2 : ℤ)) (pow_le (by norm_num))
  have lo : (2 : ℚ) ^ (-1021 : ℤ) ≤ 1 / 3 := le_trans (pow_le (by norm_num)) (by norm_num : (2 : ℚ) ^ (-2 : ℤ) ≤ 1 / 3)
  have hi : (1 : ℚ) ≤ 2 ^ (1022 : ℤ) := le_trans (by norm_num : (1 : ℚ) ≤ 2 ^ (0 : ℤ)) (pow_le (by norm_num))
  refine C84_point_partial (p := ⟨⟨1, -2, 0⟩, 3⟩) extended80_usual nearest80 nearest64 (rep_one_word 1) (rep_one_word (-2)) (rep_one_word 0) (rep_one_word 3) (by decide) (fun i => ?_) ?_ (fun i => ?_)
  · refine le_trans ?_ big
    match i with
    | 0 => show |((1 : ℤ) : ℚ)| ≤ 3; norm_num
    | 1 => show |((-2 : ℤ) : ℚ)| ≤ 3; norm_num
    | 2 => show |((0 : ℤ) : ℚ)| ≤ 3; norm_num
  · refine le_trans ?_ big
    show |((3 : ℤ) : ℚ)| ≤ 3
    norm_num
  · match i with
    | 0 =>
      have : (⟨⟨1, -2, 0⟩, 3⟩ : HP3).pt 0 = 1 / 3 := by show ((1 : ℤ) : ℚ) / ((3 : ℤ) : ℚ) = _; norm_num
      rw [this, abs_of_pos (by norm_num : (0 : ℚ) < 1 / 3)]
      exact Or.inr ⟨lo, le_trans (by norm_num) hi⟩
    | 1 =>
      have : (⟨⟨1, -2, 0⟩, 3⟩ : HP3).pt 1 = -(2 / 3) := by show ((-2 : ℤ) : ℚ) / ((3 : ℤ) : ℚ) = _; norm_num
      rw [this, abs_neg, abs_of_pos (by norm_num : (0 : ℚ) < 2 / 3)]
      exact Or.inr ⟨le_trans lo (by norm_num), le_trans (by norm_num) hi⟩
    | 2 => exact Or.inl (by show ((0 : ℤ) : ℚ) / ((3 : ℤ) : ℚ) = 0; norm_num)

/-- The hypotheses of `C84_round_trip` hold for every three finite doubles: `FromDoublesExact` is defined for them
(`decompose_spec`), and every integer has words. -/
example {bx by' bz : BitVec 64} {x y z : ℚ} (hx : doubleValue bx = some x) (hy : doubleValue by' = some y) (hz : doubleValue bz = some z) : ∃ p, fromDoublesExact x y z = some p := by
  obtain ⟨mx, ex, x1, -⟩ := decompose_spec hx
  obtain ⟨my, ey, y1, -⟩ := decompose_spec hy
  obtain ⟨mz, ez, z1, -⟩ := decompose_spec hz
  unfold fromDoublesExact
  simp only [x1, y1, z1, Option.bind_eq_bind, Option.bind_some]
  rw [if_pos (by omega)]
  exact ⟨_, rfl⟩

end Walnut.Props
