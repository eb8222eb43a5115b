/-
Properties C16, C17, C20, C21, C22: comparison and rounding of rationals and of
homogeneous points.  Everything is stated with the rational numbers the objects
denote (`Verif/Geom/Spec.lean`).
-/
import Verif.Geom.Lemmas
import Verif.Geom.Bridge

namespace Walnut.Props
open Walnut.Geom

/-! ### C16 -/

/-- C16: `rational::IsLessThan`. -/
theorem C16_is_less_than {n1 d1 n2 d2 : Int} (h1 : d1 ≠ 0) (h2 : d2 ≠ 0) :
    Rational.isLessThan n1 d1 n2 d2 = true ↔ (n1 : ℚ) / d1 < (n2 : ℚ) / d2 := by
  rw [div_lt_div_signs h1 h2, Rational.isLessThan, lessThan_iff]
  simp only [xor_decide_iff]
  by_cases h : (d1 < 0 ↔ d2 < 0)
  · rw [if_neg (by tauto), if_pos h]
  · rw [if_pos h, if_neg h]

/-- C16: `rational::Equals`. -/
theorem C16_equals {n1 d1 n2 d2 : Int} (h1 : d1 ≠ 0) (h2 : d2 ≠ 0) :
    Rational.equals n1 d1 n2 d2 = true ↔ (n1 : ℚ) / d1 = (n2 : ℚ) / d2 := by
  rw [div_eq_div_int h1 h2]; simp [Rational.equals]

/-- C16: `CompareComponent`, `IsLessThanComponent` and `IsEquivalentComponent`. -/
theorem C16_compare_component (a b : HP3) (i : Fin 3) (ha : a.w ≠ 0) (hb : b.w ≠ 0) :
    (a.compareComponent i b < 0 ↔ a.pt i < b.pt i) ∧
    (a.compareComponent i b = 0 ↔ a.pt i = b.pt i) ∧
    (0 < a.compareComponent i b ↔ b.pt i < a.pt i) ∧
    (a.isLessThanComponent i b = true ↔ a.pt i < b.pt i) ∧
    (a.isEquivalentComponent i b = true ↔ a.pt i = b.pt i) := by
  have hlt := cmp_neg_iff (a.v.comp i * b.w) (b.v.comp i * a.w)
  have heq := cmp_zero_iff (a.v.comp i * b.w) (b.v.comp i * a.w)
  have hgt := cmp_pos_iff (a.v.comp i * b.w) (b.v.comp i * a.w)
  refine ⟨?_, ?_, ?_, C16_is_less_than ha hb, ?_⟩
  · simp only [HP3.pt]
    rw [div_lt_div_signs ha hb, HP3.compareComponent]
    rcases absMult2_cases b.w a.w with ⟨h1, h2⟩ | ⟨h1, h2⟩
    · rw [h2, if_pos (by tauto)]; omega
    · rw [h2, if_neg (by tauto)]; omega
  · simp only [HP3.pt]
    rw [div_eq_div_int ha hb, HP3.compareComponent]
    rcases absMult2_cases b.w a.w with ⟨h1, h2⟩ | ⟨h1, h2⟩ <;> rw [h2] <;> omega
  · simp only [HP3.pt]
    rw [div_lt_div_signs hb ha, HP3.compareComponent]
    rcases absMult2_cases b.w a.w with ⟨h1, h2⟩ | ⟨h1, h2⟩
    · rw [h2, if_pos (by tauto)]; omega
    · rw [h2, if_neg (by tauto)]; omega
  · simp only [HP3.pt]
    rw [div_eq_div_int ha hb]; simp [HP3.isEquivalentComponent]

example : Rational.isLessThan 1 (-2) 1 3 = true := (C16_is_less_than (by norm_num) (by norm_num)).mpr (by norm_num)

/-! ### C17 -/

/-- The quotient and remainder as rationals. -/
theorem tdiv_rat {N d : Int} (hd : d ≠ 0) :
    ∃ ρ : ℚ, (N : ℚ) / d = N.tdiv d + ρ ∧ -1 < ρ ∧ ρ < 1 ∧
      (0 < ρ ↔ N.tmod d ≠ 0 ∧ (N.tmod d < 0 ↔ d < 0)) ∧
      (ρ < 0 ↔ N.tmod d ≠ 0 ∧ ¬ (N.tmod d < 0 ↔ d < 0)) := by
  have hdq : (d : ℚ) ≠ 0 := by exact_mod_cast hd
  have hr : N.tmod d + d * N.tdiv d = N := Int.tmod_add_mul_tdiv N d
  have hlt : |N.tmod d| < |d| := by
    rw [Int.abs_eq_natAbs, Int.abs_eq_natAbs, Int.natAbs_tmod]
    have := Nat.mod_lt N.natAbs (show 0 < d.natAbs by omega)
    omega
  generalize N.tmod d = r at *
  generalize N.tdiv d = q at *
  refine ⟨(r : ℚ) / d, ?_, ?_, ?_, ?_, ?_⟩
  · rw [← hr]; push_cast; field_simp; ring
  · rcases lt_or_gt_of_ne hd with h | h
    · have h' : (d : ℚ) < 0 := by exact_mod_cast h
      rw [lt_div_iff_of_neg h']
      rw [abs_lt, abs_of_neg h] at hlt
      have : (r : ℚ) < -d := by exact_mod_cast hlt.2
      linarith
    · have h' : (0 : ℚ) < d := by exact_mod_cast h
      rw [lt_div_iff₀ h']
      rw [abs_lt, abs_of_pos h] at hlt
      have : (-d : ℚ) < r := by exact_mod_cast hlt.1
      linarith
  · rcases lt_or_gt_of_ne hd with h | h
    · have h' : (d : ℚ) < 0 := by exact_mod_cast h
      rw [div_lt_iff_of_neg h']
      rw [abs_lt, abs_of_neg h] at hlt
      have : (- -d : ℚ) < r := by exact_mod_cast hlt.1
      linarith
    · have h' : (0 : ℚ) < d := by exact_mod_cast h
      rw [div_lt_iff₀ h']
      rw [abs_lt, abs_of_pos h] at hlt
      have : (r : ℚ) < d := by exact_mod_cast hlt.2
      linarith
  · rw [div_pos_iff]
    simp only [Int.cast_pos, Int.cast_lt_zero]
    omega
  · rw [div_neg_iff]
    simp only [Int.cast_pos, Int.cast_lt_zero]
    omega

/-- The sign test of `RoundUp` and `RoundDown`. -/
theorem round_cond {r o n : Int} {ρ : ℚ} (hp : 0 < ρ ↔ r ≠ 0 ∧ (r < 0 ↔ o < 0))
    (hng : ρ < 0 ↔ r ≠ 0 ∧ ¬ (r < 0 ↔ o < 0)) :
    ((¬ (xor (xor (decide (r < 0)) (decide (o < 0))) (decide (n < 0)) = true) ∧ r ≠ 0) ↔
      if n < 0 then ρ < 0 else 0 < ρ) ∧
    ((xor (xor (decide (r < 0)) (decide (o < 0))) (decide (n < 0)) = true ∧ r ≠ 0) ↔
      if n < 0 then 0 < ρ else ρ < 0) := by
  rw [hp, hng]
  by_cases h1 : r < 0 <;> by_cases h2 : o < 0 <;> by_cases h3 : n < 0 <;> simp [h1, h2, h3]

/-- C17 (partial): `RoundUp` returns the numerator `n` for which `n / newDen` is
the least fraction with that denominator not below `num / oldDen`.  Also for
negative denominators.  Missing: `num * newDen = -2^63` with `oldDen = -1`, where
the division is undefined, see `C17_false`. -/
theorem C17_round_up_partial {num oldDen newDen : Int} (ho : oldDen ≠ 0) (hn : newDen ≠ 0)
    (hm : ¬ (num * newDen = -2 ^ 63 ∧ oldDen = -1)) :
    ∃ n, Rational.roundUp num oldDen newDen = some n ∧ (num : ℚ) / oldDen ≤ (n : ℚ) / newDen ∧
      ∀ m : Int, (num : ℚ) / oldDen ≤ (m : ℚ) / newDen → (n : ℚ) / newDen ≤ (m : ℚ) / newDen := by
  obtain ⟨ρ, hv, hl, hu, hp, hng⟩ := tdiv_rat (N := num * newDen) ho
  have hnq : (newDen : ℚ) ≠ 0 := by exact_mod_cast hn
  have hoq : (oldDen : ℚ) ≠ 0 := by exact_mod_cast ho
  have hval : (num : ℚ) / oldDen = (((num * newDen).tdiv oldDen : Int) + ρ) / newDen := by
    rw [← hv]; push_cast; field_simp
  unfold Rational.roundUp divRem?
  rw [if_neg (by tauto)]
  simp only [Option.map_some, Option.some.injEq]
  refine ⟨_, rfl, ?_⟩
  rw [hval]
  generalize (num * newDen).tdiv oldDen = q at *
  generalize (num * newDen).tmod oldDen = r at *
  simp only [(round_cond hp hng).1]
  clear hm
  rcases lt_or_gt_of_ne hn with h | h
  · have h' : (newDen : ℚ) < 0 := by exact_mod_cast h
    simp only [div_le_div_right_of_neg h']
    rcases absMult_cases newDen with ⟨_, e⟩ | ⟨_, e⟩
    · by_cases hc : ρ < 0
      · rw [if_pos (by rw [if_pos h]; exact hc), e]
        constructor
        · push_cast; linarith
        · intro m hmm
          have : (m : ℚ) < q := by linarith
          have : m < q := by exact_mod_cast this
          have : m ≤ q + -1 := by omega
          exact_mod_cast this
      · rw [if_neg (by rw [if_pos h]; exact hc)]
        constructor
        · linarith
        · intro m hmm
          have : (m : ℚ) < q + 1 := by linarith
          have : m < q + 1 := by exact_mod_cast this
          have : m ≤ q := by omega
          exact_mod_cast this
    · omega
  · have h' : (0 : ℚ) < newDen := by exact_mod_cast h
    simp only [div_le_div_iff_of_pos_right h']
    rcases absMult_cases newDen with ⟨_, e⟩ | ⟨_, e⟩
    · omega
    · by_cases hc : 0 < ρ
      · rw [if_pos (by rw [if_neg (by omega)]; exact hc), e]
        constructor
        · push_cast; linarith
        · intro m hmm
          have : (q : ℚ) < m := by linarith
          have : q < m := by exact_mod_cast this
          have : q + 1 ≤ m := by omega
          exact_mod_cast this
      · rw [if_neg (by rw [if_neg (by omega)]; exact hc)]
        constructor
        · linarith
        · intro m hmm
          have : (q : ℚ) - 1 < m := by linarith
          have : q - 1 < m := by exact_mod_cast this
          have : q ≤ m := by omega
          exact_mod_cast this

/-- C17 (partial): `RoundDown`, the greatest such fraction not above. -/
theorem C17_round_down_partial {num oldDen newDen : Int} (ho : oldDen ≠ 0) (hn : newDen ≠ 0)
    (hm : ¬ (num * newDen = -2 ^ 63 ∧ oldDen = -1)) :
    ∃ n, Rational.roundDown num oldDen newDen = some n ∧ (n : ℚ) / newDen ≤ (num : ℚ) / oldDen ∧
      ∀ m : Int, (m : ℚ) / newDen ≤ (num : ℚ) / oldDen → (m : ℚ) / newDen ≤ (n : ℚ) / newDen := by
  obtain ⟨ρ, hv, hl, hu, hp, hng⟩ := tdiv_rat (N := num * newDen) ho
  have hnq : (newDen : ℚ) ≠ 0 := by exact_mod_cast hn
  have hoq : (oldDen : ℚ) ≠ 0 := by exact_mod_cast ho
  have hval : (num : ℚ) / oldDen = (((num * newDen).tdiv oldDen : Int) + ρ) / newDen := by
    rw [← hv]; push_cast; field_simp
  unfold Rational.roundDown divRem?
  rw [if_neg (by tauto)]
  simp only [Option.map_some, Option.some.injEq]
  refine ⟨_, rfl, ?_⟩
  rw [hval]
  generalize (num * newDen).tdiv oldDen = q at *
  generalize (num * newDen).tmod oldDen = r at *
  simp only [(round_cond hp hng).2]
  clear hm
  rcases lt_or_gt_of_ne hn with h | h
  · have h' : (newDen : ℚ) < 0 := by exact_mod_cast h
    simp only [div_le_div_right_of_neg h']
    rcases absMult_cases newDen with ⟨_, e⟩ | ⟨_, e⟩
    · by_cases hc : 0 < ρ
      · rw [if_pos (by rw [if_pos h]; exact hc), e]
        constructor
        · push_cast; linarith
        · intro m hmm
          have : (q : ℚ) < m := by linarith
          have : q < m := by exact_mod_cast this
          have : q - -1 ≤ m := by omega
          exact_mod_cast this
      · rw [if_neg (by rw [if_pos h]; exact hc)]
        constructor
        · linarith
        · intro m hmm
          have : (q : ℚ) - 1 < m := by linarith
          have : q - 1 < m := by exact_mod_cast this
          have : q ≤ m := by omega
          exact_mod_cast this
    · omega
  · have h' : (0 : ℚ) < newDen := by exact_mod_cast h
    simp only [div_le_div_iff_of_pos_right h']
    rcases absMult_cases newDen with ⟨_, e⟩ | ⟨_, e⟩
    · omega
    · by_cases hc : ρ < 0
      · rw [if_pos (by rw [if_neg (by omega)]; exact hc), e]
        constructor
        · push_cast; linarith
        · intro m hmm
          have : (m : ℚ) < q := by linarith
          have : m < q := by exact_mod_cast this
          have : m ≤ q - 1 := by omega
          exact_mod_cast this
      · rw [if_neg (by rw [if_neg (by omega)]; exact hc)]
        constructor
        · linarith
        · intro m hmm
          have : (m : ℚ) < q + 1 := by linarith
          have : m < q + 1 := by exact_mod_cast this
          have : m ≤ q := by omega
          exact_mod_cast this

/-- C17 is false of the code at `-2^63 / -1`. -/
theorem C17_false : Rational.roundUp (-2 ^ 63) (-1) 1 = none ∧
    Rational.roundDown (-2 ^ 63) (-1) 1 = none := by decide

example : Rational.roundUp 7 (-2) 3 = some (-10) ∧ Rational.roundDown 7 (-2) 3 = some (-11) := by
  decide
example : ¬ ((7 : Int) * 3 = -2 ^ 63 ∧ (-2 : Int) = -1) := by norm_num

/-! ### C20 -/

theorem comp_scale (v : V3) (s : Int) (i : Fin 3) : (v.scale s).comp i = v.comp i * s := by
  fin_cases i <;> rfl

theorem v3_ext_comp {a b : V3} : a = b ↔ ∀ i, a.comp i = b.comp i := by
  constructor
  · rintro rfl i; rfl
  · intro h
    have h0 := h 0; have h1 := h 1; have h2 := h 2
    simp only [V3.comp] at h0 h1 h2
    ext <;> assumption

/-- C20: `==` on homogeneous points is equality of the points denoted. -/
theorem C20_eq (a b : HP3) (ha : a.w ≠ 0) (hb : b.w ≠ 0) : a.eq b = true ↔ a.pt = b.pt := by
  simp only [HP3.eq, decide_eq_true_eq, v3_ext_comp, comp_scale, funext_iff, HP3.pt]
  exact forall_congr' fun i => (div_eq_div_int ha hb).symm

/-- C20: comparison with an integer point. -/
theorem C20_eq_point (a : HP3) (b : V3) (ha : a.w ≠ 0) : a.eqPoint b = true ↔ a.pt = b.q := by
  have h1 : (HP3.ofPoint b).pt = b.q := by funext i; simp [HP3.pt, HP3.ofPoint, V3.q]
  rw [← h1, ← C20_eq a (HP3.ofPoint b) ha (by simp [HP3.ofPoint])]
  simp only [HP3.eqPoint, HP3.eq, decide_eq_true_eq, v3_ext_comp, comp_scale, HP3.ofPoint]
  simp

/-- C20: hence `==` is an equivalence relation. -/
theorem C20_equivalence (a b c : HP3) (ha : a.w ≠ 0) (hb : b.w ≠ 0) (hc : c.w ≠ 0) :
    a.eq a = true ∧ (a.eq b = true → b.eq a = true) ∧
    (a.eq b = true → b.eq c = true → a.eq c = true) := by
  rw [C20_eq a a ha ha, C20_eq a b ha hb, C20_eq b a hb ha, C20_eq b c hb hc, C20_eq a c ha hc]
  exact ⟨rfl, Eq.symm, Eq.trans⟩

/-- The point `0/0`, which is not valid, equals every point: the hypothesis on
`w` is needed. -/
theorem C20_invalid (a : HP3) : HP3.eq a ⟨⟨0, 0, 0⟩, 0⟩ = true := by
  simp [HP3.eq, V3.scale]

/-- `==` in the plane. -/
theorem C20_eq2 (a b : HP2) (ha : a.w ≠ 0) (hb : b.w ≠ 0) : a.eq b = true ↔ a.pt = b.pt := by
  simp only [HP2.eq, decide_eq_true_eq, V2.scale, V2.mk.injEq, HP2.pt]
  rw [← div_eq_div_int ha hb, ← div_eq_div_int ha hb]
  constructor
  · rintro ⟨h1, h2⟩; rw [h1, h2]
  · intro h
    exact ⟨by simpa using congrFun h 0, by simpa using congrFun h 1⟩

example : HP3.eq ⟨⟨1, 2, 3⟩, 4⟩ ⟨⟨-2, -4, -6⟩, -8⟩ = true :=
  (C20_eq _ _ (by decide) (by decide)).mpr (by funext i; fin_cases i <;> norm_num [HP3.pt, V3.comp])

/-! ### C21 -/

theorem lex3 (f : Bool) (a0 a1 a2 b0 b1 b2 : Int) :
    lexCompare (lessThan f) [a0, a1, a2] [b0, b1, b2] = true ↔
      lessThan f a0 b0 = true ∨ (a0 = b0 ∧ (lessThan f a1 b1 = true ∨
        (a1 = b1 ∧ lessThan f a2 b2 = true))) := by
  simp only [lexCompare]
  cases f <;> simp only [lessThan, Bool.false_eq_true, if_true, if_false, decide_eq_true_eq] <;>
    split_ifs <;> simp only [true_iff, false_iff] <;> omega

theorem lex2 (f : Bool) (a0 a1 b0 b1 : Int) :
    lexCompare (lessThan f) [a0, a1] [b0, b1] = true ↔
      lessThan f a0 b0 = true ∨ (a0 = b0 ∧ lessThan f a1 b1 = true) := by
  simp only [lexCompare]
  cases f <;> simp only [lessThan, Bool.false_eq_true, if_true, if_false, decide_eq_true_eq] <;>
    split_ifs <;> simp only [true_iff, false_iff] <;> omega

/-- C21: `HomoPoint3::LexicographicallyLt`. -/
theorem C21_lexicographically_lt (a b : HP3) (ha : a.w ≠ 0) (hb : b.w ≠ 0) :
    a.lexicographicallyLt b = true ↔ LexLt a.pt b.pt := by
  have key : ∀ i, (lessThan false (a.v.comp i * (b.w * absMult2 b.w a.w))
      (b.v.comp i * (a.w * absMult2 b.w a.w)) = true ↔ a.pt i < b.pt i) ∧
      (a.v.comp i * (b.w * absMult2 b.w a.w) = b.v.comp i * (a.w * absMult2 b.w a.w) ↔
        a.pt i = b.pt i) := by
    intro i
    simp only [HP3.pt]
    rw [div_lt_div_signs ha hb, div_eq_div_int ha hb, lessThan_iff]
    rcases absMult2_cases b.w a.w with ⟨h1, h2⟩ | ⟨h1, h2⟩
    · rw [h2, if_pos (show (a.w < 0 ↔ b.w < 0) by tauto)]; simp
    · rw [h2, if_neg (show ¬ (a.w < 0 ↔ b.w < 0) by tauto)]
      simp only [Bool.false_eq_true, if_false, mul_neg, mul_one]
      constructor <;> constructor <;> intro h <;> linarith
  have k0 := key 0; have k1 := key 1; have k2 := key 2
  simp only [V3.comp] at k0 k1 k2
  unfold HP3.lexicographicallyLt LexLt
  simp only [V3.scale]
  rw [lex3, k0.1, k0.2, k1.1, k1.2, k2.1]

/-- C21: `HomoPoint3::TopnessLt`. -/
theorem C21_topness_lt (a b : HP3) (ha : a.w ≠ 0) (hb : b.w ≠ 0) :
    a.topnessLt b = true ↔ TopLt a.pt b.pt := by
  have key : ∀ i, (lessThan (hasDifferentSign b.w a.w) (a.v.comp i * b.w)
      (b.v.comp i * a.w) = true ↔ a.pt i < b.pt i) ∧
      (a.v.comp i * b.w = b.v.comp i * a.w ↔ a.pt i = b.pt i) := by
    intro i
    simp only [HP3.pt]
    rw [div_lt_div_signs ha hb, div_eq_div_int ha hb, lessThan_iff]
    have := hasDifferentSign_iff b.w a.w
    by_cases h : (a.w < 0 ↔ b.w < 0)
    · rw [if_pos h, if_neg (by rw [this]; tauto)]; simp
    · rw [if_neg h, if_pos (by rw [this]; tauto)]; simp
  have k0 := key 0; have k1 := key 1; have k2 := key 2
  simp only [V3.comp] at k0 k1 k2
  unfold HP3.topnessLt TopLt
  simp only [V3.scale]
  rw [lex3, k0.1, k1.1, k1.2, k2.1, k2.2]

/-- C21: `Point3::LexicographicallyLt`. -/
theorem C21_point_lt (a b : V3) : a.lexicographicallyLt b = true ↔ LexLt a.q b.q := by
  unfold V3.lexicographicallyLt LexLt
  rw [lex3]
  simp [lessThan, V3.q, V3.comp]

/-- C21 for the plane (partial): for denominators of the same sign.  Missing:
denominators of different sign, where the order is wrong, see `C21_plane_false`. -/
theorem C21_plane_partial (a b : HP2) (h : 0 < a.w * b.w) :
    a.lexicographicallyLt b = true ↔ LexLt2 a.pt b.pt := by
  have ha : a.w ≠ 0 := by rintro h0; rw [h0] at h; simp at h
  have hb : b.w ≠ 0 := by rintro h0; rw [h0] at h; simp at h
  have hs : (a.w < 0 ↔ b.w < 0) := by
    rcases lt_or_gt_of_ne ha with h1 | h1 <;> rcases lt_or_gt_of_ne hb with h2 | h2
    · simp [h1, h2]
    · exact absurd h (not_lt.mpr (Int.mul_neg_of_neg_of_pos h1 h2).le)
    · exact absurd h (not_lt.mpr (Int.mul_neg_of_pos_of_neg h1 h2).le)
    · constructor <;> intro <;> omega
  unfold HP2.lexicographicallyLt LexLt2
  simp only [V2.scale]
  rw [lex2]
  simp only [HP2.pt, Matrix.cons_val_zero, Matrix.cons_val_one]
  rw [div_lt_div_signs ha hb, div_eq_div_int ha hb, div_lt_div_signs ha hb, if_pos hs, if_pos hs]
  simp [lessThan]

/-- C21 is false for the plane: `(0, 0)` written with denominator `-1` is not
below `(1, 0)`, and `(1, 0)` is below it. -/
theorem C21_plane_false :
    HP2.lexicographicallyLt ⟨⟨0, 0⟩, -1⟩ ⟨⟨1, 0⟩, 1⟩ = false ∧
    HP2.lexicographicallyLt ⟨⟨1, 0⟩, 1⟩ ⟨⟨0, 0⟩, -1⟩ = true ∧
    LexLt2 (HP2.pt ⟨⟨0, 0⟩, -1⟩) (HP2.pt ⟨⟨1, 0⟩, 1⟩) := by
  refine ⟨by decide, by decide, ?_⟩
  left; norm_num [HP2.pt]

example : HP3.lexicographicallyLt ⟨⟨1, 2, -3⟩, -4⟩ ⟨⟨1, 2, 3⟩, 4⟩ = true :=
  (C21_lexicographically_lt _ _ (by decide) (by decide)).mpr (by
    left; norm_num [HP3.pt, V3.comp])
example : (0 : Int) < HP2.w ⟨⟨1, 2⟩, -3⟩ * HP2.w ⟨⟨1, 2⟩, -5⟩ := by decide

/-! ### C22 -/

/-- The turn `p1, p, p3` in the projection dropping a coordinate: positive when
`p3` is counter-clockwise from `p1` seen from `p`. -/
def turn (drop : Fin 3) (p1 p p3 : Q3) : ℚ :=
  cross2Q ![p1 (drop + 1) - p (drop + 1), p1 (drop + 2) - p (drop + 2)]
    ![p3 (drop + 1) - p (drop + 1), p3 (drop + 2) - p (drop + 2)]

theorem twistCross_eq (p p1 p3 : HP3) (drop : Fin 3) (h : p.w ≠ 0) (h1 : p1.w ≠ 0) (h3 : p3.w ≠ 0) :
    (p.twistCross drop p1 p3 : ℚ) =
      turn drop p1.pt p.pt p3.pt * (p1.w * p3.w) * (p.w * p.w) := by
  have hq : (p.w : ℚ) ≠ 0 := by exact_mod_cast h
  have hq1 : (p1.w : ℚ) ≠ 0 := by exact_mod_cast h1
  have hq3 : (p3.w : ℚ) ≠ 0 := by exact_mod_cast h3
  simp only [HP3.twistCross, V2.cross, V2.sub, V2.scale, V3.dropDimension, turn, cross2Q, HP3.pt,
    Matrix.cons_val_zero, Matrix.cons_val_one]
  push_cast
  field_simp

/-- C22 (partial): for the neighbours' denominators of the same sign.
`wordsOf x` are the words of `x`: their number is a `size_t`.  Missing: different
signs, where the answer can be wrong, see `C22_false`. -/
theorem C22_twist_partial (p p1 p3 : HP3) (drop : Fin 3) (h : p.w ≠ 0) (h13 : 0 < p1.w * p3.w)
    (hl : (wordsOf (p.twistCross drop p1 p3)).length ≤ 2 ^ 63) :
    SameSign (p.get2DTwistDir drop p1 p3).toInt (turn drop p1.pt p.pt p3.pt) ∧
    SameSign (p.get2DTwistDirReduced drop p1 p3) (turn drop p1.pt p.pt p3.pt) := by
  have h1 : p1.w ≠ 0 := by rintro h0; rw [h0] at h13; simp at h13
  have h3 : p3.w ≠ 0 := by rintro h0; rw [h0] at h13; simp at h13
  have hs : (p1.w < 0 ↔ p3.w < 0) := by
    rcases lt_or_gt_of_ne h1 with h2 | h2 <;> rcases lt_or_gt_of_ne h3 with h4 | h4
    · simp [h2, h4]
    · exact absurd h13 (not_lt.mpr (Int.mul_neg_of_neg_of_pos h2 h4).le)
    · exact absurd h13 (not_lt.mpr (Int.mul_neg_of_pos_of_neg h2 h4).le)
    · constructor <;> intro <;> omega
  have e : p.get2DTwistDir drop p1 p3 = signWord (p.twistCross drop p1 p3) := by
    unfold HP3.get2DTwistDir
    rw [signExt_eq, signExt_eq]
    by_cases h2 : p1.w < 0
    · rw [if_pos h2, if_pos (hs.mp h2), BitVec.xor_assoc, BitVec.xor_self, BitVec.xor_zero]
    · rw [if_neg h2, if_neg (by tauto), BitVec.xor_zero, BitVec.xor_zero]
  have hc := twistCross_eq p p1 p3 drop h h1 h3
  have hk : (0 : ℚ) < (p1.w * p3.w) * (p.w * p.w) := by
    have a1 : (0 : ℚ) < (p1.w * p3.w : Int) := by exact_mod_cast h13
    have a2 : (0 : ℚ) < (p.w * p.w : Int) := by
      exact_mod_cast lt_of_le_of_ne (mul_self_nonneg _) (Ne.symm (mul_ne_zero h h))
    push_cast at a1 a2
    exact mul_pos a1 a2
  rw [mul_assoc] at hc
  obtain ⟨s1, s2⟩ := signWord_sign _ hl
  generalize turn drop p1.pt p.pt p3.pt = t at *
  generalize (p1.w : ℚ) * p3.w * (p.w * p.w) = k at *
  have c1 : p.twistCross drop p1 p3 < 0 ↔ t < 0 := by
    rw [← Int.cast_lt_zero (R := ℚ), hc, mul_neg_iff]
    constructor
    · rintro (⟨_, h⟩ | ⟨h, _⟩) <;> linarith
    · intro h; right; exact ⟨h, hk⟩
  have c2 : p.twistCross drop p1 p3 = 0 ↔ t = 0 := by
    rw [← Int.cast_eq_zero (α := ℚ), hc, mul_eq_zero]
    constructor
    · rintro (h | h)
      · exact h
      · linarith
    · intro h; left; exact h
  have c3 : (0 < (signWord (p.twistCross drop p1 p3)).toInt) ↔ 0 < t := by
    constructor
    · intro h0
      rcases lt_trichotomy t 0 with h5 | h5 | h5
      · have := s1.mpr (c1.mpr h5); omega
      · have := s2.mpr (c2.mpr h5); omega
      · exact h5
    · intro h0
      have n1 : ¬ (signWord (p.twistCross drop p1 p3)).toInt < 0 := by
        rw [s1, c1]; exact not_lt.mpr h0.le
      have n2 : ¬ (signWord (p.twistCross drop p1 p3)).toInt = 0 := by
        rw [s2, c2]; exact h0.ne'
      omega
  unfold SameSign HP3.get2DTwistDirReduced
  rw [e]
  refine ⟨⟨s1.trans c1, s2.trans c2, c3⟩, ?_⟩
  simp only
  have d1 := s1.trans c1
  have d2 := s2.trans c2
  rw [← c3, ← d2, ← d1]
  generalize (signWord (p.twistCross drop p1 p3)).toInt = y
  rcases lt_trichotomy y 0 with h | h | h
  · rw [if_neg (by omega), if_pos h]; refine ⟨?_, ?_, ?_⟩ <;> constructor <;> intro <;> omega
  · rw [if_neg (by omega), if_neg (by omega)]; refine ⟨?_, ?_, ?_⟩ <;> constructor <;> intro <;> omega
  · rw [if_pos h]; refine ⟨?_, ?_, ?_⟩ <;> constructor <;> intro <;> omega

/-- C22 is false of the code: with neighbours' denominators of different sign,
three equal points (collinear) give `-1`, and a clockwise turn gives `0`. -/
theorem C22_false :
    HP3.get2DTwistDirReduced ⟨⟨0, 0, 0⟩, 1⟩ 2 ⟨⟨0, 0, 0⟩, 1⟩ ⟨⟨0, 0, 0⟩, -1⟩ = -1 ∧
    turn 2 (HP3.pt ⟨⟨0, 0, 0⟩, 1⟩) (HP3.pt ⟨⟨0, 0, 0⟩, 1⟩) (HP3.pt ⟨⟨0, 0, 0⟩, -1⟩) = 0 ∧
    HP3.get2DTwistDirReduced ⟨⟨0, 0, 0⟩, 1⟩ 2 ⟨⟨0, 1, 0⟩, 1⟩ ⟨⟨1, 0, 0⟩, -1⟩ = 0 ∧
    turn 2 (HP3.pt ⟨⟨0, 1, 0⟩, 1⟩) (HP3.pt ⟨⟨0, 0, 0⟩, 1⟩) (HP3.pt ⟨⟨1, 0, 0⟩, -1⟩) = 1 := by
  refine ⟨by decide +kernel, ?_, by decide +kernel, ?_⟩
  · norm_num [turn, cross2Q, HP3.pt, V3.comp]
  · simp only [turn, cross2Q, HP3.pt, Matrix.cons_val_zero, Matrix.cons_val_one]
    rw [show (2 + 1 : Fin 3) = 0 from rfl, show (2 + 2 : Fin 3) = 1 from rfl]
    norm_num [V3.comp]

/-- C22 for points with integer coordinates: no condition. -/
theorem C22_point_twist (p p1 p3 : V3) (drop : Fin 3)
    (hl : (wordsOf (((p1.dropDimension drop).sub (p.dropDimension drop)).cross
      ((p3.dropDimension drop).sub (p.dropDimension drop)))).length ≤ 2 ^ 63) :
    SameSign (p.get2DTwistDir drop p1 p3).toInt (turn drop p1.q p.q p3.q) := by
  have hc : ((((p1.dropDimension drop).sub (p.dropDimension drop)).cross
      ((p3.dropDimension drop).sub (p.dropDimension drop)) : Int) : ℚ) = turn drop p1.q p.q p3.q := by
    simp only [V2.cross, V2.sub, V3.dropDimension, turn, cross2Q, V3.q,
      Matrix.cons_val_zero, Matrix.cons_val_one]
    push_cast
    ring
  obtain ⟨s1, s2⟩ := signWord_sign _ hl
  unfold V3.get2DTwistDir V2.getTwistDir SameSign
  rw [← hc]
  generalize ((p1.dropDimension drop).sub (p.dropDimension drop)).cross
      ((p3.dropDimension drop).sub (p.dropDimension drop)) = x at *
  rw [Int.cast_lt_zero, Int.cast_eq_zero, Int.cast_pos]
  refine ⟨s1, s2, ?_⟩
  omega

example : SameSign (HP3.get2DTwistDir ⟨⟨0, 0, 0⟩, 2⟩ 2 ⟨⟨1, 0, 0⟩, -3⟩ ⟨⟨0, 1, 0⟩, -5⟩).toInt
    (turn 2 (HP3.pt ⟨⟨1, 0, 0⟩, -3⟩) (HP3.pt ⟨⟨0, 0, 0⟩, 2⟩) (HP3.pt ⟨⟨0, 1, 0⟩, -5⟩)) :=
  (C22_twist_partial _ _ _ _ (by decide) (by decide) (by decide +kernel)).1

end Walnut.Props
