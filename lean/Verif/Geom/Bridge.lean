/-
The word level model refines the integer operations of `Verif/Geom/Num.lean`:
for minimal word lists the operations commute with taking values.
-/
import Verif.Geom.Num
import Verif.BigInt.Gcd
import Verif.Props.BigIntDiv

namespace Walnut.Geom
open Walnut BigInt Props

theorem rep_wordsOf (x : Int) : Rep (wordsOf x) x := by
  have hn : x.natAbs < 2 ^ (64 * (Nat.log2 x.natAbs / 64 + 1) + 63) := by
    refine lt_of_lt_of_le Nat.lt_log2_self (Nat.pow_le_pow_right (by norm_num) (by omega))
  have hn' : |x| < 2 ^ (64 * (Nat.log2 x.natAbs / 64 + 1) + 63) := by
    rw [Int.abs_eq_natAbs]; exact_mod_cast hn
  have hb := abs_lt.mp hn'
  refine rep_of_canon (trim_canon (encode_ne_nil _ _)) ?_
  rw [wordsOf, sint_trim, sint_encode _ x hb.1.le hb.2]

theorem bridge_words {a : List Word} {x : Int} (ha : Rep a x) : a = wordsOf x :=
  rep_unique ha (rep_wordsOf x)

theorem bridge_compare {a b : List Word} {x y : Int} (ha : Rep a x) (hb : Rep b y) :
    BigInt.compare a b = cmp x y := C04_compare ha hb

theorem bridge_lessThan {a b : List Word} {x y : Int} (flip : Bool) (ha : Rep a x) (hb : Rep b y) :
    BigInt.lessThan flip a b = lessThan flip x y := by
  obtain ⟨_, _, _, _, _, _, h1, h2⟩ := C04_relations ha hb
  cases flip
  · rw [Bool.eq_iff_iff, h1]; simp [lessThan]
  · rw [Bool.eq_iff_iff, h2]; simp [lessThan]

theorem bridge_absMult {a : List Word} {x : Int} (ha : Rep a x) : getAbsMult a = absMult x := by
  rw [getAbsMult_spec ha.ne_nil, ha.2]; rfl

theorem bridge_absMult2 {a b : List Word} {x y : Int} (ha : Rep a x) (hb : Rep b y) :
    getAbsMult2 a b = absMult2 x y := by
  rw [getAbsMult2_spec ha.ne_nil hb.ne_nil, ha.2, hb.2]; rfl

theorem bridge_hasDifferentSign {a b : List Word} {x y : Int} (ha : Rep a x) (hb : Rep b y)
    (hla : a.length ≤ 2 ^ 63) (hlb : b.length ≤ 2 ^ 63) :
    BigInt.hasDifferentSign a b = hasDifferentSign x y := by
  obtain ⟨_, _, _, _, _, _, h⟩ := C04_signs ha hb hla hlb
  rw [Bool.eq_iff_iff, h]
  unfold hasDifferentSign
  by_cases h1 : x < 0 <;> by_cases h2 : y < 0 <;> simp [h1, h2]

theorem bridge_getSign {a : List Word} {x : Int} (ha : Rep a x) :
    BigInt.getSign a = (signWord x).toInt := by
  rw [bridge_words ha]; rfl

theorem signWord_sign (x : Int) (hl : (wordsOf x).length ≤ 2 ^ 63) :
    ((signWord x).toInt < 0 ↔ x < 0) ∧ ((signWord x).toInt = 0 ↔ x = 0) := by
  have := sign_word (rep_wordsOf x).canon hl
  rw [(rep_wordsOf x).2] at this
  exact this

theorem signExt_eq (x : Int) : signExt x = if x < 0 then BitVec.allOnes 64 else 0#64 := by
  unfold signExt
  rw [signExtension_eq (rep_wordsOf x).ne_nil, (rep_wordsOf x).2]

theorem bridge_abs {a : List Word} {x : Int} (ha : Rep a x) :
    (BigInt.abs a = none ↔ abs? x = none) ∧
    ∀ z, abs? x = some z → ∃ r, BigInt.abs a = some r ∧ Rep r z := by
  by_cases h : x = -2 ^ 63
  · subst h
    have e : a = [BitVec.intMin 64] := rep_unique ha rep_min
    subst e
    refine ⟨by rw [C10_abs_false.2]; simp [abs?], fun z hz => by simp [abs?] at hz⟩
  · obtain ⟨r, h1, h2⟩ := C10_abs_partial ha h
    refine ⟨by rw [h1, abs?, if_neg h]; simp, fun z hz => ?_⟩
    simp only [abs?, if_neg h, Option.some.injEq] at hz
    subst hz
    exact ⟨r, h1, h2⟩

theorem bridge_div {a b : List Word} {x y : Int} (ha : Rep a x) (hb : Rep b y) :
    ∀ q r, divRem? x y = some (q, r) → ∃ u v, BigInt.divideRemainder false a b = some (u, v) ∧
      BigInt.div false a b = some u ∧ BigInt.rem false a b = some v ∧ Rep u q ∧ Rep v r := by
  intro q r h
  unfold divRem? at h
  split at h
  · simp at h
  · rename_i hc
    push Not at hc
    simp only [Option.some.injEq, Prod.mk.injEq] at h
    obtain ⟨rfl, rfl⟩ := h
    exact C07_divide_partial ha hb hc.1 (by tauto)

theorem gcd?_zero (x : Int) : gcd? x 0 = some x := by unfold gcd?; simp

theorem gcd?_step {x y : Int} (hy : y ≠ 0) (h : ¬ (x = -2 ^ 63 ∧ y = -1)) :
    gcd? x y = gcd? y (x.tmod y) := by
  conv_lhs => unfold gcd?
  rw [dif_neg hy, if_neg h]

theorem gcd?_undefined {x y : Int} (h : x = -2 ^ 63 ∧ y = -1) : gcd? x y = none := by
  unfold gcd?
  rw [dif_neg (by omega), if_pos h]

theorem bridge_gcd : ∀ (fuel : Nat) {a b : List Word} {x y : Int}, Rep a x → Rep b y →
    a.length ≤ 2 ^ 63 → b.length ≤ 2 ^ 63 → y.natAbs < fuel →
    (∀ z, gcd? x y = some z → ∃ g, BigInt.gcd false fuel a b = some g ∧ Rep g z) ∧
    (gcd? x y = none → BigInt.gcd false fuel a b = none) := by
  intro fuel
  induction fuel with
  | zero => intro a b x y _ _ _ _ h; omega
  | succ n ih =>
    intro a b x y ha hb hla hlb hf
    have hz : isZero b = decide (y = 0) := by rw [isZero_spec hb.canon hlb, hb.2]
    unfold BigInt.gcd
    rw [hz]
    by_cases hy : y = 0
    · subst hy
      rw [gcd?_zero]
      simp only [decide_true, if_true, Option.some.injEq]
      exact ⟨fun z e => ⟨a, rfl, e ▸ ha⟩, fun h => by simp at h⟩
    · simp only [hy, decide_false, Bool.false_eq_true, if_false]
      by_cases hm : x = -2 ^ 63 ∧ y = -1
      · rw [gcd?_undefined hm]
        obtain ⟨rfl, rfl⟩ := hm
        have e1 : a = [BitVec.intMin 64] := rep_unique ha rep_min
        have e2 : b = [BitVec.allOnes 64] := rep_unique hb C07_false.2.1
        subst e1 e2
        rw [(C07_false.2.2 false).2.2]
        simp
      · obtain ⟨q, r, _, _, e, _, hr⟩ := C07_divide_partial ha hb hy hm
        have hlt : (x.tmod y).natAbs < y.natAbs := by
          rw [Int.natAbs_tmod]; exact Nat.mod_lt _ (by omega)
        have hlr := length_le_of_abs hr.canon hb.ne_nil (by rw [hr.2, hb.2]; exact hlt)
        rw [e, Option.bind_some, gcd?_step hy hm]
        exact ih hb hr hlb (by omega) (by omega)

/-- Whatever `gcd?` returns is the greatest common divisor up to sign. -/
theorem gcd?_natAbs {x y : Int} : ∀ {z : Int}, gcd? x y = some z → z.natAbs = Int.gcd x y := by
  induction hn : y.natAbs using Nat.strong_induction_on generalizing x y with
  | _ n ih =>
    intro z h
    by_cases hy : y = 0
    · subst hy; rw [gcd?_zero] at h; cases h; simp
    · by_cases hm : x = -2 ^ 63 ∧ y = -1
      · rw [gcd?_undefined hm] at h; cases h
      · rw [gcd?_step hy hm] at h
        have hlt : (x.tmod y).natAbs < y.natAbs := by
          rw [Int.natAbs_tmod]; exact Nat.mod_lt _ (by omega)
        rw [ih _ (by omega) rfl h, gcd_tmod]

/-- `gcd?` is defined when one argument is not negative. -/
theorem gcd?_defined {x y : Int} (h : 0 ≤ x ∨ 0 ≤ y) : ∃ z, gcd? x y = some z := by
  induction hn : y.natAbs using Nat.strong_induction_on generalizing x y with
  | _ n ih =>
    by_cases hy : y = 0
    · subst hy; exact ⟨x, gcd?_zero x⟩
    · have hm : ¬ (x = -2 ^ 63 ∧ y = -1) := by omega
      rw [gcd?_step hy hm]
      have hlt : (x.tmod y).natAbs < y.natAbs := by
        rw [Int.natAbs_tmod]; exact Nat.mod_lt _ (by omega)
      refine ih _ (by omega) ?_ rfl
      rcases h with h | h
      · right; exact Int.tmod_nonneg _ h
      · left; exact h

end Walnut.Geom
