/- Helper lemmas for the comparison operators. -/
import Verif.BigInt.AddSub
import Verif.BigInt.CompareModel

namespace Walnut

open BigInt

/-- Ordering of two values through their top digits. -/
theorem digit_lt {P u v x y : Int} (hu : u < P) (hv : 0 ≤ v) (hu0 : 0 ≤ u) (h : x < y) :
    u + P * x < v + P * y := by
  have : P * x + P ≤ P * y := by
    have : P * (x + 1) ≤ P * y := mul_le_mul_of_nonneg_left (by omega) (by omega)
    linarith
  linarith

theorem unat_rev_cons (x : Word) (xs : List Word) :
    unat (x :: xs).reverse = unat xs.reverse + 2 ^ (64 * xs.length) * x.toNat := by
  rw [List.reverse_cons, unat_append, List.length_reverse]
  simp [unat]

theorem sint_rev_cons (x : Word) (xs : List Word) :
    sint (x :: xs).reverse = unat xs.reverse + 2 ^ (64 * xs.length) * x.toInt := by
  rw [List.reverse_cons, sint_snoc, List.length_reverse]

/-- Sign of the difference of two words. -/
theorem unat_rev_lt {x y : Word} {xs ys : List Word} (hl : xs.length = ys.length) (h : x < y) :
    (unat (x :: xs).reverse : Int) < unat (y :: ys).reverse := by
  rw [unat_rev_cons, unat_rev_cons, hl]
  push_cast
  have h1 : (unat xs.reverse : Int) < 2 ^ (64 * ys.length) := by
    have := unat_lt xs.reverse
    rw [List.length_reverse, hl] at this
    exact_mod_cast this
  exact digit_lt h1 (by omega) (by omega) (by exact_mod_cast BitVec.lt_def.mp h)

theorem sint_rev_lt {x y : Word} {xs ys : List Word} (hl : xs.length = ys.length)
    (h : x.toInt < y.toInt) : sint (x :: xs).reverse < sint (y :: ys).reverse := by
  rw [sint_rev_cons, sint_rev_cons, hl]
  have h1 : (unat xs.reverse : Int) < 2 ^ (64 * ys.length) := by
    have := unat_lt xs.reverse
    rw [List.length_reverse, hl] at this
    exact_mod_cast this
  exact digit_lt h1 (by omega) (by omega) h

/-- With equal top words the rest decides. -/
theorem sint_rev_same {x : Word} {xs ys : List Word} (hl : xs.length = ys.length) :
    sint (x :: xs).reverse - sint (x :: ys).reverse = unat xs.reverse - unat ys.reverse := by
  rw [sint_rev_cons, sint_rev_cons, hl]; ring

theorem unat_rev_same {x : Word} {xs ys : List Word} (hl : xs.length = ys.length) :
    (unat (x :: xs).reverse : Int) - unat (x :: ys).reverse
      = unat xs.reverse - unat ys.reverse := by
  rw [unat_rev_cons, unat_rev_cons, hl]; push_cast; ring

theorem word_trichotomy (x y : Word) : x < y ∨ x = y ∨ y < x := by
  rcases Nat.lt_trichotomy x.toNat y.toNat with h | h | h
  · left; exact BitVec.lt_def.mpr h
  · right; left; exact BitVec.eq_of_toNat_eq h
  · right; right; exact BitVec.lt_def.mpr h

theorem int_ne_of_ne {x y : Word} (h : x ≠ y) : x.toInt < y.toInt ∨ y.toInt < x.toInt := by
  rcases lt_trichotomy x.toInt y.toInt with h1 | h1 | h1
  · exact Or.inl h1
  · exact absurd (BitVec.eq_of_toInt_eq h1) h
  · exact Or.inr h1

/-- The sign used as the specification of a three-way comparison. -/
theorem compareRest_spec : ∀ {xs ys : List Word}, xs.length = ys.length →
    compareRest xs ys = Int.sign (unat xs.reverse - unat ys.reverse)
  | [], [], _ => by simp [compareRest]
  | [], _ :: _, h => by simp at h
  | _ :: _, [], h => by simp at h
  | x :: xs, y :: ys, h => by
    have hl : xs.length = ys.length := by simpa using h
    unfold compareRest
    rcases word_trichotomy x y with h1 | h1 | h1
    · have := unat_rev_lt hl h1
      have hn : ¬ x > y := by
        have := BitVec.lt_def.mp h1
        rw [gt_iff_lt, BitVec.lt_def]; omega
      rw [if_neg hn, if_pos h1, Int.sign_eq_neg_one_of_neg (by omega)]
    · subst h1
      have hn : ¬ x < x := by rw [BitVec.lt_def]; omega
      rw [if_neg hn, if_neg hn, compareRest_spec hl, unat_rev_same hl]
    · have := unat_rev_lt hl.symm h1
      rw [if_pos h1, Int.sign_eq_one_of_pos (by omega)]

/-- A longer canonical value has the larger magnitude. -/
theorem shorter_cmp {a b : List Word} (ha : a ≠ []) (hb : Canon b) (h : a.length < b.length) :
    (0 ≤ (top b).toInt → sint a < sint b) ∧ ((top b).toInt < 0 → sint b < sint a) := by
  have hl : a.length ≠ 0 := by simpa using ha
  have hbig := hb.large (by omega)
  obtain ⟨b1, b2⟩ := sint_bounds ha
  have hmono : (2 : Int) ^ (64 * a.length - 1) ≤ 2 ^ (64 * (b.length - 1) - 1) :=
    pow_le_pow_right₀ (by norm_num) (by omega)
  have hp : (0 : Int) < 2 ^ (64 * (b.length - 1) - 1) := by positivity
  have hs := sint_neg_iff hb.ne_nil
  generalize (2 : Int) ^ (64 * (b.length - 1) - 1) = p at *
  constructor <;> intro ht
  · have : ¬ sint b < 0 := by rw [hs]; omega
    rcases hbig with hb' | hb' <;> linarith
  · have := hs.mpr ht
    rcases hbig with hb' | hb' <;> linarith

theorem rev_ne {a : List Word} (h : a ≠ []) : ∃ x xs, a.reverse = x :: xs ∧ a = (x :: xs).reverse ∧
    a.length = xs.length + 1 := by
  cases hr : a.reverse with
  | nil => exact absurd (by simpa using hr) h
  | cons x xs =>
    refine ⟨x, xs, rfl, by rw [← hr, List.reverse_reverse], ?_⟩
    have := congrArg List.length hr
    simpa using this

theorem signExt32 (w : Word) :
    (0 ≤ w.toInt ∧ (Word.signExt w).setWidth 32 = 0#32) ∨
    (w.toInt < 0 ∧ (Word.signExt w).setWidth 32 = BitVec.allOnes 32) := by
  have := w.isLt
  rcases Word.signExt_cases w with ⟨h1, h2⟩ | ⟨h1, h2⟩ <;>
  rcases Word.toInt_cases w with ⟨h3, h4⟩ | ⟨h3, h4⟩
  · left; exact ⟨by omega, by rw [h2]; decide⟩
  · omega
  · omega
  · right; exact ⟨by omega, by rw [h2]; decide⟩

theorem compare_spec {a b : List Word} (ha : Canon a) (hb : Canon b) :
    BigInt.compare a b = Int.sign (sint a - sint b) := by
  unfold BigInt.compare
  split
  · rename_i h
    obtain ⟨c1, c2⟩ := shorter_cmp ha.ne_nil hb h
    rcases signExt32 (top b) with ⟨h1, h2⟩ | ⟨h1, h2⟩
    · rw [h2, Int.sign_eq_neg_one_of_neg (by linarith [c1 h1])]; decide
    · rw [h2, Int.sign_eq_one_of_pos (by linarith [c2 h1])]; decide
  · split
    · rename_i h
      obtain ⟨c1, c2⟩ := shorter_cmp hb.ne_nil ha h
      rcases signExt32 (top a) with ⟨h1, h2⟩ | ⟨h1, h2⟩
      · rw [h2, Int.sign_eq_one_of_pos (by linarith [c1 h1])]; decide
      · rw [h2, Int.sign_eq_neg_one_of_neg (by linarith [c2 h1])]; decide
    · rename_i h1 h2
      obtain ⟨x, xs, hx1, hx2, hx3⟩ := rev_ne ha.ne_nil
      obtain ⟨y, ys, hy1, hy2, hy3⟩ := rev_ne hb.ne_nil
      rw [hx1, hy1, hx2, hy2]
      have hl : xs.length = ys.length := by omega
      simp only
      by_cases hxy : x = y
      · subst hxy
        rw [if_neg (by simp), compareRest_spec hl, sint_rev_same hl]
      · rw [if_pos hxy]
        rcases int_ne_of_ne hxy with h | h
        · have := sint_rev_lt hl h
          rw [if_neg (by omega), Int.sign_eq_neg_one_of_neg (by omega)]
        · have := sint_rev_lt hl.symm h
          rw [if_pos (by omega), Int.sign_eq_one_of_pos (by omega)]

/-! The five remaining operators share the same shape: `R` is the relation on
the words below the top, decided by `f` on the loop. -/

theorem not_gt_of_lt {x y : Word} (h : x < y) : ¬ y < x := by
  rw [BitVec.lt_def] at *; omega

theorem lt_irrefl_word (x : Word) : ¬ x < x := by rw [BitVec.lt_def]; omega

/-- `a0` is the least significant word of the reversed list `xs`. -/
def LastIs (a0 : Word) : List Word → Prop
  | [] => False
  | [x] => x = a0
  | _ :: x :: xs => LastIs a0 (x :: xs)

theorem lastIs_rev {x : Word} {xs : List Word} : LastIs (first (x :: xs).reverse) (x :: xs) := by
  induction xs generalizing x with
  | nil => simp [LastIs, first]
  | cons y ys ih =>
    have : first (x :: y :: ys).reverse = first (y :: ys).reverse := by
      rw [List.reverse_cons]
      cases h : (y :: ys).reverse with
      | nil => simp at h
      | cons z zs => rfl
    rw [this]
    exact ih

theorem lastIs_tail {a0 x : Word} {xs : List Word} (h : LastIs a0 (x :: xs)) (hne : xs ≠ []) :
    LastIs a0 xs := by
  cases xs with
  | nil => exact absurd rfl hne
  | cons y ys => exact h

theorem unat_singleton_rev (x : Word) : unat [x].reverse = x.toNat := by simp [unat]

theorem ltRest_spec {a0 b0 : Word} : ∀ {xs ys : List Word}, xs.length = ys.length →
    LastIs a0 xs → LastIs b0 ys →
    ltRest a0 b0 xs ys = decide (unat xs.reverse < unat ys.reverse)
  | [], _, _, h, _ => absurd h (by simp [LastIs])
  | [x], [y], _, h1, h2 => by
    simp only [LastIs] at h1 h2; subst h1; subst h2
    simp only [ltRest, BitVec.lt_def, unat_singleton_rev]
  | [x], [], h, _, _ => by simp at h
  | [x], _ :: _ :: _, h, _, _ => by simp at h
  | _ :: _ :: _, [], h, _, _ => by simp at h
  | _ :: _ :: _, [_], h, _, _ => by simp at h
  | x :: x' :: xs, y :: y' :: ys, h, h1, h2 => by
    have hl : (x' :: xs).length = (y' :: ys).length := by simpa using h
    unfold ltRest
    rcases word_trichotomy x y with h3 | h3 | h3
    · have := unat_rev_lt hl h3
      rw [if_pos h3]; symm; rw [decide_eq_true_eq]; omega
    · subst h3
      have := unat_rev_same (x := x) hl
      rw [if_neg (lt_irrefl_word x), if_neg (lt_irrefl_word x), ltRest_spec hl h1 h2]
      apply decide_eq_decide.mpr; omega
    · have := unat_rev_lt hl.symm h3
      rw [if_neg (not_gt_of_lt h3), if_pos h3]; symm; rw [decide_eq_false_iff_not]; omega

theorem leRest_spec {a0 b0 : Word} : ∀ {xs ys : List Word}, xs.length = ys.length →
    LastIs a0 xs → LastIs b0 ys →
    leRest a0 b0 xs ys = decide (unat xs.reverse ≤ unat ys.reverse)
  | [], _, _, h, _ => absurd h (by simp [LastIs])
  | [x], [y], _, h1, h2 => by
    simp only [LastIs] at h1 h2; subst h1; subst h2
    simp only [leRest, BitVec.le_def, unat_singleton_rev]
  | [x], [], h, _, _ => by simp at h
  | [x], _ :: _ :: _, h, _, _ => by simp at h
  | _ :: _ :: _, [], h, _, _ => by simp at h
  | _ :: _ :: _, [_], h, _, _ => by simp at h
  | x :: x' :: xs, y :: y' :: ys, h, h1, h2 => by
    have hl : (x' :: xs).length = (y' :: ys).length := by simpa using h
    unfold leRest
    rcases word_trichotomy x y with h3 | h3 | h3
    · have := unat_rev_lt hl h3
      rw [if_pos h3]; symm; rw [decide_eq_true_eq]; omega
    · subst h3
      have := unat_rev_same (x := x) hl
      rw [if_neg (lt_irrefl_word x), if_neg (lt_irrefl_word x), leRest_spec hl h1 h2]
      apply decide_eq_decide.mpr; omega
    · have := unat_rev_lt hl.symm h3
      rw [if_neg (not_gt_of_lt h3), if_pos h3]; symm; rw [decide_eq_false_iff_not]; omega

theorem gtRest_spec {a0 b0 : Word} : ∀ {xs ys : List Word}, xs.length = ys.length →
    LastIs a0 xs → LastIs b0 ys →
    gtRest a0 b0 xs ys = decide (unat ys.reverse < unat xs.reverse)
  | [], _, _, h, _ => absurd h (by simp [LastIs])
  | [x], [y], _, h1, h2 => by
    simp only [LastIs] at h1 h2; subst h1; subst h2
    simp only [gtRest, gt_iff_lt, BitVec.lt_def, unat_singleton_rev]
  | [x], [], h, _, _ => by simp at h
  | [x], _ :: _ :: _, h, _, _ => by simp at h
  | _ :: _ :: _, [], h, _, _ => by simp at h
  | _ :: _ :: _, [_], h, _, _ => by simp at h
  | x :: x' :: xs, y :: y' :: ys, h, h1, h2 => by
    have hl : (x' :: xs).length = (y' :: ys).length := by simpa using h
    unfold gtRest
    rcases word_trichotomy x y with h3 | h3 | h3
    · have := unat_rev_lt hl h3
      rw [if_neg (not_gt_of_lt h3), if_pos h3]; symm; rw [decide_eq_false_iff_not]; omega
    · subst h3
      have := unat_rev_same (x := x) hl
      rw [if_neg (lt_irrefl_word x), if_neg (lt_irrefl_word x), gtRest_spec hl h1 h2]
      apply decide_eq_decide.mpr; omega
    · have := unat_rev_lt hl.symm h3
      rw [if_pos h3]; symm; rw [decide_eq_true_eq]; omega

theorem geRest_spec {a0 b0 : Word} : ∀ {xs ys : List Word}, xs.length = ys.length →
    LastIs a0 xs → LastIs b0 ys →
    geRest a0 b0 xs ys = decide (unat ys.reverse ≤ unat xs.reverse)
  | [], _, _, h, _ => absurd h (by simp [LastIs])
  | [x], [y], _, h1, h2 => by
    simp only [LastIs] at h1 h2; subst h1; subst h2
    simp only [geRest, ge_iff_le, BitVec.le_def, unat_singleton_rev]
  | [x], [], h, _, _ => by simp at h
  | [x], _ :: _ :: _, h, _, _ => by simp at h
  | _ :: _ :: _, [], h, _, _ => by simp at h
  | _ :: _ :: _, [_], h, _, _ => by simp at h
  | x :: x' :: xs, y :: y' :: ys, h, h1, h2 => by
    have hl : (x' :: xs).length = (y' :: ys).length := by simpa using h
    unfold geRest
    rcases word_trichotomy x y with h3 | h3 | h3
    · have := unat_rev_lt hl h3
      rw [if_neg (not_gt_of_lt h3), if_pos h3]; symm; rw [decide_eq_false_iff_not]; omega
    · subst h3
      have := unat_rev_same (x := x) hl
      rw [if_neg (lt_irrefl_word x), if_neg (lt_irrefl_word x), geRest_spec hl h1 h2]
      apply decide_eq_decide.mpr; omega
    · have := unat_rev_lt hl.symm h3
      rw [if_pos h3]; symm; rw [decide_eq_true_eq]; omega

theorem first_rev_one {x : Word} : first [x].reverse = x := rfl

theorem first_of_rev {x : Word} {xs : List Word} (h : xs ≠ []) :
    LastIs (first (x :: xs).reverse) xs := lastIs_tail lastIs_rev h

theorem lt_spec {a b : List Word} (ha : Canon a) (hb : Canon b) :
    lt a b = decide (sint a < sint b) := by
  unfold lt
  split
  · rename_i h
    obtain ⟨c1, c2⟩ := shorter_cmp ha.ne_nil hb h
    apply decide_eq_decide.mpr
    constructor
    · exact c1
    · intro hlt; by_contra hn; linarith [c2 (by omega)]
  · split
    · rename_i h
      obtain ⟨c1, c2⟩ := shorter_cmp hb.ne_nil ha h
      apply decide_eq_decide.mpr
      constructor
      · exact c2
      · intro hlt; by_contra hn; linarith [c1 (by omega)]
    · rename_i h1 h2
      obtain ⟨x, xs, hx1, hx2, hx3⟩ := rev_ne ha.ne_nil
      obtain ⟨y, ys, hy1, hy2, hy3⟩ := rev_ne hb.ne_nil
      have hl : xs.length = ys.length := by omega
      simp only [hx1, hy1]
      by_cases hxy : x = y
      · subst hxy
        rw [if_neg (by simp)]
        have hs := sint_rev_same (x := x) hl
        rw [← hx2, ← hy2] at hs
        cases xs with
        | nil =>
          cases ys with
          | cons y' ys => simp at hl
          | nil =>
            rw [hx2, hy2]
            simp only [ltRest, first_rev_one]
            apply decide_eq_decide.mpr
            simp
        | cons x' xs =>
          cases ys with
          | nil => simp at hl
          | cons y' ys =>
            have l1 := first_of_rev (x := x) (xs := x' :: xs) (by simp)
            have l2 := first_of_rev (x := x) (xs := y' :: ys) (by simp)
            rw [← hx2] at l1; rw [← hy2] at l2
            rw [ltRest_spec hl l1 l2]
            apply decide_eq_decide.mpr; omega
      · rw [if_pos hxy]
        apply decide_eq_decide.mpr
        rcases int_ne_of_ne hxy with h | h
        · have := sint_rev_lt hl h
          rw [← hx2, ← hy2] at this; omega
        · have := sint_rev_lt hl.symm h
          rw [← hx2, ← hy2] at this; omega

theorem le_spec {a b : List Word} (ha : Canon a) (hb : Canon b) :
    le a b = decide (sint a ≤ sint b) := by
  unfold le
  split
  · rename_i h
    obtain ⟨c1, c2⟩ := shorter_cmp ha.ne_nil hb h
    apply decide_eq_decide.mpr
    constructor
    · intro h; linarith [c1 h]
    · intro hlt; by_contra hn; linarith [c2 (by omega)]
  · split
    · rename_i h
      obtain ⟨c1, c2⟩ := shorter_cmp hb.ne_nil ha h
      apply decide_eq_decide.mpr
      constructor
      · intro h; linarith [c2 h]
      · intro hlt; by_contra hn; linarith [c1 (by omega)]
    · rename_i h1 h2
      obtain ⟨x, xs, hx1, hx2, hx3⟩ := rev_ne ha.ne_nil
      obtain ⟨y, ys, hy1, hy2, hy3⟩ := rev_ne hb.ne_nil
      have hl : xs.length = ys.length := by omega
      simp only [hx1, hy1]
      by_cases hxy : x = y
      · subst hxy
        rw [if_neg (by simp)]
        have hs := sint_rev_same (x := x) hl
        rw [← hx2, ← hy2] at hs
        cases xs with
        | nil =>
          cases ys with
          | cons y' ys => simp at hl
          | nil =>
            rw [hx2, hy2]
            simp only [leRest, first_rev_one]
            apply decide_eq_decide.mpr
            simp
        | cons x' xs =>
          cases ys with
          | nil => simp at hl
          | cons y' ys =>
            have l1 := first_of_rev (x := x) (xs := x' :: xs) (by simp)
            have l2 := first_of_rev (x := x) (xs := y' :: ys) (by simp)
            rw [← hx2] at l1; rw [← hy2] at l2
            rw [leRest_spec hl l1 l2]
            apply decide_eq_decide.mpr; omega
      · rw [if_pos hxy]
        apply decide_eq_decide.mpr
        rcases int_ne_of_ne hxy with h | h
        · have := sint_rev_lt hl h
          rw [← hx2, ← hy2] at this; omega
        · have := sint_rev_lt hl.symm h
          rw [← hx2, ← hy2] at this; omega

theorem gt_spec {a b : List Word} (ha : Canon a) (hb : Canon b) :
    gt a b = decide (sint b < sint a) := by
  unfold gt
  split
  · rename_i h
    obtain ⟨c1, c2⟩ := shorter_cmp ha.ne_nil hb h
    apply decide_eq_decide.mpr
    constructor
    · exact c2
    · intro hlt; by_contra hn; linarith [c1 (by omega)]
  · split
    · rename_i h
      obtain ⟨c1, c2⟩ := shorter_cmp hb.ne_nil ha h
      apply decide_eq_decide.mpr
      constructor
      · exact c1
      · intro hlt; by_contra hn; linarith [c2 (by omega)]
    · rename_i h1 h2
      obtain ⟨x, xs, hx1, hx2, hx3⟩ := rev_ne ha.ne_nil
      obtain ⟨y, ys, hy1, hy2, hy3⟩ := rev_ne hb.ne_nil
      have hl : xs.length = ys.length := by omega
      simp only [hx1, hy1]
      by_cases hxy : x = y
      · subst hxy
        rw [if_neg (by simp)]
        have hs := sint_rev_same (x := x) hl
        rw [← hx2, ← hy2] at hs
        cases xs with
        | nil =>
          cases ys with
          | cons y' ys => simp at hl
          | nil =>
            rw [hx2, hy2]
            simp only [gtRest, first_rev_one]
            apply decide_eq_decide.mpr
            simp
        | cons x' xs =>
          cases ys with
          | nil => simp at hl
          | cons y' ys =>
            have l1 := first_of_rev (x := x) (xs := x' :: xs) (by simp)
            have l2 := first_of_rev (x := x) (xs := y' :: ys) (by simp)
            rw [← hx2] at l1; rw [← hy2] at l2
            rw [gtRest_spec hl l1 l2]
            apply decide_eq_decide.mpr; omega
      · rw [if_pos hxy]
        apply decide_eq_decide.mpr
        rcases int_ne_of_ne hxy with h | h
        · have := sint_rev_lt hl h
          rw [← hx2, ← hy2] at this; omega
        · have := sint_rev_lt hl.symm h
          rw [← hx2, ← hy2] at this; omega

theorem ge_spec {a b : List Word} (ha : Canon a) (hb : Canon b) :
    ge a b = decide (sint b ≤ sint a) := by
  unfold ge
  split
  · rename_i h
    obtain ⟨c1, c2⟩ := shorter_cmp ha.ne_nil hb h
    apply decide_eq_decide.mpr
    constructor
    · intro h; linarith [c2 h]
    · intro hlt; by_contra hn; linarith [c1 (by omega)]
  · split
    · rename_i h
      obtain ⟨c1, c2⟩ := shorter_cmp hb.ne_nil ha h
      apply decide_eq_decide.mpr
      constructor
      · intro h; linarith [c1 h]
      · intro hlt; by_contra hn; linarith [c2 (by omega)]
    · rename_i h1 h2
      obtain ⟨x, xs, hx1, hx2, hx3⟩ := rev_ne ha.ne_nil
      obtain ⟨y, ys, hy1, hy2, hy3⟩ := rev_ne hb.ne_nil
      have hl : xs.length = ys.length := by omega
      simp only [hx1, hy1]
      by_cases hxy : x = y
      · subst hxy
        rw [if_neg (by simp)]
        have hs := sint_rev_same (x := x) hl
        rw [← hx2, ← hy2] at hs
        cases xs with
        | nil =>
          cases ys with
          | cons y' ys => simp at hl
          | nil =>
            rw [hx2, hy2]
            simp only [geRest, first_rev_one]
            apply decide_eq_decide.mpr
            simp
        | cons x' xs =>
          cases ys with
          | nil => simp at hl
          | cons y' ys =>
            have l1 := first_of_rev (x := x) (xs := x' :: xs) (by simp)
            have l2 := first_of_rev (x := x) (xs := y' :: ys) (by simp)
            rw [← hx2] at l1; rw [← hy2] at l2
            rw [geRest_spec hl l1 l2]
            apply decide_eq_decide.mpr; omega
      · rw [if_pos hxy]
        apply decide_eq_decide.mpr
        rcases int_ne_of_ne hxy with h | h
        · have := sint_rev_lt hl h
          rw [← hx2, ← hy2] at this; omega
        · have := sint_rev_lt hl.symm h
          rw [← hx2, ← hy2] at this; omega

/-! ### Flippable comparison -/

theorem lessThanRest_false (a0 b0 : Word) : ∀ (xs ys : List Word),
    lessThanRest 0#64 a0 b0 xs ys = ltRest a0 b0 xs ys
  | [], _ => by unfold lessThanRest ltRest; simp
  | [_], _ => by unfold lessThanRest ltRest; simp
  | _ :: _ :: _, [] => by unfold lessThanRest ltRest; simp
  | _ :: _ :: _, [_] => by unfold lessThanRest ltRest; simp
  | x :: x' :: xs, y :: y' :: ys => by
    unfold lessThanRest ltRest
    rw [lessThanRest_false]
    simp only [BitVec.xor_zero]
    rcases word_trichotomy x y with h3 | h3 | h3
    · have hne : x ≠ y := by rintro rfl; exact lt_irrefl_word _ h3
      rw [if_pos hne, if_pos h3, decide_eq_true h3]
    · subst h3
      simp
    · have hne : x ≠ y := by rintro rfl; exact lt_irrefl_word _ h3
      rw [if_pos hne, if_neg (not_gt_of_lt h3), if_pos h3,
        decide_eq_false (not_gt_of_lt h3)]

theorem xor_ones_lt (x y : Word) : x ^^^ BitVec.allOnes 64 < y ^^^ BitVec.allOnes 64 ↔ y < x := by
  rw [BitVec.xor_allOnes, BitVec.xor_allOnes, BitVec.lt_def, BitVec.lt_def, BitVec.toNat_not,
    BitVec.toNat_not]
  have := x.isLt
  have := y.isLt
  omega

theorem xor_ones_toInt (x : Word) : (x ^^^ BitVec.allOnes 64).toInt = -1 - x.toInt := by
  rw [BitVec.xor_allOnes]
  have := x.isLt
  have hn : (~~~x).toNat = 2 ^ 64 - 1 - x.toNat := by simp [BitVec.toNat_not]
  rcases Word.toInt_cases x with ⟨h1, h2⟩ | ⟨h1, h2⟩ <;>
  rcases Word.toInt_cases (~~~x) with ⟨h3, h4⟩ | ⟨h3, h4⟩ <;> omega

theorem lessThanRest_true (a0 b0 : Word) : ∀ (xs ys : List Word), xs.length = ys.length →
    lessThanRest (BitVec.allOnes 64) a0 b0 xs ys = ltRest b0 a0 ys xs
  | [], [], _ => by unfold lessThanRest ltRest; simp only [xor_ones_lt]
  | [], _ :: _, h => by simp at h
  | [_], [], h => by simp at h
  | [_], [_], _ => by unfold lessThanRest ltRest; simp only [xor_ones_lt]
  | [_], _ :: _ :: _, h => by simp at h
  | _ :: _ :: _, [], h => by simp at h
  | _ :: _ :: _, [_], h => by simp at h
  | x :: x' :: xs, y :: y' :: ys, h => by
    unfold lessThanRest ltRest
    rw [lessThanRest_true _ _ _ _ (by simpa using h)]
    simp only [xor_ones_lt]
    rcases word_trichotomy x y with h3 | h3 | h3
    · have hne : x ≠ y := by rintro rfl; exact lt_irrefl_word _ h3
      rw [if_pos hne, if_neg (not_gt_of_lt h3), if_pos h3, decide_eq_false (not_gt_of_lt h3)]
    · subst h3
      simp
    · have hne : x ≠ y := by rintro rfl; exact lt_irrefl_word _ h3
      rw [if_pos hne, if_pos h3, decide_eq_true h3]

theorem lessThan_false (a b : List Word) : lessThan false a b = lt a b := by
  unfold lessThan lt
  have e : (0#64 - BitVec.ofNat 64 false.toNat) = 0#64 := by decide
  simp only [e, BitVec.xor_zero, lessThanRest_false]

theorem lessThan_true (a b : List Word) : lessThan true a b = lt b a := by
  unfold lessThan lt
  have e : (0#64 - BitVec.ofNat 64 true.toNat) = BitVec.allOnes 64 := by decide
  simp only [e, xor_ones_toInt]
  split
  · rename_i h
    rw [if_neg (by omega)]
    apply decide_eq_decide.mpr; omega
  · split
    · apply decide_eq_decide.mpr; omega
    · rename_i h1 h2
      cases ha : a.reverse with
      | nil => cases hb : b.reverse <;> rfl
      | cons x xs =>
        cases hb : b.reverse with
        | nil => rfl
        | cons y ys =>
          have l1 := congrArg List.length ha
          have l2 := congrArg List.length hb
          simp only [List.length_reverse, List.length_cons] at l1 l2
          simp only
          by_cases hxy : x = y
          · subst hxy
            rw [if_neg (by simp), if_neg (by simp), lessThanRest_true _ _ _ _ (by omega)]
          · rw [if_pos hxy, if_pos (Ne.symm hxy)]
            apply decide_eq_decide.mpr; omega

theorem lessThan_spec (flip : Bool) {a b : List Word} (ha : Canon a) (hb : Canon b) :
    lessThan flip a b = decide (if flip then sint b < sint a else sint a < sint b) := by
  cases flip
  · rw [lessThan_false, lt_spec ha hb]; simp
  · rw [lessThan_true, lt_spec hb ha]; simp

/-! ### Equality -/

theorem eqRev_iff : ∀ {xs ys : List Word}, xs ≠ [] → (eqRev xs ys = true ↔ xs = ys)
  | [], _, h => absurd rfl h
  | [x], [], _ => by simp [eqRev]
  | [x], [y], _ => by simp [eqRev]
  | [x], _ :: _ :: _, _ => by simp [eqRev]
  | _ :: _ :: _, [], _ => by simp [eqRev]
  | _ :: _ :: _, [_], _ => by simp [eqRev]
  | x :: x' :: xs, y :: y' :: ys, _ => by
    unfold eqRev
    have ih := eqRev_iff (xs := x' :: xs) (ys := y' :: ys) (by simp)
    by_cases h : x = y
    · subst h; rw [if_neg (by simp), ih]; simp
    · rw [if_pos h]; simp [h]

theorem neRev_iff : ∀ {xs ys : List Word}, xs ≠ [] → (neRev xs ys = true ↔ xs ≠ ys)
  | [], _, h => absurd rfl h
  | [x], [], _ => by simp [neRev]
  | [x], [y], _ => by simp [neRev]
  | [x], _ :: _ :: _, _ => by simp [neRev]
  | _ :: _ :: _, [], _ => by simp [neRev]
  | _ :: _ :: _, [_], _ => by simp [neRev]
  | x :: x' :: xs, y :: y' :: ys, _ => by
    unfold neRev
    have ih := neRev_iff (xs := x' :: xs) (ys := y' :: ys) (by simp)
    by_cases h : x = y
    · subst h; rw [if_neg (by simp), ih]; simp
    · rw [if_pos h]; simp [h]

theorem eq_iff {a b : List Word} (ha : a ≠ []) : BigInt.eq a b = true ↔ a = b := by
  unfold BigInt.eq
  by_cases h : a.length = b.length
  · rw [if_neg (by simpa using h), eqRev_iff (by simpa using ha)]
    constructor
    · intro e; exact List.reverse_inj.mp e
    · rintro rfl; rfl
  · rw [if_pos h]
    constructor
    · simp
    · rintro rfl; exact absurd rfl h

theorem ne_iff {a b : List Word} (ha : a ≠ []) : BigInt.ne a b = true ↔ a ≠ b := by
  unfold BigInt.ne
  by_cases h : a.length = b.length
  · rw [if_neg (by simpa using h), neRev_iff (by simpa using ha)]
    constructor
    · rintro e rfl; exact e rfl
    · intro e e'; exact e (List.reverse_inj.mp e')
  · rw [if_pos h]
    constructor
    · rintro - rfl; exact absurd rfl h
    · simp

theorem eq_spec {a b : List Word} (ha : Canon a) (hb : Canon b) :
    BigInt.eq a b = decide (sint a = sint b) := by
  rw [Bool.eq_iff_iff, eq_iff ha.ne_nil, decide_eq_true_eq]
  exact ⟨fun h => by rw [h], fun h => ha.unique hb h⟩

theorem ne_spec {a b : List Word} (ha : Canon a) (hb : Canon b) :
    BigInt.ne a b = decide (sint a ≠ sint b) := by
  rw [Bool.eq_iff_iff, ne_iff ha.ne_nil, decide_eq_true_eq]
  exact not_congr ⟨fun h => by rw [h], fun h => ha.unique hb h⟩

/-! ### Comparison with a built-in `int` -/

theorem long_vs_int {a : List Word} (ha : Canon a) (h : a.length > 1) (v : BitVec 32) :
    (0 ≤ (top a).toInt → v.toInt < sint a) ∧ ((top a).toInt < 0 → sint a < v.toInt) := by
  have := shorter_cmp (a := ofInt32 v) (by simp [ofInt32]) ha (by simpa [ofInt32] using h)
  rwa [sint_ofInt32] at this

theorem one_word {a : List Word} (ha : a ≠ []) (h : ¬ a.length > 1) : a = [first a] := by
  cases a with
  | nil => exact absurd rfl ha
  | cons x xs =>
    cases xs with
    | nil => rfl
    | cons y ys => simp at h

theorem ltInt_spec {a : List Word} (ha : Canon a) (v : BitVec 32) :
    ltInt a v = decide (sint a < v.toInt) := by
  unfold ltInt
  split
  · rename_i h
    obtain ⟨c1, c2⟩ := long_vs_int ha h v
    apply decide_eq_decide.mpr
    exact ⟨c2, fun hl => by by_contra hn; linarith [c1 (by omega)]⟩
  · rename_i h
    conv_rhs => rw [one_word ha.ne_nil h, sint_singleton]

theorem leInt_spec {a : List Word} (ha : Canon a) (v : BitVec 32) :
    leInt a v = decide (sint a ≤ v.toInt) := by
  unfold leInt
  split
  · rename_i h
    obtain ⟨c1, c2⟩ := long_vs_int ha h v
    apply decide_eq_decide.mpr
    exact ⟨fun h => by linarith [c2 h], fun hl => by by_contra hn; linarith [c1 (by omega)]⟩
  · rename_i h
    conv_rhs => rw [one_word ha.ne_nil h, sint_singleton]

theorem gtInt_spec {a : List Word} (ha : Canon a) (v : BitVec 32) :
    gtInt a v = decide (sint a > v.toInt) := by
  unfold gtInt
  split
  · rename_i h
    obtain ⟨c1, c2⟩ := long_vs_int ha h v
    apply decide_eq_decide.mpr
    exact ⟨c1, fun hl => by by_contra hn; linarith [c2 (by omega)]⟩
  · rename_i h
    conv_rhs => rw [one_word ha.ne_nil h, sint_singleton]

theorem geInt_spec {a : List Word} (ha : Canon a) (v : BitVec 32) :
    geInt a v = decide (sint a ≥ v.toInt) := by
  unfold geInt
  split
  · rename_i h
    obtain ⟨c1, c2⟩ := long_vs_int ha h v
    apply decide_eq_decide.mpr
    exact ⟨fun h => by linarith [c1 h], fun hl => by by_contra hn; linarith [c2 (by omega)]⟩
  · rename_i h
    conv_rhs => rw [one_word ha.ne_nil h, sint_singleton]

theorem eqInt_spec {a : List Word} (ha : Canon a) (v : BitVec 32) :
    eqInt a v = decide (sint a = v.toInt) := by
  unfold eqInt
  apply decide_eq_decide.mpr
  constructor
  · rintro ⟨h1, h2⟩
    rw [one_word ha.ne_nil (by omega), sint_singleton, h2, ofInt32_toInt]
  · intro h
    have := ha.unique (bs := ofInt32 v) (canon_singleton _) (by rw [h, sint_ofInt32])
    rw [this]; exact ⟨rfl, rfl⟩

theorem neInt_spec {a : List Word} (ha : Canon a) (v : BitVec 32) :
    neInt a v = decide (sint a ≠ v.toInt) := by
  unfold neInt
  rw [eqInt_spec ha]; simp

end Walnut
