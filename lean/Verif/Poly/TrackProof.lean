/-
Proofs about the bounding box tracker.
-/
import Verif.Poly.Track
import Verif.Poly.SplitProof
import Verif.Poly.EqualProof
import Verif.Props.Rational
import Verif.Props.Boxes

namespace Walnut.Poly
open Walnut.Geom Walnut.Props

variable {D : Type}

/-! ### The searches of the constructor -/

theorem search_spec (le : Nat → Nat → Prop) (lt : Nat → Nat → Bool) (N : Nat) (refl : ∀ a, le a a)
    (trans : ∀ a b c, le a b → le b c → le a c) (h1 : ∀ a b, a < N → b < N → lt a b = true → le a b)
    (h2 : ∀ a b, a < N → b < N → lt a b = false → le b a) (hN : 0 < N) :
    let r := (List.range' 1 (N - 1)).foldl (fun old pos => if lt pos old then pos else old) 0
    r < N ∧ ∀ j, j < N → le r j := by
  have key : ∀ (m s old : Nat), old < s → s + m ≤ N → (∀ j, j < s → le old j) →
      let r := (List.range' s m).foldl (fun old pos => if lt pos old then pos else old) old
      r < s + m ∧ ∀ j, j < s + m → le r j := by
    intro m
    induction m with
    | zero => intro s old a _ b; exact ⟨a, b⟩
    | succ m ih =>
      intro s old a1 a2 a3
      rw [List.range'_succ, List.foldl_cons, show s + (m + 1) = s + 1 + m by omega]
      apply ih (s + 1) _ (by split <;> omega) (by omega)
      intro j hj
      cases hlt : lt s old
      · simp only [Bool.false_eq_true, if_false]
        by_cases e : j = s
        · subst e; exact h2 _ _ (by omega) (by omega) hlt
        · exact a3 j (by omega)
      · simp only [if_true]
        by_cases e : j = s
        · subst e; exact refl _
        · exact trans _ _ _ (h1 _ _ (by omega) (by omega) hlt) (a3 j (by omega))
  have := key (N - 1) 1 0 (by omega) (by omega) (fun j hj => by rw [show j = 0 by omega]; exact refl 0)
  rwa [show 1 + (N - 1) = N by omega] at this

theorem minSearch_spec (P : Polygon D) (hn : 0 < P.count) (hf : ∀ i, i < P.count → (P.vertexD i).w ≠ 0) (c : Fin 3) :
    minSearch P c < P.count ∧ ∀ j, j < P.count → P.pt (minSearch P c) c ≤ P.pt j c := by
  have := search_spec (fun a b => P.pt a c ≤ P.pt b c) (fun a b => decide ((P.vertexD a).compareComponent c (P.vertexD b) < 0)) P.count
    (fun a => le_rfl) (fun a b c' => le_trans)
    (fun a b ha hb h => by
      have h' := (C16_compare_component _ _ c (hf a ha) (hf b hb)).1.1 (by simpa using h)
      exact h'.le)
    (fun a b ha hb h => by
      have h' : ¬ (P.vertexD a).pt c < (P.vertexD b).pt c := fun h' =>
        by simp only [decide_eq_false_iff_not] at h; exact h ((C16_compare_component _ _ c (hf a ha) (hf b hb)).1.2 h')
      exact not_lt.1 h') hn
  simpa only [minSearch, decide_eq_true_eq] using this

theorem maxSearch_spec (P : Polygon D) (hn : 0 < P.count) (hf : ∀ i, i < P.count → (P.vertexD i).w ≠ 0) (c : Fin 3) :
    maxSearch P c < P.count ∧ ∀ j, j < P.count → P.pt j c ≤ P.pt (maxSearch P c) c := by
  have := search_spec (fun a b => P.pt b c ≤ P.pt a c) (fun a b => decide ((P.vertexD a).compareComponent c (P.vertexD b) > 0)) P.count
    (fun a => le_rfl) (fun a b c' h1 h2 => le_trans h2 h1)
    (fun a b ha hb h => by
      have h' := (C16_compare_component _ _ c (hf a ha) (hf b hb)).2.2.1.1 (by simpa using h)
      exact h'.le)
    (fun a b ha hb h => by
      have h' : ¬ (P.vertexD b).pt c < (P.vertexD a).pt c := fun h' =>
        by simp only [decide_eq_false_iff_not] at h; exact h ((C16_compare_component _ _ c (hf a ha) (hf b hb)).2.2.1.2 h')
      exact not_lt.1 h') hn
  simpa only [maxSearch, decide_eq_true_eq] using this

/-! ### Rounding -/

theorem roundDown_bad {num o n : Int} (h : num * n = -2 ^ 63 ∧ o = -1) : Rational.roundDown num o n = none := by
  unfold Rational.roundDown divRem?
  rw [if_pos (by tauto)]; rfl

theorem roundUp_bad {num o n : Int} (h : num * n = -2 ^ 63 ∧ o = -1) : Rational.roundUp num o n = none := by
  unfold Rational.roundUp divRem?
  rw [if_pos (by tauto)]; rfl

theorem lowAt_spec (P : Polygon D) {i : Nat} {c : Fin 3} {den : Int} (hw : (P.vertexD i).w ≠ 0) (hd : 0 < den) :
    (∀ n, lowAt P i c den = some n → n = ⌊P.pt i c * den⌋) ∧ ((P.vertexD i).w ≠ -1 → ∃ n, lowAt P i c den = some n) := by
  have hdq : (0 : ℚ) < den := by exact_mod_cast hd
  constructor
  · intro n hn
    have hm : ¬ ((P.vertexD i).v.comp c * den = -2 ^ 63 ∧ (P.vertexD i).w = -1) := by
      intro h
      unfold lowAt at hn
      rw [roundDown_bad h] at hn; simp at hn
    obtain ⟨n', e, h1, h2⟩ := C17_round_down_partial hw hd.ne' hm
    unfold lowAt at hn
    rw [e] at hn
    obtain rfl := Option.some.inj hn
    symm
    have hx : P.pt i c = ((P.vertexD i).v.comp c : ℚ) / (P.vertexD i).w := rfl
    rw [← hx] at h1 h2
    rw [Int.floor_eq_iff]
    refine ⟨by rwa [div_le_iff₀ hdq] at h1, ?_⟩
    by_contra hc
    push Not at hc
    have := h2 (n' + 1) (by rw [div_le_iff₀ hdq]; push_cast; exact hc)
    rw [div_le_div_iff_of_pos_right hdq] at this
    push_cast at this
    linarith
  · intro h
    obtain ⟨n', e, _⟩ := C17_round_down_partial (num := (P.vertexD i).v.comp c) hw hd.ne' (fun h' => h h'.2)
    exact ⟨n', e⟩

theorem highAt_spec (P : Polygon D) {i : Nat} {c : Fin 3} {den : Int} (hw : (P.vertexD i).w ≠ 0) (hd : 0 < den) :
    (∀ n, highAt P i c den = some n → n = ⌈P.pt i c * den⌉) ∧ ((P.vertexD i).w ≠ -1 → ∃ n, highAt P i c den = some n) := by
  have hdq : (0 : ℚ) < den := by exact_mod_cast hd
  constructor
  · intro n hn
    have hm : ¬ ((P.vertexD i).v.comp c * den = -2 ^ 63 ∧ (P.vertexD i).w = -1) := by
      intro h
      unfold highAt at hn
      rw [roundUp_bad h] at hn; simp at hn
    obtain ⟨n', e, h1, h2⟩ := C17_round_up_partial hw hd.ne' hm
    unfold highAt at hn
    rw [e] at hn
    obtain rfl := Option.some.inj hn
    symm
    have hx : P.pt i c = ((P.vertexD i).v.comp c : ℚ) / (P.vertexD i).w := rfl
    rw [← hx] at h1 h2
    rw [Int.ceil_eq_iff]
    refine ⟨?_, by rwa [le_div_iff₀ hdq] at h1⟩
    by_contra hc
    push Not at hc
    have := h2 (n' - 1) (by rw [le_div_iff₀ hdq]; push_cast; exact hc)
    rw [div_le_div_iff_of_pos_right hdq] at this
    push_cast at this
    linarith
  · intro h
    obtain ⟨n', e, _⟩ := C17_round_up_partial (num := (P.vertexD i).v.comp c) hw hd.ne' (fun h' => h h'.2)
    exact ⟨n', e⟩

/-! ### The box -/

/-- What the tracker promises: the indices are those of extreme vertices and the box
is the smallest one around them whose bounds are multiples of `1 / den`, where `den` is
the largest magnitude among the denominators of the extreme vertices. -/
structure TrackerOK (P : Polygon D) (T : Tracker) : Prop where
  loLt : ∀ c, T.lo c < P.count
  hiLt : ∀ c, T.hi c < P.count
  loMin : ∀ c j, j < P.count → P.pt (T.lo c) c ≤ P.pt j c
  hiMax : ∀ c j, j < P.count → P.pt j c ≤ P.pt (T.hi c) c
  denLe : ∀ c, |(P.vertexD (T.lo c)).w| ≤ T.box.den ∧ |(P.vertexD (T.hi c)).w| ≤ T.box.den
  denEq : ∃ c, T.box.den = |(P.vertexD (T.lo c)).w| ∨ T.box.den = |(P.vertexD (T.hi c)).w|
  low : ∀ c, T.box.lo.comp c = ⌊P.pt (T.lo c) c * T.box.den⌋
  high : ∀ c, T.box.hi.comp c = ⌈P.pt (T.hi c) c * T.box.den⌉

theorem maxDenominator_spec (P : Polygon D) (lo hi : Fin 3 → Nat) :
    (∀ c, |(P.vertexD (lo c)).w| ≤ maxDenominator P lo hi ∧ |(P.vertexD (hi c)).w| ≤ maxDenominator P lo hi) ∧
    ∃ c, maxDenominator P lo hi = |(P.vertexD (lo c)).w| ∨ maxDenominator P lo hi = |(P.vertexD (hi c)).w| := by
  unfold maxDenominator
  simp only
  have e0 : ∃ c, |(P.vertexD (lo 0)).w| = |(P.vertexD (lo c)).w| ∨ |(P.vertexD (lo 0)).w| = |(P.vertexD (hi c)).w| := ⟨0, Or.inl rfl⟩
  have e1 : ∃ c, |(P.vertexD (lo 1)).w| = |(P.vertexD (lo c)).w| ∨ |(P.vertexD (lo 1)).w| = |(P.vertexD (hi c)).w| := ⟨1, Or.inl rfl⟩
  have e2 : ∃ c, |(P.vertexD (lo 2)).w| = |(P.vertexD (lo c)).w| ∨ |(P.vertexD (lo 2)).w| = |(P.vertexD (hi c)).w| := ⟨2, Or.inl rfl⟩
  have e3 : ∃ c, |(P.vertexD (hi 0)).w| = |(P.vertexD (lo c)).w| ∨ |(P.vertexD (hi 0)).w| = |(P.vertexD (hi c)).w| := ⟨0, Or.inr rfl⟩
  have e4 : ∃ c, |(P.vertexD (hi 1)).w| = |(P.vertexD (lo c)).w| ∨ |(P.vertexD (hi 1)).w| = |(P.vertexD (hi c)).w| := ⟨1, Or.inr rfl⟩
  have e5 : ∃ c, |(P.vertexD (hi 2)).w| = |(P.vertexD (lo c)).w| ∨ |(P.vertexD (hi 2)).w| = |(P.vertexD (hi c)).w| := ⟨2, Or.inr rfl⟩
  have mx : ∀ {a b : Int}, (∃ c, a = |(P.vertexD (lo c)).w| ∨ a = |(P.vertexD (hi c)).w|) →
      (∃ c, b = |(P.vertexD (lo c)).w| ∨ b = |(P.vertexD (hi c)).w|) →
      (∃ c, max a b = |(P.vertexD (lo c)).w| ∨ max a b = |(P.vertexD (hi c)).w|) := by
    intro a b ha hb
    rcases max_choice a b with h | h <;> rw [h] <;> assumption
  refine ⟨fun c => ?_, mx (mx (mx (mx (mx e0 e1) e2) e3) e4) e5⟩
  clear e0 e1 e2 e3 e4 e5 mx
  rcases fin3 c with rfl | rfl | rfl <;> simp only [le_max_iff, le_refl, or_true, true_or, and_self]

theorem maxDenominator_pos (P : Polygon D) {lo hi : Fin 3 → Nat} (h : (P.vertexD (lo 0)).w ≠ 0) : 0 < maxDenominator P lo hi :=
  lt_of_lt_of_le (abs_pos.2 h) ((maxDenominator_spec P lo hi).1 0).1

theorem makeBox_spec {a b c d e f : Option Int} {den : Int} (hd : 0 < den) {B : AABB} (h : makeBox a b c d e f den = some B) :
    B.den = den ∧ a = some (B.lo.comp 0) ∧ b = some (B.lo.comp 1) ∧ c = some (B.lo.comp 2) ∧
      d = some (B.hi.comp 0) ∧ e = some (B.hi.comp 1) ∧ f = some (B.hi.comp 2) := by
  unfold makeBox at h
  split at h
  · obtain rfl := Option.some.inj h
    unfold AABB.make
    rw [if_neg (by omega)]
    exact ⟨rfl, rfl, rfl, rfl, rfl, rfl, rfl⟩
  · simp at h

theorem makeBox_defined {a b c d e f : Option Int} {den : Int} (ha : ∃ x, a = some x) (hb : ∃ x, b = some x) (hc : ∃ x, c = some x)
    (hd : ∃ x, d = some x) (he : ∃ x, e = some x) (hf : ∃ x, f = some x) : ∃ B, makeBox a b c d e f den = some B := by
  obtain ⟨a, rfl⟩ := ha
  obtain ⟨b, rfl⟩ := hb
  obtain ⟨c, rfl⟩ := hc
  obtain ⟨d, rfl⟩ := hd
  obtain ⟨e, rfl⟩ := he
  obtain ⟨f, rfl⟩ := hf
  exact ⟨_, rfl⟩

theorem approximateExtremes_spec (P : Polygon D) {lo hi : Fin 3 → Nat} {den : Int} (hd : 0 < den)
    (h1 : ∀ c, (P.vertexD (lo c)).w ≠ 0) (h2 : ∀ c, (P.vertexD (hi c)).w ≠ 0) :
    (∀ B, approximateExtremes P lo hi den = some B → B.den = den ∧
      (∀ c, B.lo.comp c = ⌊P.pt (lo c) c * den⌋) ∧ ∀ c, B.hi.comp c = ⌈P.pt (hi c) c * den⌉) ∧
    ((∀ c, (P.vertexD (lo c)).w ≠ -1 ∧ (P.vertexD (hi c)).w ≠ -1) → ∃ B, approximateExtremes P lo hi den = some B) := by
  constructor
  · intro B hB
    obtain ⟨e0, e1, e2, e3, e4, e5, e6⟩ := makeBox_spec hd hB
    refine ⟨e0, fun c => ?_, fun c => ?_⟩
    · rcases fin3 c with rfl | rfl | rfl
      · exact (lowAt_spec P (h1 0) hd).1 _ e1
      · exact (lowAt_spec P (h1 1) hd).1 _ e2
      · exact (lowAt_spec P (h1 2) hd).1 _ e3
    · rcases fin3 c with rfl | rfl | rfl
      · exact (highAt_spec P (h2 0) hd).1 _ e4
      · exact (highAt_spec P (h2 1) hd).1 _ e5
      · exact (highAt_spec P (h2 2) hd).1 _ e6
  · intro h
    exact makeBox_defined ((lowAt_spec P (h1 _) hd).2 (h _).1) ((lowAt_spec P (h1 _) hd).2 (h _).1)
      ((lowAt_spec P (h1 _) hd).2 (h _).1) ((highAt_spec P (h2 _) hd).2 (h _).2) ((highAt_spec P (h2 _) hd).2 (h _).2)
      ((highAt_spec P (h2 _) hd).2 (h _).2)

theorem updateExtremes_spec {P₀ : Polygon D} {T : Tracker} (hT : TrackerOK P₀ T) (P : Polygon D) {lo hi : Fin 3 → Nat}
    {loMod hiMod : Fin 3 → Bool} (h1 : ∀ c, (P.vertexD (lo c)).w ≠ 0) (h2 : ∀ c, (P.vertexD (hi c)).w ≠ 0)
    (m1 : ∀ c, loMod c = false → P.pt (lo c) c = P₀.pt (T.lo c) c) (m2 : ∀ c, hiMod c = false → P.pt (hi c) c = P₀.pt (T.hi c) c) :
    (∀ B, updateExtremes T.box P lo hi loMod hiMod = some B → B.den = maxDenominator P lo hi ∧
      (∀ c, B.lo.comp c = ⌊P.pt (lo c) c * B.den⌋) ∧ ∀ c, B.hi.comp c = ⌈P.pt (hi c) c * B.den⌉) ∧
    ((∀ c, (P.vertexD (lo c)).w ≠ -1 ∧ (P.vertexD (hi c)).w ≠ -1) → ∃ B, updateExtremes T.box P lo hi loMod hiMod = some B) := by
  have hd : 0 < maxDenominator P lo hi := maxDenominator_pos P (h1 0)
  unfold updateExtremes
  simp only
  by_cases he : maxDenominator P lo hi ≠ T.box.den
  · rw [if_pos he]
    obtain ⟨a, b⟩ := approximateExtremes_spec P hd h1 h2
    refine ⟨fun B hB => ?_, b⟩
    obtain ⟨x, y, z⟩ := a B hB
    rw [x]; exact ⟨rfl, y, z⟩
  · rw [if_neg he]
    push Not at he
    have lowOk : ∀ c n, updateBound (loMod c) (lowAt P (lo c) c (maxDenominator P lo hi)) (T.box.lo.comp c) = some n →
        n = ⌊P.pt (lo c) c * maxDenominator P lo hi⌋ := by
      intro c n hn
      unfold updateBound at hn
      cases hm : loMod c
      · rw [hm] at hn
        simp only [Bool.false_eq_true, if_false] at hn
        rw [← Option.some.inj hn, hT.low c, m1 c hm, he]
      · rw [hm] at hn
        exact (lowAt_spec P (h1 c) hd).1 _ hn
    have highOk : ∀ c n, updateBound (hiMod c) (highAt P (hi c) c (maxDenominator P lo hi)) (T.box.hi.comp c) = some n →
        n = ⌈P.pt (hi c) c * maxDenominator P lo hi⌉ := by
      intro c n hn
      unfold updateBound at hn
      cases hm : hiMod c
      · rw [hm] at hn
        simp only [Bool.false_eq_true, if_false] at hn
        rw [← Option.some.inj hn, hT.high c, m2 c hm, he]
      · rw [hm] at hn
        exact (highAt_spec P (h2 c) hd).1 _ hn
    have updDef : ∀ (b : Bool) (x : Option Int) (y : Int), (∃ n, x = some n) → ∃ n, updateBound b x y = some n := by
      rintro b x y ⟨n, rfl⟩
      cases b
      · exact ⟨y, rfl⟩
      · exact ⟨n, rfl⟩
    constructor
    · intro B hB
      obtain ⟨e0, e1, e2, e3, e4, e5, e6⟩ := makeBox_spec hd hB
      rw [e0]
      refine ⟨rfl, fun c => ?_, fun c => ?_⟩
      · rcases fin3 c with rfl | rfl | rfl
        · exact lowOk _ _ e1
        · exact lowOk _ _ e2
        · exact lowOk _ _ e3
      · rcases fin3 c with rfl | rfl | rfl
        · exact highOk _ _ e4
        · exact highOk _ _ e5
        · exact highOk _ _ e6
    · intro h
      exact makeBox_defined (updDef _ _ _ ((lowAt_spec P (h1 _) hd).2 (h _).1)) (updDef _ _ _ ((lowAt_spec P (h1 _) hd).2 (h _).1))
        (updDef _ _ _ ((lowAt_spec P (h1 _) hd).2 (h _).1)) (updDef _ _ _ ((highAt_spec P (h2 _) hd).2 (h _).2))
        (updDef _ _ _ ((highAt_spec P (h2 _) hd).2 (h _).2)) (updDef _ _ _ ((highAt_spec P (h2 _) hd).2 (h _).2))

/-! ### The extremes of the children -/

theorem hull_le {n : Nat} {v : Nat → Q3} {c : Fin 3} {σ M : ℚ} (h : ∀ i, i < n → σ * v i c ≤ M) {x : Q3}
    (hx : x ∈ convexHull ℚ {q | ∃ i, i < n ∧ q = v i}) : σ * x c ≤ M := by
  have hc : Convex ℚ {q : Q3 | σ * q c ≤ M} := by
    intro p hp q hq a b ha hb hab
    simp only [Set.mem_ofPred_eq, Pi.add_apply, Pi.smul_apply, smul_eq_mul] at *
    have h1 := mul_le_mul_of_nonneg_left hp ha
    have h2 := mul_le_mul_of_nonneg_left hq hb
    have : a * M + b * M = M := by rw [← add_mul, hab, one_mul]
    linarith
  refine convexHull_min ?_ hc hx
  rintro q ⟨i, hi, rfl⟩
  exact h i hi

theorem exists_slope {n : Nat} (f g : Nat → ℚ) (M : ℚ) (h : ∀ i, i < n → g i = 0 → f i ≤ M) (hg : ∀ i, i < n → 0 ≤ g i) :
    ∃ l, 0 ≤ l ∧ ∀ i, i < n → f i - l * g i ≤ M := by
  induction n with
  | zero => exact ⟨0, le_rfl, fun i hi => by omega⟩
  | succ n ih =>
    obtain ⟨l, h0, hl⟩ := ih (fun i hi => h i (by omega)) (fun i hi => hg i (by omega))
    rcases (hg n (by omega)).eq_or_lt with e | e
    · refine ⟨l, h0, fun i hi => ?_⟩
      rcases Nat.lt_or_ge i n with h' | h'
      · exact hl i h'
      · rw [show i = n by omega, ← e]; linarith [h n (by omega) e.symm]
    · refine ⟨max l ((f n - M) / g n), le_max_of_le_left h0, fun i hi => ?_⟩
      rcases Nat.lt_or_ge i n with h' | h'
      · have := mul_le_mul_of_nonneg_right (le_max_left l ((f n - M) / g n)) (hg i hi)
        linarith [hl i h']
      · rw [show i = n by omega]
        have := mul_le_mul_of_nonneg_right (le_max_right l ((f n - M) / g n)) e.le
        rw [div_mul_cancel₀ _ e.ne'] at this
        linarith

/-- On the face of a hull where `g` vanishes, a coordinate is bounded by its values at
the generators on that face. -/
theorem face_le {n : Nat} {v : Nat → Q3} {c : Fin 3} {σ M : ℚ} (g : HS3) (s : ℚ) (hg : ∀ i, i < n → 0 ≤ s * g.side (v i))
    (h : ∀ i, i < n → s * g.side (v i) = 0 → σ * v i c ≤ M) {x : Q3}
    (hx : x ∈ convexHull ℚ {q | ∃ i, i < n ∧ q = v i}) (hx0 : g.side x = 0) : σ * x c ≤ M := by
  obtain ⟨l, _, hl⟩ := exists_slope (fun i => σ * v i c) (fun i => s * g.side (v i)) M h hg
  have hc : Convex ℚ {q : Q3 | σ * q c - l * (s * g.side q) ≤ M} := by
    intro p hp q hq a b ha hb hab
    simp only [Set.mem_ofPred_eq, Pi.add_apply, Pi.smul_apply, smul_eq_mul, HS3.side_eq] at *
    have h1 := mul_le_mul_of_nonneg_left hp ha
    have h2 := mul_le_mul_of_nonneg_left hq hb
    obtain rfl : b = 1 - a := by linarith
    nlinarith
  have := convexHull_min (s := {q | ∃ i, i < n ∧ q = v i}) (by rintro q ⟨i, hi, rfl⟩; exact hl i hi) hc hx
  simp only [Set.mem_ofPred_eq, hx0] at this
  linarith

/-- If a point `e` strictly on the other side of the plane is at least as far as every vertex,
the coordinate's maximum over the vertices is attained on the plane. -/
theorem cut_le {n : Nat} {v : Nat → Q3} {R : Set Q3} (hR : Convex ℚ R) {c : Fin 3} {σ M : ℚ} (g : HS3) (s : ℚ)
    (hreg : convexHull ℚ {q | ∃ i, i < n ∧ q = v i} = R ∩ {q | 0 ≤ s * g.side q})
    (h : ∀ i, i < n → s * g.side (v i) = 0 → σ * v i c ≤ M)
    {e : Q3} (he : e ∈ R) (hes : s * g.side e < 0) (hext : ∀ i, i < n → σ * v i c ≤ σ * e c) {i : Nat} (hi : i < n) :
    σ * v i c ≤ M := by
  have hv : ∀ i, i < n → v i ∈ R ∩ {q | 0 ≤ s * g.side q} := by
    intro i hi
    rw [← hreg]; exact subset_convexHull _ _ ⟨i, hi, rfl⟩
  obtain ⟨v1, v2⟩ := hv i hi
  simp only [Set.mem_ofPred_eq] at v2
  by_contra hc
  push Not at hc
  obtain ⟨y, hy⟩ : ∃ y, y = s * g.side (v i) := ⟨_, rfl⟩
  obtain ⟨z, hz⟩ : ∃ z, z = s * g.side e := ⟨_, rfl⟩
  rw [← hy] at v2
  rw [← hz] at hes
  have hd : 0 < y - z := by linarith
  obtain ⟨t, ht⟩ : ∃ t, t = y / (y - z) := ⟨_, rfl⟩
  have t0 : 0 ≤ t := by rw [ht]; positivity
  have t1 : 0 ≤ 1 - t := by
    rw [ht, sub_nonneg, div_le_one hd]; linarith
  have hx : t • e + (1 - t) • v i ∈ R := hR he v1 t0 t1 (by ring)
  have hlin : s * g.side (t • e + (1 - t) • v i) = t * z + (1 - t) * y := by
    rw [hy, hz]
    simp only [HS3.side_eq, Pi.add_apply, Pi.smul_apply, smul_eq_mul]
    ring
  have hx0 : s * g.side (t • e + (1 - t) • v i) = 0 := by
    rw [hlin, ht]; field_simp; ring
  have hs : s ≠ 0 := by rintro rfl; rw [hz] at hes; simp at hes
  have hx0' : g.side (t • e + (1 - t) • v i) = 0 := (mul_eq_zero.1 hx0).resolve_left hs
  have hxh : t • e + (1 - t) • v i ∈ convexHull ℚ {q | ∃ i, i < n ∧ q = v i} := by
    rw [hreg]; exact ⟨hx, by simp only [Set.mem_ofPred_eq]; rw [hx0]⟩
  have hb := face_le (σ := σ) (c := c) (M := M) g s (fun i hi => (hv i hi).2) h hxh hx0'
  simp only [Pi.add_apply, Pi.smul_apply, smul_eq_mul] at hb
  have h1 := mul_le_mul_of_nonneg_left (hext i hi) t0
  nlinarith

end Walnut.Poly
