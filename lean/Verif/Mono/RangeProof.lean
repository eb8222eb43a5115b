/-
What `MonotoneRange::Build` returns, by the indices of the vertices.
-/
import Verif.Mono.Range
import Verif.Props.Rational

namespace Walnut.Mono
open Walnut.Geom

/-! ### loops -/

theorem runWhile_some {p : HP3 → HP3 → Bool} : ∀ {L : List HP3} {prev : HP3} {c : Nat}, runWhile p prev L = some c →
    (∀ i < c, ∃ a b, (prev :: L)[i]? = some a ∧ L[i]? = some b ∧ p a b = true) ∧
    ∃ a b, (prev :: L)[c]? = some a ∧ L[c]? = some b ∧ p a b = false := by
  intro L
  induction L with
  | nil => intro prev c h; simp [runWhile] at h
  | cons x r ih =>
    intro prev c h
    simp only [runWhile] at h
    split at h
    · rename_i hp
      cases hr : runWhile p x r with
      | none => simp [hr] at h
      | some c' =>
        simp [hr] at h; subst h
        obtain ⟨h1, a, b, h2, h3, h4⟩ := ih hr
        refine ⟨?_, a, b, by simpa using h2, by simpa using h3, h4⟩
        intro i hi
        cases i with
        | zero => exact ⟨prev, x, rfl, rfl, hp⟩
        | succ i =>
          obtain ⟨a, b, h5, h6, h7⟩ := h1 i (by omega)
          exact ⟨a, b, by simpa using h5, by simpa using h6, h7⟩
    · rename_i hp
      simp at h; subst h
      exact ⟨by simp, prev, x, rfl, rfl, by simpa using hp⟩

theorem runWhile_none {p : HP3 → HP3 → Bool} : ∀ {L : List HP3} {prev : HP3}, runWhile p prev L = none →
    ∀ i < L.length, ∃ a b, (prev :: L)[i]? = some a ∧ L[i]? = some b ∧ p a b = true := by
  intro L
  induction L with
  | nil => intro prev h; simp
  | cons x r ih =>
    intro prev h
    simp only [runWhile] at h
    split at h
    · rename_i hp
      simp at h
      intro i hi
      cases i with
      | zero => exact ⟨prev, x, rfl, rfl, hp⟩
      | succ i =>
        obtain ⟨a, b, h5, h6, h7⟩ := ih h i (by simpa using hi)
        exact ⟨a, b, by simpa using h5, by simpa using h6, h7⟩
    · simp at h

/-- A loop stops no later than at a vertex that ends every run. -/
theorem runWhile_bound {p : HP3 → HP3 → Bool} {L : List HP3} {prev : HP3} {j : Nat} (hj : j < L.length)
    (hstop : ¬ ∀ i ≤ j, ∃ a b, (prev :: L)[i]? = some a ∧ L[i]? = some b ∧ p a b = true) :
    ∃ c, runWhile p prev L = some c ∧ c ≤ j ∧
      (∀ i < c, ∃ a b, (prev :: L)[i]? = some a ∧ L[i]? = some b ∧ p a b = true) ∧
      ∃ a b, (prev :: L)[c]? = some a ∧ L[c]? = some b ∧ p a b = false := by
  cases h : runWhile p prev L with
  | none => exact absurd (fun i hi => runWhile_none h i (by omega)) hstop
  | some c =>
    obtain ⟨h1, h2⟩ := runWhile_some h
    refine ⟨c, rfl, ?_, h1, h2⟩
    by_contra hc
    exact hstop fun i hi => h1 i (by omega)

/-! ### keys -/

/-- The monotone component of a vertex, negated if the direction is negative. -/
def key (mono : Fin 3) (dir : Int) (v : HP3) : ℚ := dir * v.pt mono

/-- The key of the vertex at an index. -/
def K (vs : List HP3) (mono : Fin 3) (dir : Int) (i : Nat) : ℚ := ((vs[i]?).map (key mono dir)).getD 0

theorem K_eq {vs : List HP3} {mono : Fin 3} {dir : Int} {i : Nat} {v : HP3} (h : vs[i]? = some v) :
    K vs mono dir i = key mono dir v := by simp [K, h]

theorem cmp_key {mono : Fin 3} {dir : Int} (hd : dir = 1 ∨ dir = -1) {a b : HP3} (ha : a.w ≠ 0) (hb : b.w ≠ 0) :
    (0 ≤ a.compareComponent mono b * dir ↔ key mono dir b ≤ key mono dir a) ∧
    (0 < a.compareComponent mono b * dir ↔ key mono dir b < key mono dir a) ∧
    (0 ≤ a.compareComponent mono b * -dir ↔ key mono dir a ≤ key mono dir b) ∧
    (0 < a.compareComponent mono b * -dir ↔ key mono dir a < key mono dir b) ∧
    (a.isEquivalentComponent mono b = true ↔ key mono dir a = key mono dir b) := by
  obtain ⟨h1, h2, h3, _, h5⟩ := Props.C16_compare_component a b mono ha hb
  generalize a.compareComponent mono b = c at *
  have e1 : 0 ≤ c ↔ b.pt mono ≤ a.pt mono := by rw [← not_lt, h1, not_lt]
  have e2 : c ≤ 0 ↔ a.pt mono ≤ b.pt mono := by rw [← not_lt, h3, not_lt]
  rcases hd with rfl | rfl
  · simp only [key, mul_one, Int.cast_one, one_mul, mul_neg, Left.nonneg_neg_iff, Left.neg_pos_iff]
    exact ⟨e1, h3, e2, h1, h5⟩
  · simp only [key, mul_one, Int.cast_one, Int.cast_neg, one_mul, mul_neg, Left.nonneg_neg_iff, Left.neg_pos_iff,
      neg_mul, neg_le_neg_iff, neg_lt_neg_iff, neg_inj, neg_neg]
    exact ⟨e2, h1, e1, h3, h5⟩

section
variable {vs : List HP3} {mono : Fin 3} {dir : Int}

theorem rev_get {e i : Nat} (he : e < vs.length) (hi : i ≤ e) : (vs.take (e + 1)).reverse[i]? = vs[e - i]? := by
  rw [List.getElem?_reverse (by simp; omega)]
  rw [List.getElem?_take]
  have : (vs.take (e + 1)).length = e + 1 := by simp; omega
  rw [this, if_pos (by omega)]
  congr 1

theorem rev_cons_get {e i : Nat} {next : HP3} (he : vs[e + 1]? = some next) (hi : i ≤ e) :
    (next :: (vs.take (e + 1)).reverse)[i]? = vs[e + 1 - i]? := by
  have hl : e + 1 < vs.length := by
    by_contra hc; rw [List.getElem?_eq_none (by omega)] at he; simp at he
  cases i with
  | zero => simp [he]
  | succ i =>
    rw [List.getElem?_cons_succ, rev_get (by omega) (by omega)]
    congr 1; omega

theorem drop_cons_get {b i : Nat} {prev : HP3} (hb : vs[b]? = some prev) :
    (prev :: vs.drop (b + 1))[i]? = vs[b + i]? := by
  cases i with
  | zero => simp [hb]
  | succ i => rw [List.getElem?_cons_succ, List.getElem?_drop]; congr 1; omega

variable (hw : ∀ v ∈ vs, v.w ≠ 0) (hd : dir = 1 ∨ dir = -1)
include hw hd

theorem follow_reverse {e j : Nat} {next : HP3} (he : vs[e + 1]? = some next) (hj : j ≤ e)
    (hK : K vs mono dir (e + 1) < K vs mono dir j) :
    ∃ e2, followDirReverse vs mono dir next e = some e2 ∧ j < e2 ∧ e2 ≤ e + 1 ∧
      (∀ i, e2 ≤ i → i ≤ e → K vs mono dir i ≤ K vs mono dir (i + 1)) ∧
      K vs mono dir e2 < K vs mono dir (e2 - 1) := by
  have hl : e + 1 < vs.length := by
    by_contra hc; rw [List.getElem?_eq_none (by omega)] at he; simp at he
  have hlen : (vs.take (e + 1)).reverse.length = e + 1 := by simp; omega
  have step : ∀ i ≤ e, (∃ a b, (next :: (vs.take (e + 1)).reverse)[i]? = some a ∧
      (vs.take (e + 1)).reverse[i]? = some b ∧ decide (0 ≤ a.compareComponent mono b * dir) = true) ↔
      K vs mono dir (e - i) ≤ K vs mono dir (e + 1 - i) := by
    intro i hi
    rw [rev_cons_get he hi, rev_get (by omega) hi]
    have h1 : vs[e - i]? = some vs[e - i] := List.getElem?_eq_getElem _
    have h2 : vs[e + 1 - i]? = some vs[e + 1 - i] := List.getElem?_eq_getElem _
    rw [K_eq h1, K_eq h2]
    have := (cmp_key (mono := mono) hd (hw _ (List.getElem_mem (h := (by omega : e + 1 - i < vs.length))))
      (hw _ (List.getElem_mem (h := (by omega : e - i < vs.length))))).1
    constructor
    · rintro ⟨a, b, ha, hb, hp⟩
      rw [h2] at ha; rw [h1] at hb
      simp only [Option.some.injEq] at ha hb
      subst ha hb
      exact this.1 (of_decide_eq_true hp)
    · intro h
      exact ⟨_, _, h2, h1, decide_eq_true (this.2 h)⟩
  obtain ⟨c, hc, hcj, h1, a, b, h2, h3, h4⟩ := runWhile_bound
    (p := fun next x => decide (0 ≤ next.compareComponent mono x * dir)) (prev := next)
    (L := (vs.take (e + 1)).reverse) (j := e - j) (by rw [hlen]; omega) (by
      intro hall
      have mon : ∀ t ≤ e - j, K vs mono dir (e - t) ≤ K vs mono dir (e + 1) := by
        intro t
        induction t with
        | zero => intro _; have := (step 0 (by omega)).1 (hall 0 (by omega)); simpa using this
        | succ t ih =>
          intro ht
          have h5 := (step (t + 1) (by omega)).1 (hall (t + 1) ht)
          have h6 := ih (by omega)
          have e5 : e + 1 - (t + 1) = e - t := by omega
          rw [e5] at h5
          exact h5.trans h6
      have h7 := mon (e - j) le_rfl
      rw [show e - (e - j) = j by omega] at h7
      exact absurd hK (not_lt.2 h7))
  refine ⟨e - c + 1, by simp [followDirReverse, hc], by omega, by omega, ?_, ?_⟩
  · intro i hi1 hi2
    have := (step (e - i) (by omega)).1 (h1 (e - i) (by omega))
    rw [show e - (e - i) = i by omega, show e + 1 - (e - i) = i + 1 by omega] at this
    exact this
  · by_contra hcon
    have h5 := (step c (by omega)).2 (by
      rw [show e + 1 - c = e - c + 1 by omega]
      simpa using hcon)
    obtain ⟨a', b', h6, h7, h8⟩ := h5
    rw [h2] at h6; rw [h3] at h7
    simp only [Option.some.injEq] at h6 h7
    subst h6 h7
    rw [h4] at h8; exact absurd h8 (by simp)

theorem follow_up {b j : Nat} {prev : HP3} (hb : vs[b]? = some prev) (hj : b < j) (hjn : j < vs.length)
    (hK : K vs mono dir j < K vs mono dir b) :
    ∃ b', followDir vs mono dir prev (b + 1) = some b' ∧ b + 1 ≤ b' ∧ b' ≤ j ∧
      (∀ i, b ≤ i → i + 1 < b' → K vs mono dir i ≤ K vs mono dir (i + 1)) ∧
      K vs mono dir b' < K vs mono dir (b' - 1) := by
  have step : ∀ i, b + 1 + i < vs.length → ((∃ a x, (prev :: vs.drop (b + 1))[i]? = some a ∧
      (vs.drop (b + 1))[i]? = some x ∧ decide (0 ≤ x.compareComponent mono a * dir) = true) ↔
      K vs mono dir (b + i) ≤ K vs mono dir (b + 1 + i)) := by
    intro i hi
    rw [drop_cons_get hb, List.getElem?_drop]
    have h1 : vs[b + i]? = some vs[b + i] := List.getElem?_eq_getElem _
    have h2 : vs[b + 1 + i]? = some vs[b + 1 + i] := List.getElem?_eq_getElem _
    rw [K_eq h1, K_eq h2]
    have := (cmp_key (mono := mono) hd (hw _ (List.getElem_mem (h := (by omega : b + 1 + i < vs.length))))
      (hw _ (List.getElem_mem (h := (by omega : b + i < vs.length))))).1
    constructor
    · rintro ⟨a, x, ha, hx, hp⟩
      rw [h1] at ha; rw [h2] at hx
      simp only [Option.some.injEq] at ha hx
      subst ha hx
      exact this.1 (of_decide_eq_true hp)
    · intro h
      exact ⟨_, _, h1, h2, decide_eq_true (this.2 h)⟩
  obtain ⟨c, hc, hcj, h1, a, x, h2, h3, h4⟩ := runWhile_bound
    (p := fun prev x => decide (0 ≤ x.compareComponent mono prev * dir)) (prev := prev)
    (L := vs.drop (b + 1)) (j := j - (b + 1)) (by simp; omega) (by
      intro hall
      have mon : ∀ t ≤ j - (b + 1), K vs mono dir b ≤ K vs mono dir (b + 1 + t) := by
        intro t
        induction t with
        | zero => intro _; have := (step 0 (by omega)).1 (hall 0 (by omega)); simpa using this
        | succ t ih =>
          intro ht
          have h5 := (step (t + 1) (by omega)).1 (hall (t + 1) ht)
          have h6 := ih (by omega)
          rw [show b + (t + 1) = b + 1 + t by omega] at h5
          exact h6.trans h5
      have h7 := mon (j - (b + 1)) le_rfl
      rw [show b + 1 + (j - (b + 1)) = j by omega] at h7
      exact absurd hK (not_lt.2 h7))
  refine ⟨b + 1 + c, by simp [followDir, hc], by omega, by omega, ?_, ?_⟩
  · intro i hi1 hi2
    have := (step (i - b) (by omega)).1 (h1 (i - b) (by omega))
    rw [show b + (i - b) = i by omega, show b + 1 + (i - b) = i + 1 by omega] at this
    exact this
  · by_contra hcon
    have h5 := (step c (by omega)).2 (by
      rw [show b + c = b + 1 + c - 1 by omega]
      simpa using hcon)
    obtain ⟨a', b', h6, h7, h8⟩ := h5
    rw [h2] at h6; rw [h3] at h7
    simp only [Option.some.injEq] at h6 h7
    subst h6 h7
    rw [h4] at h8; exact absurd h8 (by simp)

theorem follow_up_to {b j : Nat} {prev upTo : HP3} (hb : vs[b]? = some prev) (hj : b < j)
    (hup : vs[j]? = some upTo) :
    ∃ b', followDirUpTo vs mono (-dir) prev (b + 1) upTo = some b' ∧ b + 1 ≤ b' ∧ b' ≤ j ∧
      (∀ i, b ≤ i → i + 1 < b' → K vs mono dir j < K vs mono dir (i + 1) ∧ K vs mono dir (i + 1) ≤ K vs mono dir i) ∧
      ¬ (K vs mono dir j < K vs mono dir b' ∧ K vs mono dir b' ≤ K vs mono dir (b' - 1)) := by
  have hjn : j < vs.length := by
    by_contra hc; rw [List.getElem?_eq_none (by omega)] at hup; simp at hup
  have step : ∀ i, b + 1 + i < vs.length → ((∃ a x, (prev :: vs.drop (b + 1))[i]? = some a ∧
      (vs.drop (b + 1))[i]? = some x ∧ (decide (0 < upTo.compareComponent mono x * -dir) &&
        decide (0 ≤ x.compareComponent mono a * -dir)) = true) ↔
      (K vs mono dir j < K vs mono dir (b + 1 + i) ∧ K vs mono dir (b + 1 + i) ≤ K vs mono dir (b + i))) := by
    intro i hi
    rw [drop_cons_get hb, List.getElem?_drop]
    have h1 : vs[b + i]? = some vs[b + i] := List.getElem?_eq_getElem _
    have h2 : vs[b + 1 + i]? = some vs[b + 1 + i] := List.getElem?_eq_getElem _
    rw [K_eq h1, K_eq h2, K_eq hup]
    have hup' : upTo ∈ vs := List.mem_of_getElem? hup
    have := (cmp_key (mono := mono) hd (hw _ (List.getElem_mem (h := (by omega : b + 1 + i < vs.length))))
      (hw _ (List.getElem_mem (h := (by omega : b + i < vs.length))))).2.2.1
    have h0 := (cmp_key (mono := mono) hd (hw _ hup')
      (hw _ (List.getElem_mem (h := (by omega : b + 1 + i < vs.length))))).2.2.2.1
    constructor
    · rintro ⟨a, x, ha, hx, hp⟩
      rw [h1] at ha; rw [h2] at hx
      simp only [Option.some.injEq] at ha hx
      subst ha hx
      simp only [Bool.and_eq_true, decide_eq_true_eq] at hp
      exact ⟨h0.1 hp.1, this.1 hp.2⟩
    · intro h
      exact ⟨_, _, h1, h2, by simp only [Bool.and_eq_true, decide_eq_true_eq]; exact ⟨h0.2 h.1, this.2 h.2⟩⟩
  obtain ⟨c, hc, hcj, h1, a, x, h2, h3, h4⟩ := runWhile_bound
    (p := fun prev x => decide (0 < upTo.compareComponent mono x * -dir) &&
        decide (0 ≤ x.compareComponent mono prev * -dir)) (prev := prev)
    (L := vs.drop (b + 1)) (j := j - (b + 1)) (by simp; omega) (by
      intro hall
      have h7 := ((step (j - (b + 1)) (by omega)).1 (hall (j - (b + 1)) le_rfl)).1
      rw [show b + 1 + (j - (b + 1)) = j by omega] at h7
      exact lt_irrefl _ h7)
  refine ⟨b + 1 + c, by unfold followDirUpTo; rw [hc]; rfl, by omega, by omega, ?_, ?_⟩
  · intro i hi1 hi2
    have := (step (i - b) (by omega)).1 (h1 (i - b) (by omega))
    rw [show b + (i - b) = i by omega, show b + 1 + (i - b) = i + 1 by omega] at this
    exact this
  · intro hcon
    have h5 := (step c (by omega)).2 (by
      rw [show b + c = b + 1 + c - 1 by omega]; exact hcon)
    obtain ⟨a', b', h6, h7, h8⟩ := h5
    rw [h2] at h6; rw [h3] at h7
    simp only [Option.some.injEq] at h6 h7
    subst h6 h7
    rw [h4] at h8; exact absurd h8 (by simp)

theorem follow_up_to_reverse {e j : Nat} {next upTo : HP3} (he : vs[e + 1]? = some next) (hj : j ≤ e)
    (hup : vs[j]? = some upTo) :
    ∃ e2, followDirUpToReverse vs mono (-dir) next e upTo = some e2 ∧ j < e2 ∧ e2 ≤ e + 1 ∧
      (∀ i, e2 ≤ i → i ≤ e → K vs mono dir (i + 1) ≤ K vs mono dir i ∧ K vs mono dir i < K vs mono dir j) ∧
      ¬ (K vs mono dir e2 ≤ K vs mono dir (e2 - 1) ∧ K vs mono dir (e2 - 1) < K vs mono dir j) := by
  have hl : e + 1 < vs.length := by
    by_contra hc; rw [List.getElem?_eq_none (by omega)] at he; simp at he
  have hlen : (vs.take (e + 1)).reverse.length = e + 1 := by simp; omega
  have step : ∀ i ≤ e, (∃ a b, (next :: (vs.take (e + 1)).reverse)[i]? = some a ∧
      (vs.take (e + 1)).reverse[i]? = some b ∧ (decide (0 ≤ a.compareComponent mono b * -dir) &&
        decide (0 < b.compareComponent mono upTo * -dir)) = true) ↔
      (K vs mono dir (e + 1 - i) ≤ K vs mono dir (e - i) ∧ K vs mono dir (e - i) < K vs mono dir j) := by
    intro i hi
    rw [rev_cons_get he hi, rev_get (by omega) hi]
    have h1 : vs[e - i]? = some vs[e - i] := List.getElem?_eq_getElem _
    have h2 : vs[e + 1 - i]? = some vs[e + 1 - i] := List.getElem?_eq_getElem _
    rw [K_eq h1, K_eq h2, K_eq hup]
    have hup' : upTo ∈ vs := List.mem_of_getElem? hup
    have := (cmp_key (mono := mono) hd (hw _ (List.getElem_mem (h := (by omega : e + 1 - i < vs.length))))
      (hw _ (List.getElem_mem (h := (by omega : e - i < vs.length))))).2.2.1
    have h0 := (cmp_key (mono := mono) hd
      (hw _ (List.getElem_mem (h := (by omega : e - i < vs.length)))) (hw _ hup')).2.2.2.1
    constructor
    · rintro ⟨a, b, ha, hb, hp⟩
      rw [h2] at ha; rw [h1] at hb
      simp only [Option.some.injEq] at ha hb
      subst ha hb
      simp only [Bool.and_eq_true, decide_eq_true_eq] at hp
      exact ⟨this.1 hp.1, h0.1 hp.2⟩
    · intro h
      exact ⟨_, _, h2, h1, by simp only [Bool.and_eq_true, decide_eq_true_eq]; exact ⟨this.2 h.1, h0.2 h.2⟩⟩
  obtain ⟨c, hc, hcj, h1, a, b, h2, h3, h4⟩ := runWhile_bound
    (p := fun next x => decide (0 ≤ next.compareComponent mono x * -dir) &&
        decide (0 < x.compareComponent mono upTo * -dir)) (prev := next)
    (L := (vs.take (e + 1)).reverse) (j := e - j) (by rw [hlen]; omega) (by
      intro hall
      have h7 := ((step (e - j) (by omega)).1 (hall (e - j) le_rfl)).2
      rw [show e - (e - j) = j by omega] at h7
      exact lt_irrefl _ h7)
  refine ⟨e - c + 1, by unfold followDirUpToReverse; rw [hc]; rfl, by omega, by omega, ?_, ?_⟩
  · intro i hi1 hi2
    have := (step (e - i) (by omega)).1 (h1 (e - i) (by omega))
    rw [show e - (e - i) = i by omega, show e + 1 - (e - i) = i + 1 by omega] at this
    exact this
  · intro hcon
    have h5 := (step c (by omega)).2 (by
      rw [show e + 1 - c = e - c + 1 by omega]
      exact hcon)
    obtain ⟨a', b', h6, h7, h8⟩ := h5
    rw [h2] at h6; rw [h3] at h7
    simp only [Option.some.injEq] at h6 h7
    subst h6 h7
    rw [h4] at h8; exact absurd h8 (by simp)

end

/-! ### the steps -/

/-- The vertices with the indices from `i` to `j`. -/
def seg (vs : List HP3) (i j : Nat) : List HP3 := (vs.take j).drop i

theorem seg?_eq {vs : List HP3} {i j : Nat} (h : i ≤ j) (hj : j ≤ vs.length) : seg? vs i j = some (seg vs i j) := by
  unfold seg? seg; rw [if_pos ⟨h, hj⟩]

theorem seg_length {vs : List HP3} {i j : Nat} (hj : j ≤ vs.length) : (seg vs i j).length = j - i := by
  simp [seg]; omega

theorem seg_get {vs : List HP3} {i j k : Nat} (hk : i + k < j) : (seg vs i j)[k]? = vs[i + k]? := by
  simp only [seg, List.getElem?_drop, List.getElem?_take]
  rw [if_pos hk]

theorem dec?_eq {i : Nat} (h : 0 < i) : dec? i = some (i - 1) := by
  unfold dec?; rw [if_neg (by omega)]

theorem takeWhile_facts {p : HP3 → Bool} : ∀ (l : List HP3),
    (l.takeWhile p).length ≤ l.length ∧ (∀ i < (l.takeWhile p).length, ∃ x, l[i]? = some x ∧ p x = true) ∧
    ((l.takeWhile p).length < l.length → ∃ x, l[(l.takeWhile p).length]? = some x ∧ p x = false) := by
  intro l
  induction l with
  | nil => simp
  | cons a r ih =>
    obtain ⟨h1, h2, h3⟩ := ih
    by_cases hp : p a = true
    · rw [List.takeWhile_cons_of_pos hp]
      refine ⟨by simpa using h1, ?_, ?_⟩
      · intro i hi
        cases i with
        | zero => exact ⟨a, rfl, hp⟩
        | succ i => obtain ⟨x, hx, hq⟩ := h2 i (by simpa using hi); exact ⟨x, by simpa using hx, hq⟩
      · intro h
        obtain ⟨x, hx, hq⟩ := h3 (by simpa using h)
        exact ⟨x, by simpa using hx, hq⟩
    · rw [List.takeWhile_cons_of_neg hp]
      exact ⟨by simp, by simp, fun _ => ⟨a, rfl, by simpa using hp⟩⟩

/-- The result of the steps 2 to 5 by indices. -/
structure Steps (vs : List HP3) (mono : Fin 3) (dir : Int) (rb re : Nat) (r : MRange) (b3 b5 e6 e2 : Nat) : Prop where
  i1 : rb < b3
  i2 : b3 ≤ b5
  i3 : b5 ≤ e6
  i4 : e6 ≤ e2
  i5 : e2 < re
  res : r = ⟨dir, seg vs e2 re ++ seg vs rb b3, seg vs (b3 - 1) b5 ++ seg vs e6 (e2 + 1),
    if b5 = e6 then b5 else b5 - 1, if b5 = e6 then e6 else e6 + 1⟩
  u1 : ∀ i, e2 ≤ i → i + 1 < re → K vs mono dir i ≤ K vs mono dir (i + 1)
  u2 : K vs mono dir (re - 1) ≤ K vs mono dir rb
  u3 : ∀ i, rb ≤ i → i + 1 < b3 → K vs mono dir i ≤ K vs mono dir (i + 1)
  d1 : ∀ i, b3 - 1 ≤ i → i + 1 < b5 → K vs mono dir (i + 1) ≤ K vs mono dir i
  d2 : K vs mono dir e6 ≤ K vs mono dir (b5 - 1)
  d3 : ∀ i, e6 ≤ i → i < e2 → K vs mono dir (i + 1) ≤ K vs mono dir i
  lt : K vs mono dir e2 < K vs mono dir (b3 - 1)
  stuck : b5 = rb + 1 → e6 + 1 = re → b5 ≠ e6 →
    K vs mono dir b5 < K vs mono dir (re - 1) ∧ K vs mono dir rb < K vs mono dir (e6 - 1)
  top : b3 ≤ e2 ∧ K vs mono dir b3 < K vs mono dir (b3 - 1)
  bot : K vs mono dir e2 < K vs mono dir (e2 - 1)
  full : (∀ i, b3 - 1 ≤ i → i < e2 → K vs mono dir (i + 1) < K vs mono dir i) → b5 = e2

theorem rangeSteps_spec {vs : List HP3} {mono : Fin 3} {dir : Int} (hw : ∀ v ∈ vs, v.w ≠ 0) (hd : dir = 1 ∨ dir = -1)
    {rb re rb1 : Nat} (h1 : rb ≤ rb1) (h2 : rb1 + 1 < re) (h3 : re ≤ vs.length)
    (heq : ∀ i, rb ≤ i → i < rb1 → K vs mono dir i = K vs mono dir (re - 1))
    (hlt : K vs mono dir (re - 1) < K vs mono dir rb1) :
    ∃ r b3 b5 e6 e2, rangeSteps vs mono dir rb re rb1 = some r ∧ Steps vs mono dir rb re r b3 b5 e6 e2 := by
  have get : ∀ i, i < vs.length → ∃ v, vs[i]? = some v := fun i hi => ⟨_, List.getElem?_eq_getElem hi⟩
  -- step 2
  obtain ⟨next, hnext⟩ := get (re - 1) (by omega)
  obtain ⟨e2, f2, a1, a2, a3, a4⟩ := follow_reverse (mono := mono) hw hd (e := re - 2) (j := rb1) (next := next)
    (by rw [show re - 2 + 1 = re - 1 by omega]; exact hnext) (by omega)
    (by rw [show re - 2 + 1 = re - 1 by omega]; exact hlt)
  -- step 3
  have hmin : ∀ t, t + e2 ≤ re - 1 → K vs mono dir e2 ≤ K vs mono dir (e2 + t) := by
    intro t
    induction t with
    | zero => intro _; simp
    | succ t ih => intro ht; exact (ih (by omega)).trans (a3 (e2 + t) (by omega) (by omega))
  have hmin' : K vs mono dir e2 ≤ K vs mono dir (re - 1) := by
    have := hmin (re - 1 - e2) (by omega)
    rwa [show e2 + (re - 1 - e2) = re - 1 by omega] at this
  obtain ⟨prev, hprev⟩ := get rb1 (by omega)
  obtain ⟨b3, f3, c1, c2, c3, c4⟩ := follow_up (mono := mono) hw hd hprev a1 (by omega) (hmin'.trans_lt hlt)
  have hmax : ∀ t, rb1 + t < b3 → K vs mono dir rb1 ≤ K vs mono dir (rb1 + t) := by
    intro t
    induction t with
    | zero => intro _; simp
    | succ t ih => intro ht; exact (ih (by omega)).trans (c3 (rb1 + t) (by omega) (by omega))
  have hmax' : K vs mono dir rb1 ≤ K vs mono dir (b3 - 1) := by
    have := hmax (b3 - 1 - rb1) (by omega)
    rwa [show rb1 + (b3 - 1 - rb1) = b3 - 1 by omega] at this
  have hlt' : K vs mono dir e2 < K vs mono dir (b3 - 1) := by linarith
  -- step 4
  obtain ⟨pm, hpm⟩ := get (b3 - 1) (by omega)
  obtain ⟨upTo, hup⟩ := get e2 (by omega)
  obtain ⟨b4, f4, d1, d2, d3, d4⟩ := follow_up_to (mono := mono) hw hd hpm (j := e2) (by omega) hup
  rw [show b3 - 1 + 1 = b3 by omega] at f4
  obtain ⟨t1, t2, t3⟩ := takeWhile_facts (p := fun x => x.isEquivalentComponent mono upTo) (seg vs b4 e2)
  rw [seg_length (by omega)] at t1 t3
  obtain ⟨T, hT⟩ : ∃ T, ((seg vs b4 e2).takeWhile fun x => x.isEquivalentComponent mono upTo).length = T := ⟨_, rfl⟩
  rw [hT] at t1 t2 t3
  have hupm : upTo ∈ vs := List.mem_of_getElem? hup
  have eqv : ∀ i x, vs[i]? = some x → (x.isEquivalentComponent mono upTo = true ↔ K vs mono dir i = K vs mono dir e2) := by
    intro i x hx
    rw [K_eq hx, K_eq hup]
    exact (cmp_key hd (hw x (List.mem_of_getElem? hx)) (hw _ hupm)).2.2.2.2
  have s1 : ∀ i, b4 ≤ i → i < b4 + T → K vs mono dir i = K vs mono dir e2 := by
    intro i hi1 hi2
    obtain ⟨x, hx, hp⟩ := t2 (i - b4) (by omega)
    rw [seg_get (by omega), show b4 + (i - b4) = i by omega] at hx
    exact (eqv i x hx).1 hp
  have s2 : b4 + T < e2 → K vs mono dir (b4 + T) ≠ K vs mono dir e2 := by
    intro hlt2
    obtain ⟨x, hx, hp⟩ := t3 (by omega)
    rw [seg_get (by omega)] at hx
    intro hc
    have := (eqv _ x hx).2 hc
    simp [this] at hp
  obtain ⟨b5, hb5⟩ : ∃ b5, b5 = b4 + T := ⟨_, rfl⟩
  rw [← hb5] at s1 s2
  have desc : ∀ i, b3 - 1 ≤ i → i + 1 < b5 → K vs mono dir (i + 1) ≤ K vs mono dir i := by
    intro i hi1 hi2
    by_cases hc : i + 1 < b4
    · exact (d3 i hi1 hc).2
    · rw [s1 (i + 1) (by omega) (by omega)]
      by_cases hc2 : i + 1 = b4
      · by_cases hc3 : i = b3 - 1
        · rw [hc3]; exact hlt'.le
        · have := (d3 (i - 1) (by omega) (by omega)).1
          rw [show i - 1 + 1 = i by omega] at this; exact this.le
      · rw [s1 i (by omega) (by omega)]
  have lastge : K vs mono dir e2 ≤ K vs mono dir (b5 - 1) := by
    by_cases hc : b5 = b4
    · by_cases hc3 : b4 = b3
      · rw [hc, hc3]; exact hlt'.le
      · have := (d3 (b4 - 2) (by omega) (by omega)).1
        rw [show b4 - 2 + 1 = b5 - 1 by omega] at this; exact this.le
    · rw [s1 (b5 - 1) (by omega) (by omega)]
  -- step 5
  obtain ⟨la, hla⟩ := get (b5 - 1) (by omega)
  obtain ⟨e4, f5, g1, g2, g3, g4⟩ := follow_up_to_reverse (mono := mono) hw hd (e := e2 - 1) (next := upTo) (j := b5 - 1)
    (by rw [show e2 - 1 + 1 = e2 by omega]; exact hup) (by omega) hla
  have hlam : la ∈ vs := List.mem_of_getElem? hla
  have h46 : ∃ e6, skipBack vs mono la b5 e4 = some e6 ∧ b5 ≤ e6 ∧ e6 ≤ e4 ∧
      (∀ i, e6 ≤ i → i < e4 → K vs mono dir i = K vs mono dir (b5 - 1)) ∧
      (b5 + 1 < e6 → K vs mono dir (b5 - 1) ≠ K vs mono dir (e6 - 1)) := by
    unfold skipBack
    by_cases hc : b5 = e4
    · rw [if_pos hc]; exact ⟨e4, rfl, by omega, le_rfl, fun i hi1 hi2 => by omega, fun h => by omega⟩
    · rw [if_neg hc, dec?_eq (by omega)]
      simp only [bind, Option.bind]
      rw [seg?_eq (by omega) (by omega)]
      simp only [pure]
      rw [show e4 - 1 + 1 = e4 by omega]
      obtain ⟨w1, w2, w3⟩ := takeWhile_facts (p := fun x => la.isEquivalentComponent mono x) (seg vs (b5 + 1) e4).reverse
      obtain ⟨W, hW⟩ : ∃ W, ((seg vs (b5 + 1) e4).reverse.takeWhile fun x => la.isEquivalentComponent mono x).length = W :=
        ⟨_, rfl⟩
      rw [hW] at w1 w2 w3 ⊢
      have hlen : (seg vs (b5 + 1) e4).length = e4 - (b5 + 1) := seg_length (by omega)
      rw [List.length_reverse, hlen] at w1 w3
      have eqv2 : ∀ i x, vs[i]? = some x →
          (la.isEquivalentComponent mono x = true ↔ K vs mono dir (b5 - 1) = K vs mono dir i) := by
        intro i x hx
        rw [K_eq hx, K_eq hla]
        exact (cmp_key hd (hw _ hlam) (hw x (List.mem_of_getElem? hx))).2.2.2.2
      have revget : ∀ i, i < e4 - (b5 + 1) → (seg vs (b5 + 1) e4).reverse[i]? = vs[e4 - 1 - i]? := by
        intro i hi
        rw [List.getElem?_reverse (by omega), hlen, seg_get (by omega)]
        congr 1; omega
      refine ⟨e4 - 1 - W + 1, rfl, by omega, by omega, ?_, ?_⟩
      · intro i hi1 hi2
        obtain ⟨x, hx, hp⟩ := w2 (e4 - 1 - i) (by omega)
        rw [revget _ (by omega), show e4 - 1 - (e4 - 1 - i) = i by omega] at hx
        exact ((eqv2 i x hx).1 hp).symm
      · intro hlt3 hc2
        obtain ⟨x, hx, hp⟩ := w3 (by omega)
        rw [revget _ (by omega)] at hx
        have := (eqv2 _ x hx).2 (by rw [hc2]; congr 1)
        simp [this] at hp
  obtain ⟨e6, f6, k1, k2, k3, k4⟩ := h46
  refine ⟨⟨dir, seg vs e2 re ++ seg vs rb b3, seg vs (b3 - 1) b5 ++ seg vs e6 (e2 + 1),
    if b5 = e6 then b5 else b5 - 1, if b5 = e6 then e6 else e6 + 1⟩, b3, b5, e6, e2, ?_,
    ⟨by omega, by omega, k1, by omega, by omega, rfl, ?_, ?_, ?_, desc, ?_, ?_, hlt', ?_, ⟨by omega, c4⟩, a4, ?_⟩⟩
  · unfold rangeSteps
    rw [dec?_eq (by omega)]
    simp only [bind, Option.bind, hnext]
    rw [dec?_eq (by omega)]
    simp only
    rw [show re - 1 - 1 = re - 2 by omega, f2]
    simp only
    rw [if_neg (by omega), seg?_eq (by omega) (by omega)]
    simp only [hprev, f3]
    rw [if_neg (by omega), seg?_eq (by omega) (by omega)]
    simp only
    rw [dec?_eq (by omega)]
    simp only [hpm, hup, f4]
    rw [if_neg (by omega), seg?_eq (by omega) (by omega)]
    simp only [hT, ← hb5]
    rw [seg?_eq (by omega) (by omega)]
    simp only
    rw [dec?_eq (by omega)]
    simp only
    rw [dec?_eq (by omega)]
    simp only [hla, f5, f6]
    rw [seg?_eq (by omega) (by omega)]
    simp only
    by_cases hc : b5 = e6
    · simp [hc]
    · rw [if_neg hc]; simp [hc]
  · intro i hi1 hi2; exact a3 i hi1 (by omega)
  · by_cases hc : rb = rb1
    · rw [hc]; exact hlt.le
    · rw [heq rb le_rfl (by omega)]
  · intro i hi1 hi2
    by_cases hc : i + 1 < rb1
    · rw [heq i hi1 (by omega), heq (i + 1) (by omega) hc]
    · by_cases hc2 : i + 1 = rb1
      · rw [hc2, heq i hi1 (by omega)]; exact hlt.le
      · exact c3 i (by omega) hi2
  · by_cases hc : e6 = e4
    · rw [hc]
      by_cases hc2 : e4 = e2
      · rw [hc2]; exact lastge
      · exact (g3 e4 le_rfl (by omega)).2.le
    · rw [k3 e6 le_rfl (by omega)]
  · intro i hi1 hi2
    by_cases hc : i < e4
    · rw [k3 i hi1 hc]
      by_cases hc2 : i + 1 < e4
      · rw [k3 (i + 1) (by omega) hc2]
      · by_cases hc3 : i + 1 = e2
        · rw [hc3]; exact lastge
        · exact (g3 (i + 1) (by omega) (by omega)).2.le
    · exact (g3 i (by omega) (by omega)).1
  · intro hb he hne
    -- nothing but one vertex at each end
    have q1 : b4 = b3 := by omega
    have q2 : b3 = rb + 1 := by omega
    have q3 : e4 = e6 := by omega
    have q4 : e2 = e6 := by omega
    have q5 : rb1 = rb := by omega
    have r1 : K vs mono dir b3 < K vs mono dir e2 := by
      have r2 : ¬ K vs mono dir e2 < K vs mono dir b4 := fun hh => d4 ⟨hh, by rw [q1]; exact c4.le⟩
      have r3 := s2 (by omega)
      rw [hb, ← q2] at r3
      rw [q1] at r2
      exact lt_of_le_of_ne (not_lt.1 r2) r3
    refine ⟨by rw [hb, ← q2]; rw [show re - 1 = e2 by omega]; exact r1, ?_⟩
    have r4 : ¬ K vs mono dir (e4 - 1) < K vs mono dir (b5 - 1) :=
      fun hh => g4 ⟨by rw [q3, ← q4]; exact a4.le, hh⟩
    rw [q3, show b5 - 1 = rb by omega] at r4
    by_cases hc : b5 + 1 < e6
    · have := k4 hc
      rw [show b5 - 1 = rb by omega] at this
      exact lt_of_le_of_ne (not_lt.1 r4) this
    · exfalso
      have e7 : e2 - 1 = b3 := by omega
      rw [e7] at a4
      exact lt_asymm a4 r1
  · intro hs
    have : b4 = e2 := by
      by_contra hc
      have down : ∀ t, t < e2 - b4 → K vs mono dir (b4 + (t + 1)) < K vs mono dir b4 := by
        intro t
        induction t with
        | zero => intro ht; exact hs b4 (by omega) (by omega)
        | succ t ih => intro ht; exact (hs (b4 + (t + 1)) (by omega) (by omega)).trans (ih (by omega))
      have k1 := down (e2 - b4 - 1) (by omega)
      rw [show b4 + (e2 - b4 - 1 + 1) = e2 by omega] at k1
      have k2 := hs (b4 - 1) (by omega) (by omega)
      rw [show b4 - 1 + 1 = b4 by omega] at k2
      exact d4 ⟨k1, k2.le⟩
    omega

theorem compare_cases (a b : HP3) (i : Fin 3) :
    a.compareComponent i b = 1 ∨ a.compareComponent i b = -1 ∨ a.compareComponent i b = 0 := by
  unfold HP3.compareComponent Geom.cmp absMult2
  rcases Int.sign_trichotomy (a.v.comp i * b.w - b.v.comp i * a.w) with h | h | h <;> rw [h] <;> split <;> simp

theorem getDir_spec {mono : Fin 3} {prev : HP3} (hp : prev.w ≠ 0) : ∀ (L : List HP3), (∀ v ∈ L, v.w ≠ 0) →
    (getDir mono prev L).2 ≤ L.length ∧
    (∀ i < (getDir mono prev L).2, ∃ x, L[i]? = some x ∧ x.pt mono = prev.pt mono) ∧
    ((getDir mono prev L).2 = L.length → (getDir mono prev L).1 = 0) ∧
    ((getDir mono prev L).2 < L.length → ∃ x, L[(getDir mono prev L).2]? = some x ∧ x.pt mono ≠ prev.pt mono ∧
      (getDir mono prev L).1 = x.compareComponent mono prev) := by
  intro L
  induction L with
  | nil => intro _; simp [getDir]
  | cons a r ih =>
    intro hL
    obtain ⟨h1, h2, h3, h4⟩ := ih (fun v hv => hL v (by simp [hv]))
    have hc := (Props.C16_compare_component a prev mono (hL a (by simp)) hp).2.2.2.2
    by_cases he : a.isEquivalentComponent mono prev = true
    · have e : getDir mono prev (a :: r) = ((getDir mono prev r).1, (getDir mono prev r).2 + 1) := by
        simp [getDir, he]
      rw [e]
      refine ⟨by simpa using h1, ?_, fun h => h3 (by simpa using h), fun h => ?_⟩
      · intro i hi
        cases i with
        | zero => exact ⟨a, rfl, hc.1 he⟩
        | succ i => obtain ⟨x, hx, hq⟩ := h2 i (by simpa using hi); exact ⟨x, by simpa using hx, hq⟩
      · obtain ⟨x, hx, hq⟩ := h4 (by simpa using h)
        exact ⟨x, by simpa using hx, hq⟩
    · have e : getDir mono prev (a :: r) = (a.compareComponent mono prev, 0) := by
        simp [getDir, he]
      rw [e]
      refine ⟨by simp, by simp, by simp, fun _ => ⟨a, rfl, fun h => he (hc.2 h), rfl⟩⟩

/-- What `Build` returns, by indices. -/
theorem monotoneRange_spec {vs : List HP3} (mono : Fin 3) (hw : ∀ v ∈ vs, v.w ≠ 0) {rb re : Nat} (h1 : rb < re)
    (h2 : re ≤ vs.length) :
    ∃ r, monotoneRange vs mono rb re = some r ∧
      ((∃ b3 b5 e6 e2 dir, (dir = 1 ∨ dir = -1) ∧ Steps vs mono dir rb re r b3 b5 e6 e2) ∨
       (r.dir = 0 ∧ r.chain1 = seg vs rb re ∧ r.first = re - 1 ∧ r.last = re - 1 ∧
        r.chain2 = seg vs (re - 1) re ++ (if re - 1 ≠ rb then seg vs rb (rb + 1) else []) ∧
        ∀ i, rb ≤ i → i < re → K vs mono 1 i = K vs mono 1 (re - 1))) := by
  have hprev : vs[re - 1]? = some vs[re - 1] := List.getElem?_eq_getElem _
  have hpw : vs[re - 1].w ≠ 0 := hw _ (List.getElem_mem _)
  generalize vs[re - 1] = prev at hprev hpw
  have hL : ∀ v ∈ seg vs rb (re - 1), v.w ≠ 0 := fun v hv => hw v (List.mem_of_mem_take (List.mem_of_mem_drop hv))
  obtain ⟨g1, g2, g3, g4⟩ := getDir_spec (mono := mono) hpw (seg vs rb (re - 1)) hL
  rw [seg_length (by omega)] at g1 g3 g4
  have hstart : monotoneRange vs mono rb re =
      if (getDir mono prev (seg vs rb (re - 1))).1 = 0 then
        some ⟨0, seg vs rb re, seg vs (re - 1) re ++ (if re - 1 ≠ rb then seg vs rb (rb + 1) else []),
          rb + (getDir mono prev (seg vs rb (re - 1))).2, re - 1⟩
      else rangeSteps vs mono (getDir mono prev (seg vs rb (re - 1))).1 rb re
        (rb + (getDir mono prev (seg vs rb (re - 1))).2) := by
    unfold monotoneRange
    rw [if_neg (by omega), dec?_eq (by omega)]
    simp only [bind, Option.bind, hprev]
    rw [seg?_eq (by omega) (by omega)]
    simp only
    split
    · rw [seg?_eq (by omega) (by omega)]
      simp only
      rw [seg?_eq (by omega) (by omega)]
      simp only
      split
      · rw [seg?_eq (by omega) (by omega)]; rfl
      · simp
    · rfl
  rw [hstart]
  generalize getDir mono prev (seg vs rb (re - 1)) = d at *
  obtain ⟨d, c⟩ := d
  simp only at *
  by_cases hc : c = re - 1 - rb
  · have hd := g3 hc
    rw [if_pos hd]
    clear g4 g3
    refine ⟨_, rfl, Or.inr ⟨rfl, rfl, by simp only; omega, rfl, rfl, ?_⟩⟩
    intro i hi1 hi2
    by_cases hi : i = re - 1
    · rw [hi]
    · obtain ⟨x, hx, hq⟩ := g2 (i - rb) (by omega)
      rw [seg_get (by omega), show rb + (i - rb) = i by omega] at hx
      rw [K_eq hx, K_eq hprev, key, key, hq]
  · have hcl : c < re - 1 - rb := by clear g4 g3; omega
    obtain ⟨x, hx, hne, hd⟩ := g4 hcl
    clear g4 g3
    rw [seg_get (by omega)] at hx
    have hxw : x.w ≠ 0 := hw _ (List.mem_of_getElem? hx)
    have hd0 : d ≠ 0 := by
      rw [hd]; intro h0
      exact hne ((Props.C16_compare_component x prev mono hxw hpw).2.1.1 h0)
    rw [if_neg hd0]
    have hd1 : d = 1 ∨ d = -1 := by
      rcases compare_cases x prev mono with h | h | h
      · exact Or.inl (hd.trans h)
      · exact Or.inr (hd.trans h)
      · exact absurd (hd.trans h) hd0
    obtain ⟨r, b3, b5, e6, e2, hr, hs⟩ := rangeSteps_spec (mono := mono) hw hd1 (rb := rb) (re := re) (rb1 := rb + c)
      (by omega) (by omega) h2 (by
        intro i hi1 hi2
        obtain ⟨y, hy, hq⟩ := g2 (i - rb) (by omega)
        rw [seg_get (by omega), show rb + (i - rb) = i by omega] at hy
        rw [K_eq hy, K_eq hprev, key, key, hq]) (by
        rw [K_eq hx, K_eq hprev]
        refine (cmp_key hd1 hxw hpw).2.1.1 ?_
        rw [← hd]
        rcases hd1 with h | h <;> rw [h] <;> norm_num)
    exact ⟨r, hr, Or.inl ⟨b3, b5, e6, e2, d, hd1, hs⟩⟩

end Walnut.Mono
