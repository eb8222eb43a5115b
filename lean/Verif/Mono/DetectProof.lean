/-
What `DetectOrientation` of the orienting decomposer finds out.
-/
import Verif.Mono.Orient
import Verif.Mono.ConvexProof
import Verif.Mono.CutProof

namespace Walnut.Mono
open Walnut.Geom

/-! ### the turn with coinciding points -/

theorem turn_same_left (drop : Fin 3) (p q : Q3) : turnAt drop p p q = 0 := by
  simp only [turnAt]; ring

theorem turn_same_right (drop : Fin 3) (p q : Q3) : turnAt drop p q p = 0 := by
  simp only [turnAt]; ring

theorem turn_same_both (drop : Fin 3) (p q : Q3) : turnAt drop p q q = 0 := by
  simp only [turnAt]; ring

section
variable {drop mono : Fin 3} {vs : List HP3} (hT : Tame drop vs)
include hT

theorem twist_zero {a b c : HP3} (ha : a ∈ vs) (hb : b ∈ vs) (hc : c ∈ vs) :
    (a.get2DTwistDir drop b c).toInt = 0 ↔ T drop a b c = 0 := (hT.twist ha hb hc).1.2.1

theorem twist_decide {a b c : HP3} (ha : a ∈ vs) (hb : b ∈ vs) (hc : c ∈ vs) :
    decide ((a.get2DTwistDir drop b c).toInt < 0) = decide (T drop a b c < 0) := by
  have := (hT.twist ha hb hc).1.1
  simp only [this]

theorem skip_spec {m : HP3} (hm : m ∈ vs) (l : List HP3) (hl : ∀ v ∈ l, v ∈ vs) :
    (skipEqual m l = [] ∧ ∀ v ∈ l, v.pt = m.pt) ∨
    ∃ p a s, skipEqual m l = a :: s ∧ l = p ++ a :: s ∧ (∀ v ∈ p, v.pt = m.pt) ∧ a.pt ≠ m.pt := by
  induction l with
  | nil => exact Or.inl ⟨rfl, by simp⟩
  | cons x r ih =>
    have he := hT.eq (hl x (by simp)) hm
    by_cases hx : x.eq m = true
    · have e : skipEqual m (x :: r) = skipEqual m r := by simp [skipEqual, hx]
      rw [e]
      rcases ih (fun v hv => hl v (by simp [hv])) with ⟨h1, h2⟩ | ⟨p, a, s, h1, h2, h3, h4⟩
      · exact Or.inl ⟨h1, by intro v hv; rcases List.mem_cons.1 hv with rfl | hv
                             · exact he.1 hx
                             · exact h2 v hv⟩
      · refine Or.inr ⟨x :: p, a, s, h1, by rw [h2]; rfl, ?_, h4⟩
        intro v hv; rcases List.mem_cons.1 hv with rfl | hv
        · exact he.1 hx
        · exact h3 v hv
    · have e : skipEqual m (x :: r) = x :: r := by simp [skipEqual, hx]
      exact Or.inr ⟨[], x, r, e, rfl, by simp, fun h => hx (he.2 h)⟩

/-- The part before the loop. -/
theorem detect_cases {m a0 b0 : HP3} {r1 r2 : List HP3} (hm : m ∈ vs) (h1 : ∀ v ∈ a0 :: r1, v ∈ vs)
    (h2 : ∀ v ∈ b0 :: r2, v ∈ vs) :
    (detect drop mono (m :: a0 :: r1) (m :: b0 :: r2) = some none ∧ ∀ v ∈ a0 :: r1, v.pt = m.pt) ∨
    (detect drop mono (m :: a0 :: r1) (m :: b0 :: r2) = none ∧ ∀ v ∈ b0 :: r2, v.pt = m.pt) ∨
    ∃ p1 a s1 p2 b s2, a0 :: r1 = p1 ++ a :: s1 ∧ b0 :: r2 = p2 ++ b :: s2 ∧ (∀ v ∈ p1, v.pt = m.pt) ∧
      (∀ v ∈ p2, v.pt = m.pt) ∧ a.pt ≠ m.pt ∧ b.pt ≠ m.pt ∧
      ((T drop m a b ≠ 0 ∧ detect drop mono (m :: a0 :: r1) (m :: b0 :: r2) = some (some (decide (T drop m a b < 0)))) ∨
       (T drop m a b = 0 ∧ detect drop mono (m :: a0 :: r1) (m :: b0 :: r2) =
          detectLoop drop mono m a (a :: s1) (b :: s2))) := by
  have hmm : m.eq m = true := (hT.eq hm hm).2 rfl
  have ha0 := h1 a0 (by simp)
  have hb0 := h2 b0 (by simp)
  have ea := hT.eq ha0 hm
  have eb := hT.eq hb0 hm
  have tz := twist_zero hT hm ha0 hb0
  have td := twist_decide hT hm ha0 hb0
  by_cases ht : T drop m a0 b0 = 0
  · have e0 : detect drop mono (m :: a0 :: r1) (m :: b0 :: r2) =
        match skipEqual m (a0 :: r1) with
        | [] => some none
        | a' :: r1' =>
          match skipEqual m (b0 :: r2) with
          | [] => none
          | b' :: r2' =>
            if a0.eq m || b0.eq m then
              if (m.get2DTwistDir drop a' b').toInt ≠ 0 then some (some (decide ((m.get2DTwistDir drop a' b').toInt < 0)))
              else detectLoop drop mono m a' (a' :: r1') (b' :: r2')
            else detectLoop drop mono m a' (a' :: r1') (b' :: r2') := by
      simp only [detect, hmm, Bool.not_true, Bool.false_eq_true, if_false, tz.2 ht, ne_eq, not_true_eq_false]
      rfl
    rw [e0]
    rcases skip_spec hT hm (a0 :: r1) h1 with ⟨k1, k2⟩ | ⟨p1, a, s1, k1, k2, k3, k4⟩
    · left; rw [k1]; exact ⟨rfl, k2⟩
    · rw [k1]
      rcases skip_spec hT hm (b0 :: r2) h2 with ⟨q1, q2⟩ | ⟨p2, b, s2, q1, q2, q3, q4⟩
      · right; left; rw [q1]; exact ⟨rfl, q2⟩
      · right; right
        rw [q1]
        have ham : a ∈ vs := h1 a (by rw [k2]; simp)
        have hbm : b ∈ vs := h2 b (by rw [q2]; simp)
        refine ⟨p1, a, s1, p2, b, s2, k2, q2, k3, q3, k4, q4, ?_⟩
        simp only
        by_cases hadv : (a0.eq m || b0.eq m) = true
        · rw [if_pos hadv]
          by_cases ht2 : T drop m a b = 0
          · right
            rw [if_neg (by simpa using (twist_zero hT hm ham hbm).2 ht2)]
            exact ⟨ht2, rfl⟩
          · left
            rw [if_pos (fun h => ht2 ((twist_zero hT hm ham hbm).1 h)), twist_decide hT hm ham hbm]
            exact ⟨ht2, rfl⟩
        · rw [if_neg hadv]
          right
          have hna : ¬ a0.pt = m.pt := fun h => hadv (by simp [ea.2 h])
          have hnb : ¬ b0.pt = m.pt := fun h => hadv (by simp [eb.2 h])
          have e1 : p1 = [] := by
            cases p1 with
            | nil => rfl
            | cons x p => simp at k2; exact absurd (k3 a0 (by rw [k2.1]; simp)) hna
          have e2 : p2 = [] := by
            cases p2 with
            | nil => rfl
            | cons x p => simp at q2; exact absurd (q3 b0 (by rw [q2.1]; simp)) hnb
          subst e1 e2
          simp at k2 q2
          rw [← k2.1, ← q2.1]
          exact ⟨ht, rfl⟩
  · right; right
    refine ⟨[], a0, r1, [], b0, r2, rfl, rfl, by simp, by simp, ?_, ?_, Or.inl ⟨ht, ?_⟩⟩
    · intro h; apply ht; show turnAt _ _ _ _ = 0; rw [h]; exact turn_same_left _ _ _
    · intro h; apply ht; show turnAt _ _ _ _ = 0; rw [h]; exact turn_same_right _ _ _
    · simp only [detect, hmm, Bool.not_true, Bool.false_eq_true, if_false]
      rw [if_pos (fun h => ht (tz.1 h)), td]

/-- The loop finds a vertex off the line, or all vertices but the last one of the second chain are
on the line. -/
theorem loop_spec {m a : HP3} (hm : m ∈ vs) (ha : a ∈ vs) : ∀ (n : Nat) (c1 c2 : List HP3), c1.length + c2.length ≤ n →
    (∀ v ∈ c1, v ∈ vs) → (∀ v ∈ c2, v ∈ vs) →
    (detectLoop drop mono m a c1 c2 = some none → (∀ v ∈ c1, T drop m a v = 0) ∧ ∀ v ∈ c2.dropLast, T drop m a v = 0) ∧
    (∀ f, detectLoop drop mono m a c1 c2 = some (some f) → ∃ v ∈ c1 ++ c2, T drop m a v ≠ 0) := by
  intro n
  induction n with
  | zero =>
    intro c1 c2 hl _ _
    have e1 : c1 = [] := by rw [← List.length_eq_zero_iff]; omega
    have e2 : c2 = [] := by rw [← List.length_eq_zero_iff]; omega
    subst e1 e2
    simp [detectLoop]
  | succ n ih =>
    intro c1 c2 hl k1 k2
    match c1, c2 with
    | [], [] => simp [detectLoop]
    | [], [y] => simp [detectLoop]
    | [], y :: y2 :: ys => simp [detectLoop]
    | x :: xs, [] => simp [detectLoop]
    | x :: xs, y :: ys =>
      rw [detectLoop]
      by_cases hc : x.compareComponent mono y ≤ 0
      · simp only [hc, decide_true, if_true]
        have tz := twist_zero hT hm ha (k1 x (by simp))
        by_cases ht : T drop m a x = 0
        · rw [if_neg (by simpa using tz.2 ht)]
          obtain ⟨i1, i2⟩ := ih xs (y :: ys) (by simp at hl ⊢; omega) (fun v hv => k1 v (by simp [hv])) k2
          refine ⟨fun h => ?_, fun f h => ?_⟩
          · obtain ⟨j1, j2⟩ := i1 h
            exact ⟨by intro v hv; rcases List.mem_cons.1 hv with rfl | hv
                      · exact ht
                      · exact j1 v hv, j2⟩
          · obtain ⟨v, hv, hq⟩ := i2 f h
            exact ⟨v, by simp at hv ⊢; tauto, hq⟩
        · rw [if_pos (fun h => ht (tz.1 h))]
          exact ⟨by simp, fun f _ => ⟨x, by simp, ht⟩⟩
      · simp only [hc, decide_false, Bool.false_eq_true, if_false]
        have tz := twist_zero hT hm ha (k2 y (by simp))
        by_cases ht : T drop m a y = 0
        · rw [if_neg (by simpa using tz.2 ht)]
          obtain ⟨i1, i2⟩ := ih (x :: xs) ys (by simp at hl ⊢; omega) k1 (fun v hv => k2 v (by simp [hv]))
          refine ⟨fun h => ?_, fun f h => ?_⟩
          · obtain ⟨j1, j2⟩ := i1 h
            refine ⟨j1, ?_⟩
            intro v hv
            cases ys with
            | nil => simp at hv
            | cons y2 ys =>
              simp only [List.dropLast_cons_cons, List.mem_cons] at hv
              rcases hv with rfl | hv
              · exact ht
              · exact j2 v hv
          · obtain ⟨v, hv, hq⟩ := i2 f h
            exact ⟨v, by simp at hv ⊢; tauto, hq⟩
        · rw [if_pos (fun h => ht (tz.1 h))]
          exact ⟨by simp, fun f _ => ⟨y, by simp, ht⟩⟩

/-- The loop does not fail if the last vertex of the second chain is beyond the others. -/
theorem loop_defined {m a z : HP3} : ∀ (n : Nat) (c1 l2 : List HP3), c1.length + l2.length ≤ n →
    (∀ v ∈ c1, v ∈ vs) → (∀ v ∈ l2, v ∈ vs) → z ∈ vs → (∀ v ∈ c1, v.pt mono ≤ z.pt mono) →
    (c1 = [] → l2 = []) → (∀ v ∈ c1.getLast?, v.pt mono = z.pt mono) → (∀ v ∈ l2, v.pt mono < z.pt mono) →
    ∃ r, detectLoop drop mono m a c1 (l2 ++ [z]) = some r := by
  intro n
  induction n with
  | zero =>
    intro c1 l2 hl _ _ _ _ _ _ _
    have e1 : c1 = [] := by rw [← List.length_eq_zero_iff]; omega
    have e2 : l2 = [] := by rw [← List.length_eq_zero_iff]; omega
    subst e1 e2
    simp [detectLoop]
  | succ n ih =>
    intro c1 l2 hl k1 k2 hz h3 h4 h5 h6
    cases c1 with
    | nil => rw [h4 rfl]; simp [detectLoop]
    | cons x xs =>
      have cmp : ∀ y ∈ vs, (x.compareComponent mono y ≤ 0 ↔ x.pt mono ≤ y.pt mono) := by
        intro y hy
        have := (Props.C16_compare_component x y mono (by have := hT.pos x (k1 x (by simp)); omega)
          (by have := hT.pos y hy; omega)).2.2.1
        rw [← not_lt, this, not_lt]
      cases l2 with
      | nil =>
        rw [List.nil_append, detectLoop]
        simp only [(cmp z hz).2 (h3 x (by simp)), decide_true, if_true]
        by_cases ht : (m.get2DTwistDir drop a x).toInt = 0
        · rw [if_neg (by simpa using ht)]
          exact ih xs [] (by simp at hl ⊢; omega) (fun v hv => k1 v (by simp [hv])) k2 hz
            (fun v hv => h3 v (by simp [hv])) (fun _ => rfl) (by
              intro v hv
              cases xs with
              | nil => simp at hv
              | cons x2 xs => exact h5 v (by simpa using hv)) h6
        · rw [if_pos ht]; exact ⟨_, rfl⟩
      | cons y ys =>
        rw [List.cons_append, detectLoop]
        by_cases hc : x.compareComponent mono y ≤ 0
        · simp only [hc, decide_true, if_true]
          by_cases ht : (m.get2DTwistDir drop a x).toInt = 0
          · rw [if_neg (by simpa using ht), ← List.cons_append]
            have hxs : xs ≠ [] := by
              rintro rfl
              have e1 := h5 x (by simp)
              have e2 := (cmp y (k2 y (by simp))).1 hc
              have e3 := h6 y (by simp)
              linarith
            exact ih xs (y :: ys) (by simp at hl ⊢; omega) (fun v hv => k1 v (by simp [hv])) k2 hz
              (fun v hv => h3 v (by simp [hv])) (fun h => absurd h hxs) (by
                intro v hv
                cases xs with
                | nil => simp at hv
                | cons x2 xs => exact h5 v (by simpa using hv)) h6
          · rw [if_pos ht]; exact ⟨_, rfl⟩
        · simp only [hc, decide_false, Bool.false_eq_true, if_false]
          by_cases ht : (m.get2DTwistDir drop a y).toInt = 0
          · rw [if_neg (by simpa using ht)]
            exact ih (x :: xs) ys (by simp at hl ⊢; omega) k1 (fun v hv => k2 v (by simp [hv])) hz h3 (by simp) h5
              (fun v hv => h6 v (by simp [hv]))
          · rw [if_pos ht]; exact ⟨_, rfl⟩

end

/-! ### reversed pieces -/

theorem pSum_reverse {α : Type} (g : α → α → ℚ) (hg : ∀ a b, g a b = -g b a) (l : List α) :
    pSum g l.reverse = -pSum g l := by
  induction l with
  | nil => simp [pSum]
  | cons a r ih =>
    cases r with
    | nil => simp [pSum]
    | cons b r =>
      rw [List.reverse_cons, List.reverse_cons, List.append_assoc]
      simp only [List.singleton_append]
      rw [pSum_append, ← List.reverse_cons, ih]
      simp only [pSum]
      linarith [hg a b]

theorem cSum_reverse {α : Type} (g : α → α → ℚ) (hg : ∀ a b, g a b = -g b a) (l : List α) :
    cSum g l.reverse = -cSum g l := by
  cases l with
  | nil => simp [cSum]
  | cons a r =>
    rw [List.reverse_cons, cSum_rotate]
    simp only [cSum]
    rw [← pSum_reverse g hg]
    simp

/-- The triples of a reversed closed polyline. -/
theorem reverse_triples {α : Type} {l : List α} {a b c : α} (h : [a, b, c] <:+: l.reverse ++ l.reverse.take 2) :
    [c, b, a] <:+: l ++ l.take 2 := by
  have h' : [c, b, a] <:+: (l.reverse.take 2).reverse ++ l := by
    have := List.reverse_infix.2 h
    simpa using this
  match l, h' with
  | [], h' => simp at h'
  | [x], h' => have := h'.length_le; simp at this
  | x :: y :: r, h' =>
    obtain ⟨X, p, q, hX⟩ : ∃ X p q, x :: y :: r = X ++ [p, q] := by
      have h1 : (x :: y :: r) ≠ [] := by simp
      obtain ⟨L, q, hq⟩ := (List.eq_nil_or_concat (x :: y :: r)).resolve_left h1
      have h2 : L ≠ [] := by rintro rfl; simp at hq
      obtain ⟨X, p, hp⟩ := (List.eq_nil_or_concat L).resolve_left h2
      exact ⟨X, p, q, by rw [hq, hp]; simp⟩
    have e : ((x :: y :: r).reverse.take 2).reverse = [p, q] := by rw [hX]; simp
    rw [e] at h'
    rw [show [p, q] ++ x :: y :: r = p :: q :: x :: y :: r from rfl, List.infix_cons_iff, List.infix_cons_iff] at h'
    rcases h' with h' | h' | h'
    · simp [List.cons_prefix_cons] at h'
      obtain ⟨e1, e2, e3⟩ := h'
      rw [e1, e2, e3, hX]
      have : (X ++ [p, q]).take 2 = [x, y] := by rw [← hX]; simp
      rw [this]
      exact ⟨X, [y], by simp⟩
    · simp [List.cons_prefix_cons] at h'
      obtain ⟨e1, e2, e3⟩ := h'
      rw [e1, e2, e3, hX]
      have : (X ++ [p, q]).take 2 = [x, y] := by rw [← hX]; simp
      rw [this]
      exact ⟨X ++ [p], [], by simp⟩
    · exact h'.trans (List.prefix_append _ _).isInfix

theorem TurnsOnly.reverse {drop : Fin 3} {o : Int} {l : List Q3} (h : TurnsOnly drop o l) :
    TurnsOnly drop (-o) l.reverse := by
  intro a b c habc
  obtain ⟨h1, h2⟩ := h c b a (reverse_triples habc)
  have e : turnAt drop b a c = -turnAt drop b c a := turn_flip _ _ _ _
  rw [e]
  refine ⟨by push_cast; linarith, fun h => by rw [h2 (by omega)]; simp⟩

end Walnut.Mono
