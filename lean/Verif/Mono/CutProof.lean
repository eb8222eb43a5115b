/-
The chains of `MonotoneRange` as parts of the polygon.
-/
import Verif.Mono.RangeProof
import Verif.Mono.Sums

namespace Walnut.Mono
open Walnut.Geom

variable {α : Type}

theorem cSum_append_comm (g : α → α → ℚ) : ∀ (X Y : List α), cSum g (X ++ Y) = cSum g (Y ++ X) := by
  intro X
  induction X with
  | nil => simp
  | cons x X ih =>
    intro Y
    rw [List.cons_append, ← cSum_rotate, List.append_assoc, ih]
    simp

theorem cSum_double (g : α → α → ℚ) (hg : ∀ a, g a a = 0) (X Y : List α) (a : α) :
    cSum g (X ++ [a, a] ++ Y) = cSum g (X ++ [a] ++ Y) := by
  have := cSum_replace g (M := [a, a]) (M' := [a]) (c := 0) (x := a) (y := a) (by simp [pSum, hg]) rfl rfl rfl rfl X Y
  simpa using this

/-- Cutting a closed polyline conserves the sum. -/
theorem Cut.sum {all c1 c2 rest : List α} (h : Cut all c1 c2 rest) (g : α → α → ℚ) (hg : ∀ a b, g a b = -g b a) :
    cSum g all = cSum g (c1 ++ c2) + cSum g rest := by
  obtain ⟨p1, p2, p3, p4, p5, lo, hi, hall, hc1, hlo, hhi, hc2, hrest⟩ := h
  have g0 : ∀ a, g a a = 0 := fun a => by linarith [hg a a]
  have first : cSum g (c1 ++ c2) = cSum g (p1 ++ p2 ++ p4 ++ p5) := by
    rcases hc2 with hc2 | ⟨ha, hc2⟩
    · obtain ⟨m', rfl⟩ := List.getLast?_eq_some_iff.1 hhi
      rw [hc2, show m' ++ [hi] ++ (hi :: (p2 ++ p4) ++ [lo]) = m' ++ [hi, hi] ++ (p2 ++ p4 ++ [lo]) by simp,
        cSum_double g g0, show m' ++ [hi] ++ (p2 ++ p4 ++ [lo]) = (m' ++ [hi] ++ (p2 ++ p4)) ++ [lo] by simp,
        cSum_rotate]
      have hL : ∃ t, m' ++ [hi] = lo :: t := by
        cases hm : m' ++ [hi] with
        | nil => simp at hm
        | cons a t => rw [hm] at hlo; simp at hlo; exact ⟨t, by rw [hlo]⟩
      obtain ⟨t, ht⟩ := hL
      have e1 : lo :: (m' ++ [hi] ++ (p2 ++ p4)) = [] ++ [lo, lo] ++ (t ++ (p2 ++ p4)) := by rw [ht]; simp
      rw [e1, cSum_double g g0, show [] ++ [lo] ++ (t ++ (p2 ++ p4)) = (lo :: t) ++ (p2 ++ p4) by simp, ← ht, hc1]
      rw [show p5 ++ p1 ++ (p2 ++ p4) = p5 ++ (p1 ++ p2 ++ p4) by simp, cSum_append_comm]
    · have hl : (p1 ++ p2 ++ p3 ++ p4 ++ p5).length = 1 := by rw [← hall, ha]; rfl
      have hz : ∀ l : List α, l.length = 1 → cSum g l = 0 := by
        intro l hl
        obtain ⟨a, rfl⟩ := List.length_eq_one_iff.1 hl
        simp [cSum, pSum, g0]
      have hne : c1 ≠ [] := by intro hc; simp [hc] at hlo
      have hpos : 0 < (p5 ++ p1).length := by rw [← hc1]; exact List.length_pos_iff.2 hne
      have hsub : ∀ v ∈ c1, v = lo := by
        intro v hv
        have : v ∈ all := by rw [hall]; rw [hc1] at hv; simp at hv ⊢; tauto
        rw [ha] at this; simpa using this
      simp at hl hpos
      have hc1l : c1.length = 1 := by rw [hc1]; simp; omega
      obtain ⟨a, rfl⟩ := List.length_eq_one_iff.1 hc1l
      have ea : a = lo := hsub a (by simp)
      subst ea
      rw [hc2, hz (p1 ++ p2 ++ p4 ++ p5) (by simp; omega)]
      simp [cSum, pSum, g0]
  rw [first, hall]
  rcases hrest with ⟨rfl, rfl⟩ | ⟨x, y, hx, hy, rfl⟩
  · simp [cSum]
  · obtain ⟨A, hA⟩ := List.getLast?_eq_some_iff.1 hx
    obtain ⟨B, hB⟩ : ∃ B, p4 ++ p5 = y :: B := by
      cases hm : p4 ++ p5 with
      | nil => simp [hm] at hy
      | cons a t => rw [hm] at hy; simp at hy; exact ⟨t, by rw [hy]⟩
    rw [show p1 ++ p2 ++ p3 ++ p4 ++ p5 = (p1 ++ p2) ++ p3 ++ (p4 ++ p5) by simp,
      show p1 ++ p2 ++ p4 ++ p5 = (p1 ++ p2) ++ (p4 ++ p5) by simp, hA, hB]
    have := cSum_replace g (M := x :: p3 ++ [y]) (M' := [x, y]) (c := cSum g (x :: p3 ++ [y])) (x := x) (y := y) (by
      simp only [cSum, pSum, List.cons_append, List.append_assoc, List.nil_append]
      rw [show x :: (p3 ++ [y, x]) = (x :: p3) ++ y :: [x] by simp, pSum_append]
      simp only [pSum, List.cons_append]
      linarith [hg x y]) rfl rfl (by rw [List.getLast?_append]; rfl) rfl A B
    rw [show A ++ [x] ++ p3 ++ y :: B = A ++ (x :: p3 ++ [y]) ++ B by simp, this]
    simp; ring

/-! ### the chains -/

section
variable {vs : List HP3}

theorem seg_append {i j k : Nat} (h1 : i ≤ j) (h2 : j ≤ k) (h3 : k ≤ vs.length) :
    seg vs i j ++ seg vs j k = seg vs i k := by
  apply List.ext_getElem?
  intro n
  have hl : (seg vs i j).length = j - i := seg_length (by omega)
  by_cases hn : n < j - i
  · rw [List.getElem?_append_left (by omega), seg_get (by omega), seg_get (by omega)]
  · rw [List.getElem?_append_right (by omega), hl]
    by_cases hk : i + n < k
    · rw [seg_get (by omega), seg_get hk]; congr 1; omega
    · rw [List.getElem?_eq_none (by rw [seg_length (by omega)]; omega),
        List.getElem?_eq_none (by rw [seg_length (by omega)]; omega)]

theorem seg_one {i : Nat} {x : HP3} (h : vs[i]? = some x) : seg vs i (i + 1) = [x] := by
  have hi : i < vs.length := by
    by_contra hc; rw [List.getElem?_eq_none (by omega)] at h; simp at h
  obtain ⟨a, ha⟩ := List.length_eq_one_iff.1 (show (seg vs i (i + 1)).length = 1 by rw [seg_length (by omega)]; omega)
  have := seg_get (vs := vs) (i := i) (j := i + 1) (k := 0) (by omega)
  rw [ha] at this ⊢
  simp at this
  rw [h] at this; simpa using this

theorem seg_head {i j : Nat} (h : i < j) (_ : j ≤ vs.length) : (seg vs i j).head? = vs[i]? := by
  rw [List.head?_eq_getElem?, seg_get (by omega)]; simp

theorem seg_last {i j : Nat} (h : i < j) (hj : j ≤ vs.length) : (seg vs i j).getLast? = vs[j - 1]? := by
  rw [List.getLast?_eq_getElem?, seg_length hj, seg_get (by omega)]; congr 1; omega

theorem seg_nil {i : Nat} (h : i ≤ vs.length) : seg vs i i = [] := by
  rw [← List.length_eq_zero_iff, seg_length h]; omega

theorem seg_cons {i j : Nat} {x : HP3} (h : vs[i]? = some x) (h1 : i < j) (h2 : j ≤ vs.length) :
    seg vs i j = x :: seg vs (i + 1) j := by
  rw [← seg_append (j := i + 1) (by omega) h1 h2, seg_one h]; rfl

theorem seg_snoc {i j : Nat} {x : HP3} (h : vs[j]? = some x) (h1 : i ≤ j) (h2 : j < vs.length) :
    seg vs i (j + 1) = seg vs i j ++ [x] := by
  rw [← seg_append (j := j) (by omega) (by omega) h2, seg_one h]

variable {mono : Fin 3} {dir : Int} {rb re : Nat} {r : MRange} {b3 b5 e6 e2 : Nat}

/-- The two chains and the remaining range are a cut of the input range. -/
theorem Steps.cut (h : Steps vs mono dir rb re r b3 b5 e6 e2) (hre : re ≤ vs.length) :
    Cut (seg vs rb re) r.chain1 r.chain2 (seg vs r.first r.last) := by
  obtain ⟨i1, i2, i3, i4, i5, res, -, -, -, -, -, -, -, -⟩ := h
  have get : ∀ i, i < vs.length → ∃ v, vs[i]? = some v := fun i hi => ⟨_, List.getElem?_eq_getElem hi⟩
  obtain ⟨lo, hlo⟩ := get e2 (by omega)
  obtain ⟨hi, hhi⟩ := get (b3 - 1) (by omega)
  refine ⟨seg vs rb b3, seg vs b3 b5, seg vs b5 e6, seg vs e6 e2, seg vs e2 re, lo, hi, ?_, by rw [res], ?_, ?_, ?_, ?_⟩
  · rw [seg_append (by omega) (by omega) (by omega), seg_append (by omega) (by omega) (by omega),
      seg_append (by omega) (by omega) (by omega), seg_append (by omega) (by omega) (by omega)]
  · rw [res]
    simp only
    rw [List.head?_append, seg_head (by omega) (by omega), hlo]; rfl
  · rw [res]
    simp only
    rw [List.getLast?_append, seg_last (by omega) (by omega), hhi]; rfl
  · left
    rw [res]
    simp only
    rw [seg_cons hhi (by omega) (by omega), seg_snoc hlo (by omega) (by omega), show b3 - 1 + 1 = b3 by omega]
    simp
  · by_cases hc : b5 = e6
    · left
      rw [res]
      simp only [if_pos hc]
      subst hc
      exact ⟨seg_nil (by omega), seg_nil (by omega)⟩
    · right
      obtain ⟨x, hx⟩ := get (b5 - 1) (by omega)
      obtain ⟨y, hy⟩ := get e6 (by omega)
      refine ⟨x, y, ?_, ?_, ?_⟩
      · rw [seg_append (by omega) (by omega) (by omega), seg_last (by omega) (by omega), hx]
      · rw [seg_append (by omega) (by omega) (by omega), seg_head (by omega) (by omega), hy]
      · rw [res]
        simp only [if_neg hc]
        rw [seg_cons hx (by omega) (by omega), seg_snoc hy (by omega) (by omega), show b5 - 1 + 1 = b5 by omega]
        simp

theorem seg_chain {R : HP3 → HP3 → Prop} {i j : Nat} (hj : j ≤ vs.length)
    (h : ∀ k a b, i ≤ k → k + 1 < j → vs[k]? = some a → vs[k + 1]? = some b → R a b) : (seg vs i j).IsChain R := by
  rw [List.isChain_iff_getElem]
  intro n hn
  rw [seg_length hj] at hn
  refine h (i + n) _ _ (by omega) (by omega) ?_ ?_
  · rw [← seg_get (j := j) (by omega)]; exact List.getElem?_eq_getElem _
  · rw [show i + n + 1 = i + (n + 1) by omega, ← seg_get (j := j) (by omega)]; exact List.getElem?_eq_getElem _

theorem Steps.chains (h : Steps vs mono dir rb re r b3 b5 e6 e2) (hre : re ≤ vs.length) :
    r.chain1.Pairwise (fun a b => key mono dir a ≤ key mono dir b) ∧
    r.chain2.Pairwise (fun a b => key mono dir b ≤ key mono dir a) := by
  obtain ⟨i1, i2, i3, i4, i5, res, u1, u2, u3, d1, d2, d3, -, -⟩ := h
  constructor
  · rw [res]
    simp only
    refine (List.isChain_iff_pairwise (R := fun a b => key mono dir a ≤ key mono dir b)).1 ?_
    refine List.IsChain.append ?_ ?_ ?_
    · refine seg_chain (by omega) fun k a b hk hk2 ha hb => ?_
      rw [← K_eq ha, ← K_eq hb]; exact u1 k hk hk2
    · refine seg_chain (by omega) fun k a b hk hk2 ha hb => ?_
      rw [← K_eq ha, ← K_eq hb]; exact u3 k hk hk2
    · intro x hx y hy
      rw [seg_last (by omega) (by omega)] at hx
      rw [seg_head (by omega) (by omega)] at hy
      rw [← K_eq hx, ← K_eq hy]; exact u2
  · rw [res]
    simp only
    refine (List.isChain_iff_pairwise (R := fun a b => key mono dir b ≤ key mono dir a)).1 ?_
    refine List.IsChain.append ?_ ?_ ?_
    · refine seg_chain (by omega) fun k a b hk hk2 ha hb => ?_
      rw [← K_eq ha, ← K_eq hb]; exact d1 k hk hk2
    · refine seg_chain (by omega) fun k a b hk hk2 ha hb => ?_
      rw [← K_eq ha, ← K_eq hb]; exact d3 k hk (by omega)
    · intro x hx y hy
      rw [seg_last (by omega) (by omega)] at hx
      rw [seg_head (by omega) (by omega)] at hy
      rw [← K_eq hx, ← K_eq hy]; exact d2

/-- The only inputs of which nothing is consumed. -/
theorem Steps.stuck_iff (h : Steps vs mono dir rb re r b3 b5 e6 e2) :
    r.first = rb ∧ r.last = re ↔
      K vs mono dir (rb + 1) < K vs mono dir (re - 1) ∧ K vs mono dir (re - 1) < K vs mono dir rb ∧
        K vs mono dir rb < K vs mono dir (re - 2) := by
  obtain ⟨i1, i2, i3, i4, i5, res, u1, u2, u3, d1, d2, d3, hlt, st⟩ := h
  constructor
  · rintro ⟨h1, h2⟩
    rw [res] at h1 h2
    simp only at h1 h2
    by_cases hc : b5 = e6
    · rw [if_pos hc] at h1; omega
    · rw [if_neg hc] at h1 h2
      obtain ⟨s1, s2⟩ := st (by omega) h2 hc
      refine ⟨by rw [show rb + 1 = b5 by omega]; exact s1, ?_, by rw [show re - 2 = e6 - 1 by omega]; exact s2⟩
      rw [show re - 1 = e2 by omega, show rb = b3 - 1 by omega]; exact hlt
  · rintro ⟨k1, k2, k3⟩
    have q1 : b3 = rb + 1 := by
      by_contra hc
      have := u3 rb le_rfl (by omega)
      linarith
    have q2 : e2 = re - 1 := by
      by_contra hc
      have := u1 (re - 2) (by omega) (by omega)
      rw [show re - 2 + 1 = re - 1 by omega] at this
      linarith
    have up : ∀ t, b3 - 1 + t < b5 → K vs mono dir (b3 - 1 + t) ≤ K vs mono dir (b3 - 1) := by
      intro t
      induction t with
      | zero => intro _; simp
      | succ t ih => intro ht; exact (d1 (b3 - 1 + t) (by omega) (by omega)).trans (ih (by omega))
    have dn : ∀ t, e6 + t ≤ e2 → K vs mono dir (e6 + t) ≤ K vs mono dir e6 := by
      intro t
      induction t with
      | zero => intro _; simp
      | succ t ih => intro ht; exact (d3 (e6 + t) (by omega) (by omega)).trans (ih (by omega))
    have q3 : b5 = rb + 1 := by
      by_contra hc
      have up1 : ∀ t, rb + 1 + t < b5 → K vs mono dir (rb + 1 + t) ≤ K vs mono dir (rb + 1) := by
        intro t
        induction t with
        | zero => intro _; simp
        | succ t ih => intro ht; exact (d1 (rb + 1 + t) (by omega) (by omega)).trans (ih (by omega))
      have h1 := up1 (b5 - 1 - (rb + 1)) (by omega)
      rw [show rb + 1 + (b5 - 1 - (rb + 1)) = b5 - 1 by omega] at h1
      have h2 := dn (e2 - e6) (by omega)
      rw [show e6 + (e2 - e6) = re - 1 by omega] at h2
      linarith
    have q4 : e6 = re - 1 := by
      by_contra hc
      have h2 := dn (re - 2 - e6) (by omega)
      rw [show e6 + (re - 2 - e6) = re - 2 by omega] at h2
      rw [show b5 - 1 = rb by omega] at d2
      linarith
    have q5 : b5 ≠ e6 := by
      intro hc
      rw [show rb + 1 = re - 1 by omega] at k1
      exact lt_irrefl _ k1
    rw [res]
    simp only [if_neg q5]
    omega

/-- If something is consumed, the range that remains is shorter. -/
theorem Steps.shorter (h : Steps vs mono dir rb re r b3 b5 e6 e2) :
    rb ≤ r.first ∧ r.first ≤ r.last ∧ r.last ≤ re := by
  obtain ⟨i1, i2, i3, i4, i5, res, -⟩ := h
  rw [res]
  simp only
  split <;> omega

end

end Walnut.Mono
