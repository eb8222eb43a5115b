/-
The bounding box tracker through splits.
-/
import Verif.Poly.TrackProof
import Verif.Props.Split

namespace Walnut.Poly
open Walnut.Geom Walnut.Props

variable {D : Type}

/-! ### The start of the negative range -/

theorem skip_le (f : Nat → Bool) {n i : Nat} (h : i ≤ n) : skip f n i ≤ n := (skip_spec f n i h).2.1

theorem sides_neg {c : Int} {x y : Nat × Nat} {n : Nat} (h1 : x.1 ≤ n) (h2 : y.1 ≤ n) : (sides c x y).neg.1 ≤ n := by
  unfold sides; split
  · exact h1
  · exact h2

theorem linearSecond_first {n : Nat} {c : Nat → Int} {i f : Nat} (hi : i < n) {r : Ranges}
    (h : linearSecond n c i f = some r) : r.neg.1 ≤ n := by
  unfold linearSecond at h
  simp only at h
  split_ifs at h
  · rw [← Option.some.inj h]; exact sides_neg (Nat.zero_le _) (by simp only; omega)
  · rw [← Option.some.inj h]; exact sides_neg (Nat.zero_le _) (by simp only; omega)
  · rw [← Option.some.inj h]
    exact sides_neg (skip_le _ (skip_le _ (by omega))) (by simp only; omega)

theorem linear_first {n : Nat} {c : Nat → Int} {r : Ranges} (h : linear n c = some r) : r.neg.1 ≤ n := by
  unfold linear at h
  by_cases hn : n = 0
  · rw [if_pos hn] at h; simp at h
  rw [if_neg hn] at h
  split_ifs at h with c0
  · simp only at h
    have ha := skip_le (fun k => decide (c k = 0)) (show 1 ≤ n by omega)
    generalize skip (fun k => decide (c k = 0)) n 1 = a at *
    by_cases h1 : a = n
    · rw [if_pos h1] at h; simp at h
    rw [if_neg h1] at h
    have hj := skip_le (fun k => decide (c k ≠ 0) && !xorNeg (c a) (c k)) (show a + 1 ≤ n by omega)
    generalize skip (fun k => decide (c k ≠ 0) && !xorNeg (c a) (c k)) n (a + 1) = j at *
    by_cases h2 : j = n
    · rw [if_pos h2] at h
      rw [← Option.some.inj h]; exact sides_neg ha (Nat.zero_le _)
    rw [if_neg h2] at h
    by_cases h3 : c j = 0
    · rw [if_pos h3] at h
      have hk := skip_le (fun k => decide (c k = 0)) (show j + 1 ≤ n by omega)
      generalize skip (fun k => decide (c k = 0)) n (j + 1) = k at *
      split_ifs at h
      · rw [← Option.some.inj h]; exact sides_neg ha (Nat.zero_le _)
      · rw [← Option.some.inj h]; exact sides_neg ha hk
    · rw [if_neg h3] at h
      rw [← Option.some.inj h]; exact sides_neg ha hj
  · simp only at h
    have hj := skip_le (fun k => decide (c k ≠ 0) && !xorNeg (c 0) (c k)) (show 1 ≤ n by omega)
    generalize skip (fun k => decide (c k ≠ 0) && !xorNeg (c 0) (c k)) n 1 = j at *
    by_cases h2 : j = n
    · rw [if_pos h2] at h
      rw [← Option.some.inj h]; exact sides_neg (Nat.zero_le _) (Nat.zero_le _)
    rw [if_neg h2] at h
    by_cases h3 : c j = 0
    · rw [if_pos h3] at h
      have hk := skip_le (fun k => decide (c k = 0)) (show j + 1 ≤ n by omega)
      generalize skip (fun k => decide (c k = 0)) n (j + 1) = k at *
      by_cases h4 : k = n
      · rw [if_pos h4] at h
        rw [← Option.some.inj h]; exact sides_neg (Nat.zero_le _) (Nat.zero_le _)
      rw [if_neg h4] at h
      split_ifs at h
      · exact linearSecond_first (by omega) h
      · rw [← Option.some.inj h]; exact sides_neg hk (Nat.zero_le _)
    · rw [if_neg h3] at h
      exact linearSecond_first (by omega) h

theorem lastNegLoop_lt {n : Nat} (hn : 0 < n) (c : Nat → Int) : ∀ (f b : Nat) (bt : Int) (t : Nat), t - b ≤ f →
    (lastNegLoop n c b bt t).2 < n := by
  intro f
  induction f with
  | zero =>
    intro b bt t h
    unfold lastNegLoop
    rw [dif_neg (by omega)]; exact Nat.mod_lt _ hn
  | succ f ih =>
    intro b bt t h
    unfold lastNegLoop
    split_ifs
    · exact ih _ _ _ (by omega)
    · exact ih _ _ _ (by omega)
    · exact Nat.mod_lt _ hn

theorem lastNeg_lt {n : Nat} {c : Nat → Int} {a : Nat} {t : Int} {p : Nat} {x : Int × Nat} (h : lastNeg n c a t p = some x) :
    x.2 < n := by
  unfold lastNeg greaterCycle at h
  by_cases hc : p + n < a ∨ n = 0
  · rw [if_pos hc] at h; simp at h
  · rw [if_neg hc] at h
    simp only at h
    split_ifs at h
    rw [← Option.some.inj h]
    exact lastNegLoop_lt (by omega) c _ _ _ _ le_rfl

theorem bisect_first {n : Nat} {c cn e en : Nat → Int} {far : Bool → Nat → Bool} {r : Ranges}
    (h : bisect n c cn e en far = some r) (h1 : r.emitNeg = true) (h2 : r.emitPos = true) : r.neg.1 ≤ n := by
  unfold bisect at h
  split at h
  · simp at h
  · split at h
    · simp at h
    · rename_i negT negI _
      by_cases c1 : 0 ≤ -negT
      · rw [if_pos c1] at h
        split_ifs at h
        · obtain ⟨x, _, rfl⟩ := Option.map_eq_some_iff.1 h
          simp [Ranges.emitNeg] at h1
        · rw [← Option.some.inj h] at h1
          simp [Ranges.emitNeg] at h1
      · rw [if_neg c1] at h
        split at h
        · simp at h
        · rename_i posT posI _
          by_cases c2 : posT ≤ 0
          · rw [if_pos c2] at h
            split_ifs at h
            · obtain ⟨x, _, rfl⟩ := Option.map_eq_some_iff.1 h
              simp [Ranges.emitPos] at h2
            · rw [← Option.some.inj h] at h2
              simp [Ranges.emitPos] at h2
          · rw [if_neg c2] at h
            split at h
            · rename_i e1 e2
              split at h
              · rw [← Option.some.inj h]
                have := lastNeg_lt e2
                simp only at this ⊢
                omega
              · simp at h
            · simp at h

theorem splitInfo_first {P : Polygon D} {g : HS3} {s : SplitInfo} (h : P.splitInfo g = some s)
    (h1 : s.ranges.emitNeg = true) (h2 : s.ranges.emitPos = true) : s.ranges.neg.1 ≤ P.count := by
  by_cases hv : (PL.ofPlanes P.plane g).isValid = true
  · rw [splitInfo_cross P g hv] at h
    split at h
    · simp at h
    · rename_i r hr
      have hsr : s.ranges = r := by
        by_cases c1 : r.isValid P.count = false
        · rw [if_pos c1] at h; simp at h
        rw [if_neg c1] at h
        by_cases c2 : (!r.emitPos || !r.emitNeg) = true
        · rw [if_pos c2] at h
          rw [← Option.some.inj h]
        · rw [if_neg c2] at h
          unfold Polygon.splitPoints at h
          simp only [Option.ite_none_right_eq_some] at h
          rw [← Option.some.inj h.2]
      rw [hsr] at h1 h2 ⊢
      split at hr
      · exact linear_first hr
      · unfold Polygon.findBisect at hr
        split_ifs at hr
        exact bisect_first hr h1 h2
  · have hv' : (PL.ofPlanes P.plane g).isValid = false := by simpa using hv
    unfold Polygon.splitInfo at h
    simp only [hv', if_true] at h
    split_ifs at h <;> rw [← Option.some.inj h] <;> simp

/-! ### One component -/

theorem splitIndices_spec {P N Q : Polygon D} {g : HS3} {a m b k : Nat} {t u : ℚ} (h : IsConvexPolygon P)
    (sh : SplitShape P N Q g a m b k t u) {r : Ranges} (ra : a = r.neg.1) (rm : m = r.neg.2 - r.neg.1)
    (rb : b % P.count = r.pos.1 % P.count) (rk : k = r.pos.2 - r.pos.1) (ha : a ≤ P.count)
    (hN : N.region = P.region ∩ {q | g.side q ≤ 0}) (hQ : Q.region = P.region ∩ {q | 0 ≤ g.side q})
    (idx : Fin 3 → Nat) (mult : Int) (hmult : mult = 1 ∨ mult = -1) (c : Fin 3) (hidx : idx c < P.count)
    (hext : ∀ j, j < P.count → (mult : ℚ) * P.pt j c ≤ mult * P.pt (idx c) c) :
    ∃ x, splitIndices idx mult P.count N Q r c = some x ∧ x.neg < N.count ∧ x.pos < Q.count ∧
      (∀ j, j < N.count → (mult : ℚ) * N.pt j c ≤ mult * N.pt x.neg c) ∧
      (∀ j, j < Q.count → (mult : ℚ) * Q.pt j c ≤ mult * Q.pt x.pos c) ∧
      (x.negModified = false → N.pt x.neg = P.pt (idx c)) ∧ (x.posModified = false → Q.pt x.pos = P.pt (idx c)) := by
  have hn := h.count_pos
  have hm := sh.cut.m1
  have hk := sh.cut.k1
  have gap2 := sh.cut.gap2
  have gap1 := sh.cut.gap1
  have hNc := sh.ncount
  have hQc := sh.qcount
  have hpe : P.pt (idx c) ∈ P.region := subset_convexHull _ _ ⟨_, hidx, rfl⟩
  have hR : Convex ℚ P.region := convex_convexHull _ _
  -- every vertex of a child is bounded by the parent's extreme
  have nIn : ∀ j, j < N.count → N.pt j ∈ N.region := fun j hj => subset_convexHull _ _ ⟨j, hj, rfl⟩
  have qIn : ∀ j, j < Q.count → Q.pt j ∈ Q.region := fun j hj => subset_convexHull _ _ ⟨j, hj, rfl⟩
  have nLe : ∀ j, j < N.count → (mult : ℚ) * N.pt j c ≤ mult * P.pt (idx c) c := by
    intro j hj
    have := nIn j hj
    rw [hN] at this
    exact hull_le hext this.1
  have qLe : ∀ j, j < Q.count → (mult : ℚ) * Q.pt j c ≤ mult * P.pt (idx c) c := by
    intro j hj
    have := qIn j hj
    rw [hQ] at this
    exact hull_le hext this.1
  -- the shared vertices
  have n2 : N.pt m = cross3 P (a + m - 1) t := by rw [sh.npt m (by omega)]; simp
  have n1 : N.pt (m + 1) = cross3 P (a + P.count - 1) u := by rw [sh.npt (m + 1) (by omega)]; simp
  have q2 : Q.pt 0 = cross3 P (a + m - 1) t := by rw [sh.qpt 0 (by omega)]; simp
  have q1 : Q.pt (k + 1) = cross3 P (a + P.count - 1) u := by rw [sh.qpt (k + 1) (by omega)]; simp
  have s2 := SplitShape.s2_side h sh
  have s1 := SplitShape.s1_side h sh
  have side0 := SplitShape.pt_side h
  have fneg : ∀ i, a ≤ i → i < a + m → g.side (P.pt (i % P.count)) < 0 := by
    intro i a1 a2
    rw [← SplitShape.aff_pt h (side0 i)]; exact sh.cut.neg i a1 a2
  have fpos : ∀ i, b ≤ i → i < b + k → 0 < g.side (P.pt (i % P.count)) := by
    intro i a1 a2
    rw [← SplitShape.aff_pt h (side0 i)]; exact sh.cut.pos i a1 a2
  -- the comparison of the shared vertices
  have hcmp : ∀ p q : HP3, p.w ≠ 0 → q.w ≠ 0 → (p.compareComponent c q * mult > 0 ↔ (mult : ℚ) * q.pt c < mult * p.pt c) := by
    intro p q hp hq
    obtain ⟨c1, c2, c3, _⟩ := C16_compare_component p q c hp hq
    rcases hmult with rfl | rfl
    · simp only [mul_one, Int.cast_one, one_mul]; exact c3
    · push_cast
      rw [show p.compareComponent c q * -1 > 0 ↔ p.compareComponent c q < 0 by omega, c1]
      constructor <;> intro h' <;> linarith
  have hc12 := hcmp (N.vertexD (m + 1)) (Q.vertexD 0) (sh.nfin _ (by omega)) (sh.qfin _ (by omega))
  change _ ↔ (mult : ℚ) * Q.pt 0 c < mult * N.pt (m + 1) c at hc12
  -- positions
  obtain ⟨x, hx⟩ : ∃ x, x = (idx c + (P.count - a)) % P.count := ⟨_, rfl⟩
  have hxl : x < P.count := by rw [hx]; exact Nat.mod_lt _ hn
  have hxe : (a + x) % P.count = idx c := by
    rw [hx, Nat.add_mod_mod, show a + (idx c + (P.count - a)) = idx c + P.count by omega, Nat.add_mod_right, Nat.mod_eq_of_lt hidx]
  have hps : (r.pos.1 + (P.count - a)) % P.count = b - a := by
    rw [Nat.add_mod, ← rb, ← Nat.add_mod, show b + (P.count - a) = (b - a) + P.count by omega, Nat.add_mod_right,
      Nat.mod_eq_of_lt (by omega)]
  have nAt : ∀ i, i < m → N.pt i = P.pt ((a + i) % P.count) := by
    intro i hi; rw [sh.npt i (by omega), if_pos hi]
  have qAt : ∀ i, 1 ≤ i → i ≤ k → Q.pt i = P.pt ((b + i - 1) % P.count) := by
    intro i h1 h2; rw [sh.qpt i (by omega), if_neg (by omega), if_pos h2]
  unfold splitIndices
  simp only
  rw [← ra, ← rk, hps, ← hx, show r.neg.2 - a = m by omega]
  unfold splitComponent
  by_cases c1 : x < m
  · rw [if_pos c1]
    have heN : N.pt x = P.pt (idx c) := by rw [nAt x c1, hxe]
    have hes : g.side (P.pt (idx c)) < 0 := by rw [← hxe]; exact fneg _ (by omega) (by omega)
    have bound : ∀ M, (mult : ℚ) * Q.pt 0 c ≤ M → (mult : ℚ) * Q.pt (k + 1) c ≤ M → ∀ j, j < Q.count → (mult : ℚ) * Q.pt j c ≤ M := by
      intro M b1 b2 j hj
      refine cut_le (n := Q.count) (v := Q.pt) hR g 1 (by simpa [Polygon.region] using hQ) (fun i hi hz => ?_) hpe (by linarith) qLe hj
      rw [one_mul] at hz
      rcases (show i = 0 ∨ i = k + 1 ∨ (1 ≤ i ∧ i ≤ k) by omega) with rfl | rfl | ⟨i1, i2⟩
      · exact b1
      · exact b2
      · have := fpos (b + i - 1) (by omega) (by omega)
        rw [qAt i i1 i2] at hz; linarith
    refine ⟨_, rfl, by simp only; omega, by simp only; split <;> omega, fun j hj => ?_, fun j hj => ?_, fun _ => heN, by simp⟩
    · simp only; rw [heN]; exact nLe j hj
    · simp only
      split
      · rename_i hgt
        have := hc12.1 hgt
        rw [n1, ← q1] at this
        exact bound _ this.le le_rfl j hj
      · rename_i hgt
        have : ¬ _ := fun h' => hgt (hc12.2 h')
        rw [n1, ← q1, not_lt] at this
        exact bound _ le_rfl this j hj
  · rw [if_neg c1]
    by_cases c2 : x ≥ b - a
    · rw [if_pos c2]
      by_cases c3 : x < b - a + k
      · rw [if_pos c3]
        have heQ : Q.pt (x - (b - a) + 1) = P.pt (idx c) := by
          rw [qAt _ (by omega) (by omega), ← hxe]; congr 2; omega
        have hes : 0 < g.side (P.pt (idx c)) := by rw [← hxe]; exact fpos _ (by omega) (by omega)
        have bound : ∀ M, (mult : ℚ) * N.pt m c ≤ M → (mult : ℚ) * N.pt (m + 1) c ≤ M → ∀ j, j < N.count → (mult : ℚ) * N.pt j c ≤ M := by
          intro M b1 b2 j hj
          refine cut_le (n := N.count) (v := N.pt) hR g (-1) (by simpa [Polygon.region] using hN) (fun i hi hz => ?_) hpe (by linarith) nLe hj
          rcases (show i = m ∨ i = m + 1 ∨ i < m by omega) with rfl | rfl | i1
          · exact b1
          · exact b2
          · have := fneg (a + i) (by omega) (by omega)
            rw [nAt i i1] at hz; linarith
        refine ⟨_, rfl, by simp only; split <;> omega, by simp only; omega, fun j hj => ?_, fun j hj => ?_, by simp, fun _ => heQ⟩
        · simp only
          split
          · rename_i hgt
            have := hc12.1 hgt
            rw [q2, ← n2] at this
            exact bound _ this.le le_rfl j hj
          · rename_i hgt
            have : ¬ _ := fun h' => hgt (hc12.2 h')
            rw [q2, ← n2, not_lt] at this
            exact bound _ le_rfl this j hj
        · simp only; rw [heQ]; exact qLe j hj
      · rw [if_neg c3, if_pos (by omega)]
        obtain ⟨g1, hu⟩ : a + P.count = b + k + 1 ∧ u = 0 := by
          rcases gap1 with g1 | g1
          · omega
          · exact g1
        have e1 : cross3 P (a + P.count - 1) u = P.pt (idx c) := by
          rw [hu, ← hxe]
          unfold cross3
          rw [lerp3_zero]; congr 2; omega
        refine ⟨_, rfl, by simp only; omega, by simp only; omega, fun j hj => ?_, fun j hj => ?_, fun _ => by simp only; rw [n1, e1],
          fun _ => by simp only; rw [q1, e1]⟩
        · simp only; rw [n1, e1]; exact nLe j hj
        · simp only; rw [q1, e1]; exact qLe j hj
    · rw [if_neg c2, if_pos (by omega)]
      obtain ⟨g2, ht⟩ : b = a + m + 1 ∧ t = 1 := by
        rcases gap2 with g2 | g2
        · omega
        · exact g2
      have e2 : cross3 P (a + m - 1) t = P.pt (idx c) := by
        rw [ht, ← hxe]
        unfold cross3
        rw [lerp3_one]; congr 2; omega
      refine ⟨_, rfl, by simp only; omega, by simp only; omega, fun j hj => ?_, fun j hj => ?_, fun _ => by simp only; rw [n2, e2],
        fun _ => by simp only; rw [q2, e2]⟩
      · simp only; rw [n2, e2]; exact nLe j hj
      · simp only; rw [q2, e2]; exact qLe j hj

theorem three_spec {α : Type} {f : Fin 3 → Option α} {P : Fin 3 → α → Prop} (h : ∀ c, ∃ x, f c = some x ∧ P c x) :
    ∃ v, three f = some v ∧ ∀ c, P c (v c) := by
  obtain ⟨x0, e0, p0⟩ := h 0
  obtain ⟨x1, e1, p1⟩ := h 1
  obtain ⟨x2, e2, p2⟩ := h 2
  refine ⟨![x0, x1, x2], by unfold three; rw [e0, e1, e2], fun c => ?_⟩
  rcases fin3 c with rfl | rfl | rfl
  · exact p0
  · exact p1
  · exact p2

end Walnut.Poly
