/- `SetAdjacentBoundaryAngles` finds the vertices on the split plane by walking around the polygon from one of them.  For a
convex polygon it has the same effect as `SetBoundaryAngles` with the range of the other vertices. -/
import Verif.Bsp.KdSplit
import Verif.Bsp.RouteProof

namespace Walnut.Bsp
open Walnut.Geom Walnut.Poly

theorem coincideLoop_shift (o c : SplitSide) (n : Nat) : ∀ (count : Nat) (l : List (Edge EdgeInfo)) (first first' : Nat), first % n = first' % n →
    coincideLoop o c n l first count = coincideLoop o c n l first' count := by
  intro count
  induction count with
  | zero => intro l first first' _; rfl
  | succ k ih =>
    intro l first first' h
    unfold coincideLoop at ih ⊢
    rw [List.range'_succ, List.range'_succ, List.foldl_cons, List.foldl_cons, h]
    exact ih _ _ _ (by rw [Nat.add_mod, h, ← Nat.add_mod])

/-- Only the residue of the first index and the number of vertices matter. -/
theorem setBoundary_shift (p : BPoly) (c : SplitSide) {f f' len : Nat} (h : f % p.poly.count = f' % p.poly.count) :
    p.setBoundary c f (f + len) = p.setBoundary c f' (f' + len) := by
  unfold BPoly.setBoundary
  by_cases hl : len = 0
  · subst hl; simp
  · rw [if_neg (by omega), if_neg (by omega)]
    have e : ∀ x, x + len - 1 - x = len - 1 := fun x => by omega
    rw [e, e, coincideLoop_shift _ _ _ _ _ f f' h]
    have e2 : (f + len - 1) % p.poly.count = (f' + len - 1) % p.poly.count := by
      rw [Nat.add_sub_assoc (by omega), Nat.add_sub_assoc (by omega), Nat.add_mod, h, ← Nat.add_mod]
    rw [e2]

theorem adjacentBack_spec (p : BPoly) (g : HS3) (a : Nat) : ∀ k, (∃ m, 1 ≤ m ∧ m ≤ k ∧ p.touches g (a + m) = false) →
    ∃ m, p.adjacentBack g a k = some (a + m) ∧ 1 ≤ m ∧ m ≤ k ∧ p.touches g (a + m) = false ∧ ∀ i, m < i → i ≤ k → p.touches g (a + i) = true := by
  intro k
  induction k with
  | zero => rintro ⟨m, h1, h2, _⟩; omega
  | succ k ih =>
    rintro ⟨m, h1, h2, h3⟩
    rw [BPoly.adjacentBack]
    by_cases ht : p.touches g (a + (k + 1)) = true
    · rw [if_pos ht]
      have : m ≠ k + 1 := by rintro rfl; rw [h3] at ht; cases ht
      obtain ⟨x, x1, x2, x3, x4, x5⟩ := ih ⟨m, h1, by omega, h3⟩
      refine ⟨x, x1, x2, by omega, x4, fun i hi hik => ?_⟩
      by_cases hi' : i = k + 1
      · rw [hi']; exact ht
      · exact x5 i hi (by omega)
    · rw [if_neg ht]
      exact ⟨k + 1, rfl, by omega, le_rfl, by simpa using ht, fun i hi hik => by omega⟩

theorem adjacentFwd_spec (p : BPoly) (g : HS3) : ∀ f e, (∃ m, m < f ∧ p.touches g (e + m) = false) →
    ∃ m, p.adjacentFwd g f e = some (e + m) ∧ m < f ∧ p.touches g (e + m) = false ∧ ∀ i, i < m → p.touches g (e + i) = true := by
  intro f
  induction f with
  | zero => rintro e ⟨m, h1, _⟩; omega
  | succ f ih =>
    rintro e ⟨m, h1, h2⟩
    rw [BPoly.adjacentFwd]
    by_cases ht : p.touches g e = true
    · rw [if_pos ht]
      have hm : m ≠ 0 := by rintro rfl; rw [Nat.add_zero, ht] at h2; cases h2
      obtain ⟨x, x1, x2, x3, x4⟩ := ih (e + 1) ⟨m - 1, by omega, by rw [show e + 1 + (m - 1) = e + m by omega]; exact h2⟩
      refine ⟨x + 1, by rw [x1]; congr 1; omega, by omega, by rw [show e + (x + 1) = e + 1 + x by omega]; exact x3, fun i hi => ?_⟩
      by_cases hi' : i = 0
      · subst hi'; exact ht
      · rw [show e + i = e + 1 + (i - 1) by omega]; exact x4 _ (by omega)
    · rw [if_neg ht]
      exact ⟨0, rfl, by omega, by simpa using ht, fun i hi => by omega⟩

theorem residue {n : Nat} (hn : 0 < n) (r B : Nat) : (r + (B % n + n - r % n) % n) % n = B % n := by
  have hm : r % n < n := Nat.mod_lt _ hn
  have e : (r + (B % n + n - r % n)) % n = (r % n + (B % n + n - r % n)) % n := by
    conv_lhs => rw [Nat.add_mod]
    conv_rhs => rw [Nat.add_mod, Nat.mod_mod]
  rw [Nat.add_mod, Nat.mod_mod, ← Nat.add_mod, e, show r % n + (B % n + n - r % n) = B % n + n by omega, Nat.add_mod_right, Nat.mod_mod]

/-- The vertices that are not on the plane are a range, and `a` is on the plane. -/
theorem setAdjacent_eq {p : BPoly} {ref : PlaneRef} {r : Nat × Nat} (hn : 0 < p.poly.count) (h1 : r.1 < r.2) (h2 : r.2 ≤ r.1 + p.poly.count)
    (hr : ∀ i < p.poly.count, (p.touches ref.plane i = false ↔ InRange r p.poly.count i)) {a : Nat} (ha : a < p.poly.count)
    (hat : p.touches ref.plane a = true) (pos : Bool) : p.setAdjacent ref pos a = some (p.setBoundaryExcept ⟨some ref, pos⟩ r) := by
  set n := p.poly.count with hnd
  have tmod : ∀ i, p.touches ref.plane i = p.touches ref.plane (i % n) := by intro i; unfold BPoly.touches; rw [Nat.mod_mod]
  have tshift : ∀ i j, i % n = j % n → p.touches ref.plane i = p.touches ref.plane j := fun i j h => by rw [tmod i, tmod j, h]
  have off : ∀ k, r.1 ≤ k → k < r.2 → p.touches ref.plane k = false := fun k k1 k2 => by
    rw [tmod]; exact (hr _ (Nat.mod_lt _ hn)).2 ⟨k, k1, k2, rfl⟩
  have on : ∀ k, r.2 ≤ k → k < r.1 + n → p.touches ref.plane k = true := fun k k1 k2 => by
    by_contra hc
    rw [Bool.not_eq_true, tmod] at hc
    obtain ⟨k', e1, e2, e3⟩ := (hr _ (Nat.mod_lt _ hn)).1 hc
    have : k' < k ∧ k < k' + n := by omega
    have h0 : (k - k') % n = 0 := (Nat.sub_mod_eq_zero_of_mod_eq e3.symm)
    rw [Nat.mod_eq_of_lt (by omega)] at h0
    omega
  have hne : ∃ m, 1 ≤ m ∧ m ≤ n - 1 ∧ p.touches ref.plane (a + m) = false := by
    refine ⟨(r.1 % n + n - a) % n, ?_, ?_, ?_⟩
    · by_contra hc
      have h0 : (r.1 % n + n - a) % n = 0 := by omega
      have hm : r.1 % n < n := Nat.mod_lt _ hn
      have hd : n ∣ r.1 % n + n - a := Nat.dvd_of_mod_eq_zero h0
      obtain ⟨q, hq⟩ := hd
      have : q = 1 := by nlinarith [Nat.mul_le_mul_left n (Nat.zero_le q), show r.1 % n + n - a < 2 * n by omega, show 0 < r.1 % n + n - a by omega, Nat.pos_of_ne_zero (show q ≠ 0 by rintro rfl; omega), show n * q < 2 * n by omega]
      subst this
      have he : r.1 % n = a := by omega
      have := off r.1 le_rfl h1
      rw [tmod, he, hat] at this
      cases this
    · have := Nat.mod_lt (r.1 % n + n - a) hn; omega
    · rw [tshift _ r.1 (by
        rw [Nat.add_mod, Nat.mod_mod, ← Nat.add_mod, show a + (r.1 % n + n - a) = r.1 % n + n by omega, Nat.add_mod_right, Nat.mod_mod])]
      exact off _ le_rfl h1
  obtain ⟨m, m1, m2, m3, m4, m5⟩ := adjacentBack_spec p ref.plane a (n - 1) hne
  obtain ⟨x, x1, x2, x3, x4⟩ := adjacentFwd_spec p ref.plane n (a + n + 1) ⟨m - 1, by omega, by
    rw [tshift _ (a + m) (by rw [show a + n + 1 + (m - 1) = a + m + n by omega, Nat.add_mod_right])]; exact m4⟩
  have hxm : x ≤ m - 1 := by
    by_contra hc
    have := x4 (m - 1) (by omega)
    rw [tshift _ (a + m) (by rw [show a + n + 1 + (m - 1) = a + m + n by omega, Nat.add_mod_right]), m4] at this
    cases this
  -- the run of vertices on the plane
  set B := a + m + 1 with hB
  set L := n + x - m with hL
  have run : ∀ i, i < L → p.touches ref.plane (B + i) = true := by
    intro i hi
    by_cases c1 : m + 1 + i ≤ n - 1
    · rw [show B + i = a + (m + 1 + i) by omega]; exact m5 _ (by omega) c1
    · by_cases c2 : m + 1 + i = n
      · rw [tshift _ a (by rw [show B + i = a + n by omega, Nat.add_mod_right])]; exact hat
      · rw [show B + i = a + n + 1 + (m + i - n) by omega]; exact x4 _ (by omega)
  have stop : p.touches ref.plane (B + L) = false := by rw [show B + L = a + n + 1 + x by omega]; exact x3
  -- the range begins with the run
  have hBt := run 0 (by omega)
  obtain ⟨j, j1, j2, j3⟩ : ∃ j, r.2 ≤ j ∧ j < r.1 + n ∧ j % n = B % n := by
    by_contra hc
    push Not at hc
    have : InRange r n (B % n) := by
      -- every residue is in one of the ranges
      refine ⟨r.1 + (B % n + n - r.1 % n) % n, by omega, ?_, ?_⟩
      · by_contra hge
        have hlt := Nat.mod_lt (B % n + n - r.1 % n) hn
        refine hc (r.1 + (B % n + n - r.1 % n) % n) (by omega) (by omega) ?_
        exact residue hn _ _
      · exact residue hn _ _
    have := (hr _ (Nat.mod_lt _ hn)).2 this
    rw [← tmod, ← Nat.add_zero B, hBt] at this
    cases this
  have hj : j = r.2 := by
    by_contra hne
    have := on (j - 1) (by omega) (by omega)
    rw [tshift (j - 1) (a + m) (by
      have e : (j - 1 + 1) % n = (a + m + 1) % n := by rw [Nat.sub_add_cancel (by omega)]; exact j3
      exact Nat.ModEq.add_right_cancel' 1 e), m4] at this
    cases this
  subst hj
  have sh : ∀ i, p.touches ref.plane (r.2 + i) = p.touches ref.plane (B + i) := fun i => tshift _ _ (by rw [Nat.add_mod, j3, ← Nat.add_mod])
  have hLen : L = r.1 + n - r.2 := by
    rcases lt_trichotomy L (r.1 + n - r.2) with hlt | he | hgt
    · have := on (r.2 + L) (by omega) (by omega)
      rw [sh, stop] at this; cases this
    · exact he
    · have := run (r.1 + n - r.2) hgt
      rw [← sh, show r.2 + (r.1 + n - r.2) = r.1 + n by omega, tshift _ r.1 (Nat.add_mod_right _ _), off _ le_rfl h1] at this
      cases this
  unfold BPoly.setAdjacent BPoly.setBoundaryExcept
  simp only [← hnd]
  rw [if_neg (by omega), m1]
  simp only
  rw [x1, Option.map_some]
  have hlen : (a + n + 1 + x - (a + m + 1) % n) % n = L := by
    have h0 : (a + m + 1) % n ≤ a + m + 1 := Nat.mod_le _ _
    have hdm := Nat.div_add_mod (a + m + 1) n
    rw [show a + n + 1 + x - (a + m + 1) % n = L + n * ((a + m + 1) / n) by omega, Nat.add_mul_mod_self_left, Nat.mod_eq_of_lt (by omega)]
  rw [hlen, Nat.add_comm L, show n + r.1 = r.2 + L by omega]
  congr 1
  exact setBoundary_shift p _ (by rw [← hnd, Nat.mod_mod]; exact j3.symm)

end Walnut.Bsp
