/-
Where the lines of intersection of planes pass through a facet, summed over the lines in one
plane: only the facet's edges matter.
-/
import Verif.Bsp.WindPlane
import Verif.Bsp.Geometry

namespace Walnut.Bsp
open Walnut.Geom Walnut.Poly

variable {D : Type}

/-- Where the line from `p` to `q` crosses the plane. -/
def cr (a : Pl) (p q : Q3) : Q3 := fun i => (a.val p * q i - a.val q * p i) / (a.val p - a.val q)

theorem cr_swap (a : Pl) (p q : Q3) : cr a q p = cr a p q := by
  funext i
  unfold cr
  rw [← neg_div_neg_eq]
  congr 1 <;> ring

/-- The point is on the side `s k` of the planes `k ∈ S`, other than `a`. -/
def Inside (pl : ℕ → Pl) (S : Finset ℕ) (s : ℕ → ℤ) (a : ℕ) (x : Q3) : Prop := ∀ k ∈ S, k ≠ a → (s k : ℚ) * (pl k).val x < 0

/-- The point is on the side `s k` of the planes `k ∈ S`, other than `a` and `b`. -/
def Inside2 (pl : ℕ → Pl) (S : Finset ℕ) (s : ℕ → ℤ) (a b : ℕ) (x : Q3) : Prop :=
  ∀ k ∈ S, k ≠ a → k ≠ b → (s k : ℚ) * (pl k).val x < 0

/-- The crossing of an edge with the plane `a`, inside of the other planes. -/
noncomputable def bd (pl : ℕ → Pl) (S : Finset ℕ) (s : ℕ → ℤ) (a : ℕ) (p q : Q3) : ℤ :=
  if (pl a).val p < 0 ∧ 0 < (pl a).val q then ind (Inside pl S s a (cr (pl a) p q))
  else if (pl a).val q < 0 ∧ 0 < (pl a).val p then -ind (Inside pl S s a (cr (pl a) p q)) else 0

theorem bd_swap (pl : ℕ → Pl) (S : Finset ℕ) (s : ℕ → ℤ) (a : ℕ) (p q : Q3) : bd pl S s a q p = -bd pl S s a p q := by
  unfold bd
  rw [cr_swap]
  by_cases h1 : (pl a).val p < 0 ∧ 0 < (pl a).val q
  · rw [if_pos h1, if_neg (by intro h; linarith [h.1, h1.2]), if_pos h1]
  · by_cases h2 : (pl a).val q < 0 ∧ 0 < (pl a).val p
    · simp only [h1, h2, and_self, if_true, if_false, neg_neg]
    · simp only [h1, h2, if_false, neg_zero]

/-- The crossing of the facet with the line of intersection of the planes `a` and `b`,
inside of the other planes. -/
noncomputable def term (P : Polygon D) (pl : ℕ → Pl) (S : Finset ℕ) (s : ℕ → ℤ) (a b : ℕ) : ℤ :=
  sgn (det3 P.plane.n.q (pl a).n (pl b).n) *
    ind (meet P.plane.n.q P.plane.d (pl a) (pl b) ∈ P.region ∧ Inside2 pl S s a b (meet P.plane.n.q P.plane.d (pl a) (pl b)))

theorem exists_up {n : ℕ} {f : ℕ → ℚ} (h0 : ∀ i < n, f i ≠ 0) {i j : ℕ} (hi : i < n) (hj : j < n) (fi : f i < 0) (fj : 0 < f j) :
    ∃ k < n, f k < 0 ∧ 0 < f ((k + 1) % n) := by
  by_contra hc
  push Not at hc
  have key : ∀ m, f ((i + m) % n) < 0 := by
    intro m
    induction m with
    | zero => rw [Nat.add_zero, Nat.mod_eq_of_lt hi]; exact fi
    | succ m ih =>
      have h1 : (i + m) % n < n := Nat.mod_lt _ (by omega)
      have := hc _ h1 ih
      rw [Nat.mod_add_mod] at this
      exact lt_of_le_of_ne this (h0 _ (Nat.mod_lt _ (by omega)))
  have := key (j + n - i)
  rw [show i + (j + n - i) = j + n by omega, Nat.add_mod_right, Nat.mod_eq_of_lt hj] at this
  linarith

/-- There is only one edge where the sign changes to the sign of `s`. -/
theorem up_unique {P : Polygon D} (h : IsConvexPolygon P) (g : Pl) (s : ℚ) {i j : ℕ} (hij : i < j) (hj : j < P.count)
    (i1 : 0 < s * g.val (P.pt i)) (i2 : s * g.val (P.pt ((i + 1) % P.count)) < 0)
    (j1 : 0 < s * g.val (P.pt j)) (j2 : s * g.val (P.pt ((j + 1) % P.count)) < 0) : False := by
  have h3 := h.three
  have a1 : i + 1 < j := by
    rcases Nat.lt_or_ge (i + 1) j with c | c
    · exact c
    · have : i + 1 = j := by omega
      rw [Nat.mod_eq_of_lt (by omega), this] at i2
      linarith
  have a2 : j + 1 < i + P.count := by
    rcases Nat.lt_or_ge (j + 1) (i + P.count) with c | c
    · exact c
    · have e1 : j + 1 = P.count := by omega
      have e2 : i = 0 := by omega
      rw [e1, Nat.mod_self] at j2
      rw [e2] at i1
      linarith
  refine no_alternation h g (a := i) (b := i + 1) (c := j) (d := j + 1) (by omega) a1 (by omega) a2 s ?_ i2 ?_ j2
  · rw [Nat.mod_eq_of_lt (by omega)]; exact i1
  · rw [Nat.mod_eq_of_lt hj]; exact j1

theorem cr_spec {a : Pl} {p q : Q3} (h : a.val p * a.val q < 0) :
    ∃ x y : ℚ, 0 ≤ x ∧ 0 ≤ y ∧ x + y = 1 ∧ cr a p q = x • p + y • q ∧ a.val (cr a p q) = 0 := by
  have hne : a.val p - a.val q ≠ 0 := by
    intro e
    rcases mul_neg_iff.1 h with ⟨h1, h2⟩ | ⟨h1, h2⟩ <;> linarith
  have e : cr a p q = (-a.val q / (a.val p - a.val q)) • p + (a.val p / (a.val p - a.val q)) • q := by
    funext i
    unfold cr
    simp only [Pi.add_apply, Pi.smul_apply, smul_eq_mul]
    field_simp
    ring
  have hs : -a.val q / (a.val p - a.val q) + a.val p / (a.val p - a.val q) = 1 := by field_simp; ring
  refine ⟨_, _, ?_, ?_, hs, e, ?_⟩
  · rcases lt_or_gt_of_ne hne with c | c
    · apply div_nonneg_of_nonpos _ c.le
      rcases mul_neg_iff.1 h with ⟨h1, h2⟩ | ⟨h1, h2⟩ <;> linarith
    · apply div_nonneg _ c.le
      rcases mul_neg_iff.1 h with ⟨h1, h2⟩ | ⟨h1, h2⟩ <;> linarith
  · rcases lt_or_gt_of_ne hne with c | c
    · apply div_nonneg_of_nonpos _ c.le
      rcases mul_neg_iff.1 h with ⟨h1, h2⟩ | ⟨h1, h2⟩ <;> linarith
    · apply div_nonneg _ c.le
      rcases mul_neg_iff.1 h with ⟨h1, h2⟩ | ⟨h1, h2⟩ <;> linarith
  · rw [e, a.val_comb hs]; field_simp; ring

theorem region_convex (P : Polygon D) : Convex ℚ P.region := convex_convexHull ℚ _

/-- A point of two planes, seen from another one. -/
theorem on_line {N m p x : Q3} (hu : crossQ N m ≠ 0) (h1 : dotQ N x = dotQ N p) (h2 : dotQ m x = dotQ m p) :
    ∃ t : ℚ, x = p + t • crossQ N m := by
  set u := crossQ N m with hud
  have hpos : 0 < dotQ u u := by
    by_contra hc
    apply hu
    unfold dotQ at hc
    have := mul_self_nonneg (u 0)
    have := mul_self_nonneg (u 1)
    have := mul_self_nonneg (u 2)
    exact q3_ext (by simpa using (mul_self_eq_zero.1 (by linarith : u 0 * u 0 = 0)))
      (by simpa using (mul_self_eq_zero.1 (by linarith : u 1 * u 1 = 0))) (by simpa using (mul_self_eq_zero.1 (by linarith : u 2 * u 2 = 0)))
  refine ⟨dotQ (fun i => x i - p i) u / dotQ u u, ?_⟩
  have k1 : dotQ N (fun i => x i - p i) = 0 := by unfold dotQ at *; linarith
  have k2 : dotQ m (fun i => x i - p i) = 0 := by unfold dotQ at *; linarith
  have u0 : u 0 = N 1 * m 2 - N 2 * m 1 := rfl
  have u1 : u 1 = N 2 * m 0 - N 0 * m 2 := rfl
  have u2 : u 2 = N 0 * m 1 - N 1 * m 0 := rfl
  clear_value u
  have key : ∀ i, dotQ u u * (x i - p i) = dotQ (fun i => x i - p i) u * u i := by
    intro i
    unfold dotQ at k1 k2 ⊢
    rw [u0, u1, u2]
    fin_cases i <;> simp only [Fin.zero_eta, Fin.mk_one, Fin.reduceFinMk] <;> simp only [u0, u1, u2]
    · linear_combination ((N 2 * m 0 - N 0 * m 2) * N 2 - (N 0 * m 1 - N 1 * m 0) * N 1) * k2 -
        ((N 2 * m 0 - N 0 * m 2) * m 2 - (N 0 * m 1 - N 1 * m 0) * m 1) * k1
    · linear_combination ((N 0 * m 1 - N 1 * m 0) * N 0 - (N 1 * m 2 - N 2 * m 1) * N 2) * k2 -
        ((N 0 * m 1 - N 1 * m 0) * m 0 - (N 1 * m 2 - N 2 * m 1) * m 2) * k1
    · linear_combination ((N 1 * m 2 - N 2 * m 1) * N 1 - (N 2 * m 0 - N 0 * m 2) * N 0) * k2 -
        ((N 1 * m 2 - N 2 * m 1) * m 1 - (N 2 * m 0 - N 0 * m 2) * m 0) * k1
  funext i
  simp only [Pi.add_apply, Pi.smul_apply, smul_eq_mul]
  have := key i
  field_simp
  linarith

/-- The turn at an edge of a point moved along the line of intersection with a plane. -/
theorem turn_line {N m a b p : Q3} (he : dotQ N b = dotQ N a) {x y : ℚ} (hxy : x + y = 1) (hp : p = x • a + y • b) (t : ℚ) :
    Poly.turn N a b (p + t • crossQ N m) = t * (dotQ N N * (dotQ m b - dotQ m a)) := by
  subst hp
  obtain rfl : y = 1 - x := by linarith
  unfold Poly.turn
  unfold dotQ at *
  simp only [crossQ_zero, crossQ_one, crossQ_two, Pi.add_apply, Pi.smul_apply, smul_eq_mul]
  linear_combination (-t * (N 0 * m 0 + N 1 * m 1 + N 2 * m 2)) * he

theorem val_line (g : Pl) (N m p : Q3) (t : ℚ) : g.val (p + t • crossQ N m) = g.val p + t * det3 N m g.n := by
  unfold Pl.val det3 dotQ
  simp only [crossQ_zero, crossQ_one, crossQ_two, Pi.add_apply, Pi.smul_apply, smul_eq_mul]
  ring

theorem ind_false_of {p : Prop} (h : ¬ p) : ind p = 0 := ind_false h

/-- The chord of a facet in the plane `a`. -/
theorem chord_sum {P : Polygon D} (h : IsConvexPolygon P) (pl : ℕ → Pl) (S : Finset ℕ) (s : ℕ → ℤ) {a : ℕ} (hs : ∀ k ∈ S, s k = 1 ∨ s k = -1)
    (g1 : ∀ i < P.count, (pl a).val (P.pt i) ≠ 0)
    (g2 : ∀ i < P.count, ∀ k ∈ S, k ≠ a → (pl a).val (P.pt i) * (pl a).val (P.pt ((i + 1) % P.count)) < 0 →
      (pl k).val (cr (pl a) (P.pt i) (P.pt ((i + 1) % P.count))) ≠ 0)
    (g3 : ∀ b ∈ S, ∀ k ∈ S, b ≠ a → k ≠ a → k ≠ b → det3 P.plane.n.q (pl a).n (pl b).n ≠ 0 →
      (pl k).val (meet P.plane.n.q P.plane.d (pl a) (pl b)) ≠ 0) :
    ∑ b ∈ S.erase a, s b * term P pl S s a b = ∑ i ∈ Finset.range P.count, bd pl S s a (P.pt i) (P.pt ((i + 1) % P.count)) := by
  have h3 := h.three
  have hmod : ∀ i, (i + 1) % P.count < P.count := fun i => Nat.mod_lt _ (by omega)
  by_cases hup : ∃ i < P.count, (pl a).val (P.pt i) < 0 ∧ 0 < (pl a).val (P.pt ((i + 1) % P.count))
  · obtain ⟨i, hi, u1, u2⟩ := hup
    obtain ⟨j, hj, d1, d2⟩ : ∃ j < P.count, 0 < (pl a).val (P.pt j) ∧ (pl a).val (P.pt ((j + 1) % P.count)) < 0 := by
      obtain ⟨k, hk, k1, k2⟩ := exists_up (n := P.count) (f := fun i => -(pl a).val (P.pt i)) (fun i hi => neg_ne_zero.2 (g1 i hi))
        (hmod i) hi (by linarith) (by linarith)
      exact ⟨k, hk, by linarith, by linarith⟩
    have iu : ∀ k < P.count, (pl a).val (P.pt k) < 0 → 0 < (pl a).val (P.pt ((k + 1) % P.count)) → k = i := by
      intro k hk k1 k2
      rcases lt_trichotomy k i with c | c | c
      · exact (up_unique h (pl a) (-1) c hi (by linarith) (by linarith) (by linarith) (by linarith)).elim
      · exact c
      · exact (up_unique h (pl a) (-1) c hk (by linarith) (by linarith) (by linarith) (by linarith)).elim
    have ju : ∀ k < P.count, 0 < (pl a).val (P.pt k) → (pl a).val (P.pt ((k + 1) % P.count)) < 0 → k = j := by
      intro k hk k1 k2
      rcases lt_trichotomy k j with c | c | c
      · exact (up_unique h (pl a) 1 c hj (by linarith) (by linarith) (by linarith) (by linarith)).elim
      · exact c
      · exact (up_unique h (pl a) 1 c hk (by linarith) (by linarith) (by linarith) (by linarith)).elim
    have hij : i ≠ j := by rintro rfl; linarith
    -- the right side
    have hR : ∑ i ∈ Finset.range P.count, bd pl S s a (P.pt i) (P.pt ((i + 1) % P.count)) =
        ind (Inside pl S s a (cr (pl a) (P.pt i) (P.pt ((i + 1) % P.count)))) -
          ind (Inside pl S s a (cr (pl a) (P.pt j) (P.pt ((j + 1) % P.count)))) := by
      rw [Finset.sum_eq_add i j hij]
      · rw [sub_eq_add_neg]
        congr 1
        · unfold bd; rw [if_pos ⟨u1, u2⟩]
        · unfold bd; rw [if_neg (by intro c; linarith [c.1]), if_pos ⟨d2, d1⟩]
      · intro k hk hne
        have hk := Finset.mem_range.1 hk
        unfold bd
        rw [if_neg (fun c => hne.1 (iu k hk c.1 c.2)), if_neg (fun c => hne.2 (ju k hk c.2 c.1))]
      · intro hk; exact absurd (Finset.mem_range.2 hi) hk
      · intro hk; exact absurd (Finset.mem_range.2 hj) hk
    rw [hR]
    have ci := mul_neg_of_neg_of_pos u1 u2
    have cj := mul_neg_of_pos_of_neg d1 d2
    have gi := fun k hk hka => g2 i hi k hk hka ci
    have gj := fun k hk hka => g2 j hj k hk hka cj
    obtain ⟨x, y, x0, y0, xy, ep, vp⟩ := cr_spec ci
    obtain ⟨x', y', x0', y0', xy', er, vr⟩ := cr_spec cj
    set p := cr (pl a) (P.pt i) (P.pt ((i + 1) % P.count)) with hp
    set r := cr (pl a) (P.pt j) (P.pt ((j + 1) % P.count)) with hr
    have mp : p ∈ P.region := by rw [ep]; exact region_convex P (pt_mem hi) (pt_mem (hmod i)) x0 y0 xy
    have mr : r ∈ P.region := by rw [er]; exact region_convex P (pt_mem hj) (pt_mem (hmod j)) x0' y0' xy'
    set N := P.plane.n.q with hN
    have onN : ∀ z ∈ P.region, dotQ N z = P.plane.d := by
      intro z hz
      have := SplitShape.region_plane h hz
      rw [side_dot] at this
      linarith
    have NN : 0 < dotQ N N := comp_sq_pos P.plane h.drop
    have ti : ∀ t : ℚ, Poly.turn N (P.pt i) (P.pt ((i + 1) % P.count)) (p + t • crossQ N (pl a).n) =
        t * (dotQ N N * (dotQ (pl a).n (P.pt ((i + 1) % P.count)) - dotQ (pl a).n (P.pt i))) := fun t =>
      turn_line (by rw [onN _ (pt_mem hi), onN _ (pt_mem (hmod i))]) xy ep t
    have tj : ∀ t : ℚ, Poly.turn N (P.pt j) (P.pt ((j + 1) % P.count)) (r + t • crossQ N (pl a).n) =
        t * (dotQ N N * (dotQ (pl a).n (P.pt ((j + 1) % P.count)) - dotQ (pl a).n (P.pt j))) := fun t =>
      turn_line (by rw [onN _ (pt_mem hj), onN _ (pt_mem (hmod j))]) xy' er t
    have ei : 0 < dotQ (pl a).n (P.pt ((i + 1) % P.count)) - dotQ (pl a).n (P.pt i) := by unfold Pl.val at u1 u2; linarith
    have ej : dotQ (pl a).n (P.pt ((j + 1) % P.count)) - dotQ (pl a).n (P.pt j) < 0 := by unfold Pl.val at d1 d2; linarith
    have hu : crossQ N (pl a).n ≠ 0 := by
      intro e
      have h1 := ti 1
      have h0 := ti 0
      rw [e] at h1 h0
      simp only [smul_zero] at h1 h0
      have := mul_pos NN ei
      linarith
    have line : ∀ z, dotQ N z = P.plane.d → (pl a).val z = 0 → ∃ t : ℚ, z = p + t • crossQ N (pl a).n := by
      intro z z1 z2
      refine on_line hu (by rw [z1, onN p mp]) ?_
      unfold Pl.val at z2 vp
      linarith
    obtain ⟨κ, hκ⟩ := line r (onN r mr) vr
    have shift : ∀ t : ℚ, p + t • crossQ N (pl a).n = r + (t - κ) • crossQ N (pl a).n := by
      intro t; rw [hκ, sub_smul]; abel
    have lo : ∀ t : ℚ, p + t • crossQ N (pl a).n ∈ P.region → 0 ≤ t := by
      intro t ht
      have := turn_region h hi ht
      rw [ti t] at this
      exact nonneg_of_mul_nonneg_left this (mul_pos NN ei)
    have hi' : ∀ t : ℚ, p + t • crossQ N (pl a).n ∈ P.region → t ≤ κ := by
      intro t ht
      rw [shift] at ht
      have := turn_region h hj ht
      rw [tj] at this
      have h2 := mul_neg_of_pos_of_neg NN ej
      by_contra hc
      have := mul_neg_of_pos_of_neg (by linarith : 0 < t - κ) h2
      linarith
    have hκ0 : 0 ≤ κ := lo κ (by rw [← hκ]; exact mr)
    have hmeet : ∀ b, det3 N (pl a).n (pl b).n ≠ 0 → ∃ t : ℚ, meet N P.plane.d (pl a) (pl b) = p + t • crossQ N (pl a).n ∧
        (pl b).val p + t * det3 N (pl a).n (pl b).n = 0 := by
      intro b hb
      obtain ⟨m1, m2, m3⟩ := meet_spec (D := (P.plane.d : ℚ)) hb
      obtain ⟨t, ht⟩ := line _ m1 m2
      refine ⟨t, ht, ?_⟩
      rw [ht, val_line] at m3
      exact m3
    rcases eq_or_lt_of_le hκ0 with k0 | k0
    · -- a chord of length 0
      have e : r = p := by rw [hκ, ← k0, zero_smul, add_zero]
      rw [e, sub_self]
      refine Finset.sum_eq_zero fun b hb => ?_
      obtain ⟨hba, hbS⟩ := Finset.mem_erase.1 hb
      unfold term
      by_cases hd : det3 N (pl a).n (pl b).n = 0
      · rw [← hN, hd, sgn_zero, zero_mul, mul_zero]
      · rw [ind_false_of, mul_zero, mul_zero]
        rintro ⟨hm, _⟩
        obtain ⟨t, ht, h0⟩ := hmeet b hd
        rw [← hN, ht] at hm
        have := lo t hm
        have := hi' t hm
        obtain rfl : t = 0 := by linarith
        exact gi b hbS hba (by linarith)
    · have hsq : ∀ k ∈ S, (s k : ℚ) ≠ 0 := by
        intro k hk
        rcases hs k hk with e | e <;> rw [e] <;> norm_num
      have key := interval_count (fun k => (s k : ℚ) * (pl k).val p) (fun k => (s k : ℚ) * det3 N (pl a).n (pl k).n) (S.erase a) 0 κ k0
        (fun k hk => by
          obtain ⟨hka, hkS⟩ := Finset.mem_erase.1 hk
          rw [mul_zero, add_zero]
          exact mul_ne_zero (hsq k hkS) (gi k hkS hka))
        (fun k hk => by
          obtain ⟨hka, hkS⟩ := Finset.mem_erase.1 hk
          have := gj k hkS hka
          rw [hκ, val_line] at this
          rw [mul_assoc, ← mul_add, mul_comm (det3 _ _ _)]
          exact mul_ne_zero (hsq k hkS) this)
        (fun k hk hβ j hj hjk => by
          obtain ⟨hka, hkS⟩ := Finset.mem_erase.1 hk
          obtain ⟨hja, hjS⟩ := Finset.mem_erase.1 hj
          have hd : det3 N (pl a).n (pl k).n ≠ 0 := fun e => hβ (by rw [e, mul_zero])
          obtain ⟨t, ht, h0⟩ := hmeet k hd
          have := g3 k hkS j hjS hka hja hjk hd
          rw [ht, val_line] at this
          have et : -((s k : ℚ) * (pl k).val p) / ((s k : ℚ) * det3 N (pl a).n (pl k).n) = t := by
            rw [div_eq_iff hβ]; linear_combination (-(s k : ℚ)) * h0
          rw [et, mul_assoc, ← mul_add, mul_comm (det3 _ _ _)]
          exact mul_ne_zero (hsq j hjS) this)
      have e1 : ind (∀ k ∈ S.erase a, (s k : ℚ) * (pl k).val p + (s k : ℚ) * det3 N (pl a).n (pl k).n * 0 < 0) = ind (Inside pl S s a p) := by
        apply ind_congr
        unfold Inside
        constructor
        · intro hh k hk hka
          have := hh k (Finset.mem_erase.2 ⟨hka, hk⟩)
          rwa [mul_zero, add_zero] at this
        · intro hh k hk
          obtain ⟨hka, hkS⟩ := Finset.mem_erase.1 hk
          rw [mul_zero, add_zero]
          exact hh k hkS hka
      have e2 : ind (∀ k ∈ S.erase a, (s k : ℚ) * (pl k).val p + (s k : ℚ) * det3 N (pl a).n (pl k).n * κ < 0) = ind (Inside pl S s a r) := by
        apply ind_congr
        unfold Inside
        have ee : ∀ k, (s k : ℚ) * (pl k).val p + (s k : ℚ) * det3 N (pl a).n (pl k).n * κ = (s k : ℚ) * (pl k).val r := by
          intro k; rw [hκ, val_line]; ring
        constructor
        · intro hh k hk hka
          have := hh k (Finset.mem_erase.2 ⟨hka, hk⟩)
          rwa [ee] at this
        · intro hh k hk
          obtain ⟨hka, hkS⟩ := Finset.mem_erase.1 hk
          rw [ee]
          exact hh k hkS hka
      rw [e1, e2] at key
      rw [← key]
      refine Finset.sum_congr rfl fun b hb => ?_
      obtain ⟨hba, hbS⟩ := Finset.mem_erase.1 hb
      unfold term
      rw [← hN, sgn_mul]
      have es : sgn (s b : ℚ) = s b := by rcases hs b hbS with e | e <;> rw [e] <;> simp [sgn]
      rw [es, ← mul_assoc]
      by_cases hd : det3 N (pl a).n (pl b).n = 0
      · rw [hd, sgn_zero, mul_zero, zero_mul, zero_mul]
      congr 1
      apply ind_congr
      obtain ⟨t, ht, h0⟩ := hmeet b hd
      have et : -((s b : ℚ) * (pl b).val p) / ((s b : ℚ) * det3 N (pl a).n (pl b).n) = t := by
        rw [div_eq_iff (mul_ne_zero (hsq b hbS) hd)]; linear_combination (-(s b : ℚ)) * h0
      rw [et, ht, and_assoc.symm]
      refine and_congr ?_ ?_
      · constructor
        · intro hm
          have l1 := lo t hm
          have l2 := hi' t hm
          refine ⟨lt_of_le_of_ne l1 ?_, lt_of_le_of_ne l2 ?_⟩
          · rintro rfl
            exact gi b hbS hba (by linarith)
          · rintro rfl
            apply gj b hbS hba
            rw [hκ, val_line]; exact h0
        · rintro ⟨l1, l2⟩
          have : p + t • crossQ N (pl a).n = (1 - t / κ) • p + (t / κ) • r := by
            rw [hκ, smul_add, smul_smul, div_mul_cancel₀ _ k0.ne', ← add_assoc, ← add_smul, sub_add_cancel, one_smul]
          rw [this]
          refine region_convex P mp mr ?_ (div_nonneg l1.le k0.le) (by ring)
          have : t / κ ≤ 1 := (div_le_one k0).2 l2.le
          linarith
      · unfold Inside2
        have ee : ∀ k, (s k : ℚ) * (pl k).val (p + t • crossQ N (pl a).n) = (s k : ℚ) * (pl k).val p + (s k : ℚ) * det3 N (pl a).n (pl k).n * t := by
          intro k; rw [val_line]; ring
        constructor
        · intro hh k hk hkb
          obtain ⟨hka, hkS⟩ := Finset.mem_erase.1 hk
          rw [← ee]; exact hh k hkS hka hkb
        · intro hh k hk hka hkb
          rw [ee]; exact hh k (Finset.mem_erase.2 ⟨hka, hk⟩) hkb
  · -- the plane does not cut the facet
    push Not at hup
    have hdown : ∀ i < P.count, 0 < (pl a).val (P.pt i) → 0 < (pl a).val (P.pt ((i + 1) % P.count)) := by
      intro i hi h1
      by_contra hc
      obtain ⟨k, hk, k1, k2⟩ := exists_up (n := P.count) (f := fun i => (pl a).val (P.pt i)) g1 (hmod i) hi
        (lt_of_le_of_ne (not_lt.1 hc) (g1 _ (hmod i))) h1
      exact absurd k2 (not_lt.2 (hup k hk k1))
    have hsame : (∀ i < P.count, (pl a).val (P.pt i) < 0) ∨ ∀ i < P.count, 0 < (pl a).val (P.pt i) := by
      by_contra hc
      push Not at hc
      obtain ⟨⟨i, hi, h1⟩, j, hj, h2⟩ := hc
      obtain ⟨k, hk, k1, k2⟩ := exists_up (n := P.count) (f := fun i => (pl a).val (P.pt i)) g1 hj hi
        (lt_of_le_of_ne h2 (g1 _ hj)) (lt_of_le_of_ne h1 (g1 _ hi).symm)
      exact absurd k2 (not_lt.2 (hup k hk k1))
    have hoff : ∀ z ∈ P.region, (pl a).val z ≠ 0 := by
      intro z hz
      rcases hsame with hn | hn
      · refine ne_of_lt (convexHull_min (t := {z | (pl a).val z < 0}) ?_ ?_ hz)
        · rintro _ ⟨k, hk, rfl⟩; exact hn k hk
        · intro x hx y hy s t hs ht hst
          simp only [Set.mem_ofPred_eq] at *
          rw [Pl.val_comb _ hst]
          rcases eq_or_lt_of_le hs with e | e
          · rw [← e] at hst ⊢
            have : t = 1 := by linarith
            rw [this]; linarith
          · nlinarith [mul_neg_of_pos_of_neg e hx, mul_nonneg ht (neg_nonneg.2 hy.le)]
      · refine ne_of_gt (convexHull_min (t := {z | 0 < (pl a).val z}) ?_ ?_ hz)
        · rintro _ ⟨k, hk, rfl⟩; exact hn k hk
        · intro x hx y hy s t hs ht hst
          simp only [Set.mem_ofPred_eq] at *
          rw [Pl.val_comb _ hst]
          rcases eq_or_lt_of_le hs with e | e
          · rw [← e] at hst ⊢
            have : t = 1 := by linarith
            rw [this]; linarith
          · nlinarith [mul_pos e hx, mul_nonneg ht hy.le]
    rw [Finset.sum_eq_zero, Finset.sum_eq_zero]
    · intro i hi
      have hi := Finset.mem_range.1 hi
      unfold bd
      rw [if_neg, if_neg]
      · rintro ⟨c1, c2⟩
        linarith [hdown i hi c2]
      · rintro ⟨c1, c2⟩
        linarith [hup i hi c1]
    · intro b hb
      unfold term
      by_cases hd : det3 P.plane.n.q (pl a).n (pl b).n = 0
      · rw [hd, sgn_zero, zero_mul, mul_zero]
      · rw [ind_false_of, mul_zero, mul_zero]
        rintro ⟨hm, _⟩
        exact hoff _ hm (meet_spec (D := (P.plane.d : ℚ)) hd).2.1

end Walnut.Bsp
