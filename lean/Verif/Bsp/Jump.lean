/-
How the number of times that a ray crosses a facet changes when the ray is moved over a point:
by the edges of the facet that go through the point.
-/
import Verif.Bsp.CellWinding

namespace Walnut.Bsp
open Walnut.Geom Walnut.Poly

variable {D : Type}

/-- The point is strictly between the others. -/
def Between (a b x : Q3) : Prop := ∃ s : ℚ, 0 < s ∧ s < 1 ∧ x = a + s • (b - a)

open Classical in
/-- The edges of the facet through `x`, with the sides of the plane with normal `m` that they
go to. -/
noncomputable def jump (P : Polygon D) (x m : Q3) : ℤ :=
  ∑ i ∈ Finset.range P.count, if Between (P.pt i) (P.pt ((i + 1) % P.count)) x then sgn (dotQ m (P.pt ((i + 1) % P.count) - P.pt i)) else 0

theorem dotQ_add (m x y : Q3) : dotQ m (x + y) = dotQ m x + dotQ m y := by unfold dotQ; simp only [Pi.add_apply]; ring
theorem dotQ_sub (m x y : Q3) : dotQ m (x - y) = dotQ m x - dotQ m y := by unfold dotQ; simp only [Pi.sub_apply]; ring
theorem dotQ_smul (m : Q3) (t : ℚ) (y : Q3) : dotQ m (t • y) = t * dotQ m y := by unfold dotQ; simp only [Pi.smul_apply, smul_eq_mul]; ring

/-- The chord of a facet in a plane through none of its vertices. -/
theorem chord {P : Polygon D} (h : IsConvexPolygon P) (a : Pl) (g1 : ∀ i < P.count, a.val (P.pt i) ≠ 0) :
    ((∀ z ∈ P.region, a.val z ≠ 0) ∧ ∀ i < P.count, ¬ a.val (P.pt i) * a.val (P.pt ((i + 1) % P.count)) < 0) ∨
    ∃ i < P.count, ∃ j < P.count, i ≠ j ∧ a.val (P.pt i) < 0 ∧ 0 < a.val (P.pt ((i + 1) % P.count)) ∧ 0 < a.val (P.pt j) ∧ a.val (P.pt ((j + 1) % P.count)) < 0 ∧
      (∀ k < P.count, a.val (P.pt k) * a.val (P.pt ((k + 1) % P.count)) < 0 → k = i ∨ k = j) ∧ crossQ P.plane.n.q a.n ≠ 0 ∧
      ∃ κ : ℚ, 0 ≤ κ ∧ cr a (P.pt j) (P.pt ((j + 1) % P.count)) = cr a (P.pt i) (P.pt ((i + 1) % P.count)) + κ • crossQ P.plane.n.q a.n ∧
        (∀ z, dotQ P.plane.n.q z = P.plane.d → a.val z = 0 → ∃ t : ℚ, z = cr a (P.pt i) (P.pt ((i + 1) % P.count)) + t • crossQ P.plane.n.q a.n) ∧
        ∀ t : ℚ, cr a (P.pt i) (P.pt ((i + 1) % P.count)) + t • crossQ P.plane.n.q a.n ∈ P.region ↔ 0 ≤ t ∧ t ≤ κ := by
  have h3 := h.three
  have hmod : ∀ i, (i + 1) % P.count < P.count := fun i => Nat.mod_lt _ (by omega)
  by_cases hup : ∃ i < P.count, a.val (P.pt i) < 0 ∧ 0 < a.val (P.pt ((i + 1) % P.count))
  · right
    obtain ⟨i, hi, u1, u2⟩ := hup
    obtain ⟨j, hj, d1, d2⟩ : ∃ j < P.count, 0 < a.val (P.pt j) ∧ a.val (P.pt ((j + 1) % P.count)) < 0 := by
      obtain ⟨k, hk, k1, k2⟩ := exists_up (n := P.count) (f := fun i => -a.val (P.pt i)) (fun i hi => neg_ne_zero.2 (g1 i hi))
        (hmod i) hi (by linarith) (by linarith)
      exact ⟨k, hk, by linarith, by linarith⟩
    have iu : ∀ k < P.count, a.val (P.pt k) < 0 → 0 < a.val (P.pt ((k + 1) % P.count)) → k = i := by
      intro k hk k1 k2
      rcases lt_trichotomy k i with c | c | c
      · exact (up_unique h a (-1) c hi (by linarith) (by linarith) (by linarith) (by linarith)).elim
      · exact c
      · exact (up_unique h a (-1) c hk (by linarith) (by linarith) (by linarith) (by linarith)).elim
    have ju : ∀ k < P.count, 0 < a.val (P.pt k) → a.val (P.pt ((k + 1) % P.count)) < 0 → k = j := by
      intro k hk k1 k2
      rcases lt_trichotomy k j with c | c | c
      · exact (up_unique h a 1 c hj (by linarith) (by linarith) (by linarith) (by linarith)).elim
      · exact c
      · exact (up_unique h a 1 c hk (by linarith) (by linarith) (by linarith) (by linarith)).elim
    have hij : i ≠ j := by rintro rfl; linarith
    have ci := mul_neg_of_neg_of_pos u1 u2
    have cj := mul_neg_of_pos_of_neg d1 d2
    obtain ⟨x, y, x0, y0, xy, ep, vp⟩ := cr_spec ci
    obtain ⟨x', y', x0', y0', xy', er, vr⟩ := cr_spec cj
    set p := cr a (P.pt i) (P.pt ((i + 1) % P.count)) with hp
    set r := cr a (P.pt j) (P.pt ((j + 1) % P.count)) with hr
    have mp : p ∈ P.region := by rw [ep]; exact region_convex P (pt_mem hi) (pt_mem (hmod i)) x0 y0 xy
    have mr : r ∈ P.region := by rw [er]; exact region_convex P (pt_mem hj) (pt_mem (hmod j)) x0' y0' xy'
    set N := P.plane.n.q with hN
    have onN : ∀ z ∈ P.region, dotQ N z = P.plane.d := fun z hz => region_onPlane h hz
    have NN : 0 < dotQ N N := normal_pos h
    have ti : ∀ t : ℚ, Poly.turn N (P.pt i) (P.pt ((i + 1) % P.count)) (p + t • crossQ N a.n) =
        t * (dotQ N N * (dotQ a.n (P.pt ((i + 1) % P.count)) - dotQ a.n (P.pt i))) := fun t =>
      turn_line (by rw [onN _ (pt_mem hi), onN _ (pt_mem (hmod i))]) xy ep t
    have tj : ∀ t : ℚ, Poly.turn N (P.pt j) (P.pt ((j + 1) % P.count)) (r + t • crossQ N a.n) =
        t * (dotQ N N * (dotQ a.n (P.pt ((j + 1) % P.count)) - dotQ a.n (P.pt j))) := fun t =>
      turn_line (by rw [onN _ (pt_mem hj), onN _ (pt_mem (hmod j))]) xy' er t
    have ei : 0 < dotQ a.n (P.pt ((i + 1) % P.count)) - dotQ a.n (P.pt i) := by unfold Pl.val at u1 u2; linarith
    have ej : dotQ a.n (P.pt ((j + 1) % P.count)) - dotQ a.n (P.pt j) < 0 := by unfold Pl.val at d1 d2; linarith
    have hu : crossQ N a.n ≠ 0 := by
      intro e
      have h1 := ti 1
      have h0 := ti 0
      rw [e] at h1 h0
      simp only [smul_zero] at h1 h0
      have := mul_pos NN ei
      linarith
    have line : ∀ z, dotQ N z = P.plane.d → a.val z = 0 → ∃ t : ℚ, z = p + t • crossQ N a.n := by
      intro z z1 z2
      refine on_line hu (by rw [z1, onN p mp]) ?_
      unfold Pl.val at z2 vp
      linarith
    obtain ⟨κ, hκ⟩ := line r (onN r mr) vr
    have shift : ∀ t : ℚ, p + t • crossQ N a.n = r + (t - κ) • crossQ N a.n := by
      intro t; rw [hκ, sub_smul]; abel
    have lo : ∀ t : ℚ, p + t • crossQ N a.n ∈ P.region → 0 ≤ t := by
      intro t ht
      have := turn_region h hi ht
      rw [ti t] at this
      exact nonneg_of_mul_nonneg_left this (mul_pos NN ei)
    have hi' : ∀ t : ℚ, p + t • crossQ N a.n ∈ P.region → t ≤ κ := by
      intro t ht
      rw [shift] at ht
      have := turn_region h hj ht
      rw [tj] at this
      have h2 := mul_neg_of_pos_of_neg NN ej
      by_contra hc
      have := mul_neg_of_pos_of_neg (by linarith : 0 < t - κ) h2
      linarith
    have hκ0 : 0 ≤ κ := lo κ (by rw [← hκ]; exact mr)
    refine ⟨i, hi, j, hj, hij, u1, u2, d1, d2, ?_, hu, κ, hκ0, hκ, line, fun t => ⟨fun ht => ⟨lo t ht, hi' t ht⟩, fun ht => ?_⟩⟩
    · intro k hk hc
      rcases mul_neg_iff.1 hc with ⟨c1, c2⟩ | ⟨c1, c2⟩
      · exact Or.inr (ju k hk c1 c2)
      · exact Or.inl (iu k hk c1 c2)
    · rcases eq_or_lt_of_le hκ0 with k0 | k0
      · have : t = 0 := by linarith [ht.1, ht.2]
        rw [this, zero_smul, add_zero]; exact mp
      · have e : p + t • crossQ N a.n = (1 - t / κ) • p + (t / κ) • r := by
          rw [hκ, smul_add, smul_smul, div_mul_cancel₀ _ k0.ne', sub_smul, one_smul]; abel
        rw [e]
        refine region_convex P mp mr ?_ (div_nonneg ht.1 hκ0) (by ring)
        rw [sub_nonneg, div_le_one k0]; exact ht.2
  · left
    push Not at hup
    have same : (∀ i < P.count, a.val (P.pt i) < 0) ∨ ∀ i < P.count, 0 < a.val (P.pt i) := by
      by_contra hc
      push Not at hc
      obtain ⟨⟨i, hi, i1⟩, j, hj, j1⟩ := hc
      obtain ⟨k, hk, k1, k2⟩ := exists_up g1 hj hi (lt_of_le_of_ne j1 (g1 j hj)) (lt_of_le_of_ne i1 (Ne.symm (g1 i hi)))
      linarith [hup k hk k1]
    refine ⟨fun z hz => ?_, fun i hi hc => ?_⟩
    · have half : ∀ s : ℚ, (∀ i < P.count, 0 < s * a.val (P.pt i)) → 0 < s * a.val z := by
        intro s hs
        have hconv : Convex ℚ {y : Q3 | 0 < s * a.val y} := by
          intro y hy y' hy' α β hα hβ hab
          simp only [Set.mem_ofPred_eq] at hy hy' ⊢
          rw [a.val_comb hab, mul_add]
          have e : s * (α * a.val y) + s * (β * a.val y') = α * (s * a.val y) + β * (s * a.val y') := by ring
          rw [e]
          rcases eq_or_lt_of_le hα with c | c
          · have : β = 1 := by linarith
            rw [← c, this]; linarith
          · have := mul_pos c hy
            have := mul_nonneg hβ hy'.le
            linarith
        refine convexHull_min ?_ hconv hz
        rintro y ⟨k, hk, rfl⟩
        exact hs k hk
      rcases same with hs | hs
      · have := half (-1) fun i hi => by have := hs i hi; linarith
        intro e; rw [e] at this; simp at this
      · have := half 1 fun i hi => by have := hs i hi; linarith
        intro e; rw [e] at this; simp at this
    · rcases same with hs | hs
      · have := mul_pos_of_neg_of_neg (hs i hi) (hs _ (hmod i)); linarith
      · have := mul_pos (hs i hi) (hs _ (hmod i)); linarith

/-- A point that moves over an interval. -/
theorem jump_line {ν α κ t0 : ℚ} (c : ℚ) (hν : ν ≠ 0) (hκ : 0 ≤ κ) (ht : t0 ≠ 0) (h0 : α = 0 → 0 < t0) (h1 : α = κ → 0 < t0) :
    Ev fun δ => sgn ν * ind (0 < t0 + δ * c ∧ 0 ≤ α + δ / ν ∧ α + δ / ν ≤ κ) - sgn ν * ind (0 < t0 + -δ * c ∧ 0 ≤ α + -δ / ν ∧ α + -δ / ν ≤ κ) =
      ind (α = 0) - ind (α = κ) := by
  have cont : ∀ {x : ℚ} (y : ℚ), 0 < x → Ev fun δ => 0 < x + δ * y := fun y hx => ev_cont (by fun_prop) (by simpa using hx)
  rcases lt_or_gt_of_ne ht with ht | ht
  · filter_upwards [cont (-c) (neg_pos.2 ht), cont c (neg_pos.2 ht)] with δ a1 a2
    rw [ind_false (fun h => by linarith [h.1]), ind_false (fun h => by linarith [h.1]), ind_false (fun h => by linarith [h0 h]), ind_false (fun h => by linarith [h1 h])]
    ring
  · rcases lt_trichotomy α 0 with hα | hα | hα
    · filter_upwards [cont (-ν⁻¹) (neg_pos.2 hα), cont (ν⁻¹) (neg_pos.2 hα)] with δ a1 a2
      rw [div_eq_mul_inv, div_eq_mul_inv]
      rw [ind_false (fun h => by linarith [h.2.1]), ind_false (fun h => by linarith [h.2.1]), ind_false hα.ne, ind_false (by linarith)]
      ring
    · subst hα
      rcases eq_or_lt_of_le hκ with k0 | k0
      · filter_upwards [ev_pos] with δ a1
        have hne : δ / ν ≠ 0 := div_ne_zero a1.ne' hν
        have hne' : -δ / ν ≠ 0 := div_ne_zero (neg_ne_zero.2 a1.ne') hν
        rw [ind_false (fun h => hne (by linarith [h.2.1, h.2.2])), ind_false (fun h => hne' (by linarith [h.2.1, h.2.2])), ind_true rfl, ind_true k0]
        ring
      · filter_upwards [ev_pos, cont c ht, cont (-c) ht, cont (-ν⁻¹) k0, cont ν⁻¹ k0] with δ a1 a2 a3 a4 a5
        rw [ind_true (p := (0 : ℚ) = 0) rfl, ind_false (p := (0 : ℚ) = κ) k0.ne]
        rcases lt_or_gt_of_ne hν with n | n
        · have p1 : δ / ν < 0 := div_neg_of_pos_of_neg a1 n
          have p2 : 0 < -δ / ν := div_pos_of_neg_of_neg (by linarith) n
          rw [ind_false (fun h => by linarith [h.2.1]), ind_true ⟨by linarith, by linarith, by rw [div_eq_mul_inv]; linarith⟩, sgn_neg n]
          norm_num
        · have p1 : 0 < δ / ν := div_pos a1 n
          have p2 : -δ / ν < 0 := div_neg_of_neg_of_pos (by linarith) n
          rw [ind_true ⟨by linarith, by linarith, by rw [div_eq_mul_inv]; linarith⟩, ind_false (fun h => by linarith [h.2.1]), sgn_pos n]
          norm_num
    · rcases lt_trichotomy α κ with hk | hk | hk
      · filter_upwards [cont c ht, cont (-c) ht, cont ν⁻¹ hα, cont (-ν⁻¹) hα, cont ν⁻¹ (sub_pos.2 hk), cont (-ν⁻¹) (sub_pos.2 hk)] with δ a1 a2 a3 a4 a5 a6
        rw [div_eq_mul_inv, div_eq_mul_inv]
        rw [ind_true ⟨by linarith, by linarith, by linarith⟩, ind_true ⟨by linarith, by linarith, by linarith⟩, ind_false hα.ne', ind_false hk.ne]
        ring
      · subst hk
        filter_upwards [ev_pos, cont c ht, cont (-c) ht, cont (-ν⁻¹) hα, cont ν⁻¹ hα] with δ a1 a2 a3 a4 a5
        rw [ind_false (p := α = 0) hα.ne', ind_true (p := α = α) rfl]
        rcases lt_or_gt_of_ne hν with n | n
        · have p1 : δ / ν < 0 := div_neg_of_pos_of_neg a1 n
          have p2 : 0 < -δ / ν := div_pos_of_neg_of_neg (by linarith) n
          rw [ind_true ⟨by linarith, by rw [div_eq_mul_inv]; linarith, by linarith⟩, ind_false (fun h => by linarith [h.2.2]), sgn_neg n]
          norm_num
        · have p1 : 0 < δ / ν := div_pos a1 n
          have p2 : -δ / ν < 0 := div_neg_of_neg_of_pos (by linarith) n
          rw [ind_false (fun h => by linarith [h.2.2]), ind_true ⟨by linarith, by rw [div_eq_mul_inv]; linarith, by linarith⟩, sgn_pos n]
          norm_num
      · filter_upwards [cont ν⁻¹ (sub_pos.2 hk), cont (-ν⁻¹) (sub_pos.2 hk)] with δ a1 a2
        rw [div_eq_mul_inv, div_eq_mul_inv]
        rw [ind_false (fun h => by linarith [h.2.2]), ind_false (fun h => by linarith [h.2.2]), ind_false hα.ne', ind_false hk.ne']
        ring

theorem between_val {a : Pl} {p q x : Q3} (hx : a.val x = 0) (hp : a.val p ≠ 0) (h : Between p q x) : a.val p * a.val q < 0 ∧ cr a p q = x := by
  obtain ⟨s, s0, s1, rfl⟩ := h
  have e : p + s • (q - p) = (1 - s) • p + s • q := by rw [smul_sub, sub_smul, one_smul]; abel
  have hv := hx
  rw [e, a.val_comb (by ring)] at hv
  have hneg : a.val p * a.val q < 0 := by
    have h1 : s * (a.val p * a.val q) = -((1 - s) * (a.val p * a.val p)) := by linear_combination a.val p * hv
    have h2 : 0 < (1 - s) * (a.val p * a.val p) := mul_pos (by linarith) (mul_self_pos.2 hp)
    by_contra hc
    have := mul_nonneg s0.le (not_lt.1 hc)
    linarith
  refine ⟨hneg, ?_⟩
  have hne : a.val p - a.val q ≠ 0 := by
    intro e
    rcases mul_neg_iff.1 hneg with ⟨h1, h2⟩ | ⟨h1, h2⟩ <;> linarith
  funext i
  unfold cr
  simp only [Pi.add_apply, Pi.smul_apply, Pi.sub_apply, smul_eq_mul]
  rw [div_eq_iff hne]
  linear_combination (q i - p i) * hv

theorem between_cr {a : Pl} {p q : Q3} (h : a.val p * a.val q < 0) : Between p q (cr a p q) := by
  have hne : a.val p - a.val q ≠ 0 := by
    intro e
    rcases mul_neg_iff.1 h with ⟨h1, h2⟩ | ⟨h1, h2⟩ <;> linarith
  refine ⟨a.val p / (a.val p - a.val q), ?_, ?_, ?_⟩
  · rcases mul_neg_iff.1 h with ⟨h1, h2⟩ | ⟨h1, h2⟩
    · exact div_pos h1 (by linarith)
    · exact div_pos_of_neg_of_neg h1 (by linarith)
  · rcases mul_neg_iff.1 h with ⟨h1, h2⟩ | ⟨h1, h2⟩
    · rw [div_lt_one (by linarith)]; linarith
    · rw [div_lt_one_of_neg (by linarith)]; linarith
  · funext i
    unfold cr
    simp only [Pi.add_apply, Pi.smul_apply, Pi.sub_apply, smul_eq_mul]
    field_simp
    ring

theorem ev_jump {P : Polygon D} (h : IsConvexPolygon P) {x v w : Q3} {τ : ℚ} (hτ : 0 < τ) (hNv : dotQ P.plane.n.q v ≠ 0) (hq : P.plane.side (x - τ • v) ≠ 0)
    (hm : ∀ i < P.count, dotQ (crossQ w v) (P.pt i - x) ≠ 0)
    (hV : ∀ i < P.count, ∀ s k : ℚ, P.pt i + s • (P.pt ((i + 1) % P.count) - P.pt i) = x + k • v → k = 0) :
    Ev fun δ => crossing v (x - τ • v + δ • w) P - crossing v (x - τ • v + (-δ) • w) P = jump P x (crossQ w v) := by
  set m := crossQ w v with hmdef
  set a : Pl := ⟨m, dotQ m x⟩ with ha
  set N := P.plane.n.q with hN
  set q := x - τ • v with hqdef
  have mv : dotQ m v = 0 := by rw [hmdef]; unfold dotQ; simp only [crossQ_zero, crossQ_one, crossQ_two]; ring
  have mw : dotQ m w = 0 := by rw [hmdef]; unfold dotQ; simp only [crossQ_zero, crossQ_one, crossQ_two]; ring
  have hval : ∀ z, a.val z = dotQ m (z - x) := fun z => by rw [dotQ_sub]; rfl
  have ax : a.val x = 0 := by rw [hval, sub_self]; simp [dotQ]
  have aray : ∀ δ t : ℚ, a.val (q + δ • w + t • v) = 0 := by
    intro δ t
    rw [hval, dotQ_sub, dotQ_add, dotQ_add, hqdef, dotQ_sub, dotQ_smul, dotQ_smul, dotQ_smul, mv, mw]; ring
  have g1 : ∀ i < P.count, a.val (P.pt i) ≠ 0 := fun i hi => by rw [hval]; exact hm i hi
  have hmod : ∀ i, (i + 1) % P.count < P.count := fun i => Nat.mod_lt _ (by have := h.three; omega)
  rcases chord h a g1 with ⟨c1, c2⟩ | ⟨i, hi, j, hj, hij, u1, u2, d1, d2, only, hL, κ, hκ, er, line, mem⟩
  · refine Filter.Eventually.of_forall fun δ => ?_
    have z : ∀ δ : ℚ, crossing v (q + δ • w) P = 0 := by
      intro δ
      unfold crossing
      rw [ind_false, mul_zero]
      rintro ⟨t, _, ht⟩
      exact c1 _ ht (aray δ t)
    rw [z, z, sub_self]
    symm
    refine Finset.sum_eq_zero fun i hi => if_neg fun hb => ?_
    have hi := Finset.mem_range.1 hi
    exact c2 i hi (between_val ax (g1 i hi) hb).1
  · have ci := mul_neg_of_neg_of_pos u1 u2
    have cj := mul_neg_of_pos_of_neg d1 d2
    obtain ⟨si, si0, si1, epi⟩ := between_cr ci
    obtain ⟨sj, sj0, sj1, erj⟩ := between_cr cj
    set p := cr a (P.pt i) (P.pt ((i + 1) % P.count)) with hp
    set r := cr a (P.pt j) (P.pt ((j + 1) % P.count)) with hr
    have mp : p ∈ P.region := by have := (mem 0).2 ⟨le_rfl, hκ⟩; simpa using this
    have mr : r ∈ P.region := by rw [er]; exact (mem κ).2 ⟨hκ, le_rfl⟩
    -- the sum over the edges
    have hJ : jump P x m = ind (p = x) - ind (r = x) := by
      unfold jump
      rw [Finset.sum_eq_add i j hij]
      · have e1 : dotQ m (P.pt ((i + 1) % P.count) - P.pt i) = a.val (P.pt ((i + 1) % P.count)) - a.val (P.pt i) := by
          rw [hval, hval, dotQ_sub, dotQ_sub, dotQ_sub]; ring
        have e2 : dotQ m (P.pt ((j + 1) % P.count) - P.pt j) = a.val (P.pt ((j + 1) % P.count)) - a.val (P.pt j) := by
          rw [hval, hval, dotQ_sub, dotQ_sub, dotQ_sub]; ring
        rw [e1, e2, sgn_pos (by linarith), sgn_neg (by linarith), sub_eq_add_neg]
        congr 1
        · by_cases e : p = x
          · rw [ind_true e, if_pos (by rw [← e]; exact between_cr ci)]
          · rw [ind_false e, if_neg fun hb => e (between_val ax (g1 i hi) hb).2]
        · by_cases e : r = x
          · rw [ind_true e, if_pos (by rw [← e]; exact between_cr cj)]
          · rw [ind_false e, if_neg fun hb => e (between_val ax (g1 j hj) hb).2]; rfl
      · intro k hk hne
        have hk := Finset.mem_range.1 hk
        refine if_neg fun hb => ?_
        rcases only k hk (between_val ax (g1 k hk) hb).1 with e | e
        · exact hne.1 e
        · exact hne.2 e
      · intro hk; exact absurd (Finset.mem_range.2 hi) hk
      · intro hk; exact absurd (Finset.mem_range.2 hj) hk
    set ν := dotQ N v with hν
    set t0 := -P.plane.side q / ν with ht0
    have hside : ∀ z, P.plane.side z = dotQ N z - P.plane.d := fun z => rfl
    have y0 : dotQ N (q + t0 • v) = P.plane.d := by
      rw [dotQ_add, dotQ_smul, ← hν, ht0, div_mul_cancel₀ _ hNv, hside]; ring
    obtain ⟨α, hα⟩ := line (q + t0 • v) y0 (by have := aray 0 t0; simpa using this)
    have yx : q + t0 • v = x + (t0 - τ) • v := by rw [hqdef, sub_smul]; abel
    have ht0ne : t0 ≠ 0 := div_ne_zero (neg_ne_zero.2 hq) hNv
    have onx : ∀ z ∈ P.region, z = x → t0 = τ := by
      intro z hz e
      have h1 := region_onPlane h hz
      rw [e] at h1
      rw [ht0, div_eq_iff hNv, hside, hqdef, dotQ_sub, dotQ_smul, ← hν]
      linarith
    have hpx : α = 0 ↔ p = x := by
      constructor
      · intro e
        rw [e, zero_smul, add_zero] at hα
        have := hV i hi si (t0 - τ) (by rw [← yx, hα]; exact epi.symm)
        rw [← hα, yx, this, zero_smul, add_zero]
      · intro e
        have ht := onx p mp e
        rw [yx, ht, sub_self, zero_smul, add_zero, e] at hα
        have : α • crossQ N a.n = 0 := by simpa using hα.symm
        exact (smul_eq_zero.1 this).resolve_right hL
    have hrx : α = κ ↔ r = x := by
      constructor
      · intro e
        rw [e, ← er] at hα
        have := hV j hj sj (t0 - τ) (by rw [← yx, hα]; exact erj.symm)
        rw [← hα, yx, this, zero_smul, add_zero]
      · intro e
        have ht := onx r mr e
        rw [yx, ht, sub_self, zero_smul, add_zero, ← e, er] at hα
        have : (α - κ) • crossQ N a.n = 0 := by
          rw [sub_smul]
          have := add_left_cancel hα
          rw [this, sub_self]
        exact sub_eq_zero.1 ((smul_eq_zero.1 this).resolve_right hL)
    -- the points of the rays on the facet
    have hLw : crossQ N a.n = ν • w - dotQ N w • v := by
      rw [hν]
      show crossQ N (crossQ w v) = _
      funext k
      unfold dotQ
      fin_cases k <;> simp only [Fin.zero_eta, Fin.mk_one, Fin.reduceFinMk, crossQ_zero, crossQ_one, crossQ_two, Pi.sub_apply, Pi.smul_apply, smul_eq_mul] <;> ring
    have hy : ∀ δ : ℚ, q + δ • w + (t0 + δ * (-dotQ N w / ν)) • v = p + (α + δ / ν) • crossQ N a.n := by
      intro δ
      rw [add_smul, add_smul α, ← add_assoc p, ← hα, hLw, smul_sub, smul_smul, div_mul_cancel₀ _ hNv, smul_smul]
      have : δ * (-dotQ N w / ν) = -(δ / ν * dotQ N w) := by ring
      rw [this, neg_smul]
      abel
    have hcross : ∀ δ : ℚ, crossing v (q + δ • w) P = sgn ν * ind (0 < t0 + δ * (-dotQ N w / ν) ∧ 0 ≤ α + δ / ν ∧ α + δ / ν ≤ κ) := by
      intro δ
      unfold crossing
      congr 1
      apply ind_congr
      constructor
      · rintro ⟨t, ht, hr⟩
        have h1 := region_onPlane h hr
        have e : t = t0 + δ * (-dotQ N w / ν) := by
          have h2 : dotQ N (q + δ • w + (t0 + δ * (-dotQ N w / ν)) • v) = P.plane.d := by
            rw [hy, dotQ_add, dotQ_smul, region_onPlane h mp]
            have : dotQ N (crossQ N a.n) = 0 := by unfold dotQ; simp only [crossQ_zero, crossQ_one, crossQ_two]; ring
            rw [this]; ring
          rw [dotQ_add, dotQ_smul] at h1 h2
          have : (t - (t0 + δ * (-dotQ N w / ν))) * ν = 0 := by rw [hν]; linarith
          rcases mul_eq_zero.1 this with e | e
          · linarith
          · exact absurd e hNv
        rw [← e]
        refine ⟨ht, ?_⟩
        rw [e, hy] at hr
        exact (mem _).1 hr
      · rintro ⟨b1, b2⟩
        exact ⟨_, b1, by rw [hy]; exact (mem _).2 b2⟩
    filter_upwards [jump_line (ν := ν) (-dotQ N w / ν) hNv hκ ht0ne (fun e => by rw [onx p mp (hpx.1 e)]; exact hτ) (fun e => by rw [onx r mr (hrx.1 e)]; exact hτ)] with δ hδ
    rw [hcross, hcross, hδ, hJ, ind_congr hpx, ind_congr hrx]

end Walnut.Bsp
