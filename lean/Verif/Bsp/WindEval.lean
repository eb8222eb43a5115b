/-
The sum over the planes of a cell without facets, evaluated on a ray.
-/
import Verif.Bsp.WindCorner

namespace Walnut.Bsp
open Walnut.Geom Walnut.Poly Filter Topology

variable {D : Type}

theorem term_zero (P : Polygon D) (pl : ℕ → Pl) (S : Finset ℕ) (s : ℕ → ℤ) (a b : ℕ)
    (h : det3 P.plane.n.q (pl a).n (pl b).n ≠ 0 → (pl a).val (meet P.plane.n.q P.plane.d (pl a) (pl b)) = 0 →
      (pl b).val (meet P.plane.n.q P.plane.d (pl a) (pl b)) = 0 → meet P.plane.n.q P.plane.d (pl a) (pl b) ∈ P.region →
      Inside2 pl S s a b (meet P.plane.n.q P.plane.d (pl a) (pl b)) → False) : term P pl S s a b = 0 := by
  unfold term
  by_cases hd : det3 P.plane.n.q (pl a).n (pl b).n = 0
  · rw [hd, sgn_zero, zero_mul]
  · obtain ⟨_, h1, h2⟩ := meet_spec (D := P.plane.d) hd
    rw [ind_false_of fun x => h hd h1 h2 x.1 x.2, mul_zero]

theorem flow_zero {M : List (Polygon D)} {pl : ℕ → Pl} {S : Finset ℕ} {s : ℕ → ℤ} {a b : ℕ}
    (h : ∀ P ∈ M, ∀ x, (pl a).val x = 0 → (pl b).val x = 0 → x ∈ P.region → Inside2 pl S s a b x → False) : flow M pl S s a b = 0 := by
  unfold flow
  apply List.sum_eq_zero
  intro y hy
  obtain ⟨P, hP, rfl⟩ := List.mem_map.1 hy
  exact term_zero P pl S s a b fun _ h1 h2 h3 h4 => h P hP _ h1 h2 h3 h4

/-- Planes beyond those of a cell without facets cut off nothing. -/
theorem cutOff_empty (c : Q3) {M : List (Polygon D)} {pl : ℕ → Pl} {n m : ℕ} {ε : ℚ} (h0 : 0 < ε)
    (hempty : ∀ x, (∀ k < n, (pl k).val x < 0) → ∀ P ∈ M, x ∉ P.region) {K : Finset ℕ} (hK : Finset.range n ⊆ K) {h : ℕ} (hh : n ≤ h) :
    cutOff c M (sh m pl ε) K h = 0 := by
  unfold cutOff
  refine Finset.sum_eq_zero fun a ha => Finset.sum_eq_zero fun b hb => ?_
  rw [flow_zero, mul_zero]
  intro P hP x h1 h2 hx hi
  refine hempty x (fun k hk => ?_) P hP hx
  have ep : 0 < ε ^ (m - k) := pow_pos h0 _
  by_cases ka : k = a
  · rw [← ka, sh_val] at h1; linarith
  by_cases kb : k = b
  · rw [← kb, sh_val] at h2; linarith
  have := hi k (Finset.mem_insert_of_mem (hK (Finset.mem_range.2 hk))) ka kb
  rw [sh_val, fl, if_neg (by simp; omega)] at this
  push_cast at this
  linarith

theorem total_drop {c : Q3} {M : List (Polygon D)} {pl : ℕ → Pl} {r : List ℕ} : ∀ {p : List ℕ},
    (∀ h ∈ p, ∀ K : Finset ℕ, r.toFinset ⊆ K → K ⊆ (p ++ r).toFinset → cutOff c M pl K h = 0) → total c M pl (p ++ r) = total c M pl r := by
  intro p
  induction p with
  | nil => intro _; rfl
  | cons h p ih =>
    intro hp
    rw [List.cons_append, total, hp h (by simp) _ (by intro x hx; simp at hx ⊢; exact Or.inr hx) (by intro x hx; simp at hx ⊢; tauto), zero_add]
    refine ih fun h' hh' K h1 h2 => hp h' (List.mem_cons_of_mem _ hh') K h1 (h2.trans ?_)
    intro x hx; simp at hx ⊢; tauto

/-- The planes of the cell and three further ones through the point `q`. -/
structure Frame (c v q : Q3) (pl : ℕ → Pl) (n : ℕ) : Prop where
  inside : ∀ k < n, (pl k).val q < 0
  onA : (pl n).val q = 0
  onB : (pl (n + 1)).val q = 0
  onC : (pl (n + 2)).val q = 0
  sum : ∀ i, c i = (pl n).n i + (pl (n + 1)).n i + (pl (n + 2)).n i
  cross : ∃ κ : ℚ, 0 < κ ∧ ∀ i, crossQ (pl n).n (pl (n + 1)).n i = κ * v i
  up : dotQ c v ≠ 0
  seen : ∀ i < n + 3, ∀ j < n + 3, Seen c (pl i).n (pl j).n

theorem val_sub (p : Pl) (x q : Q3) : dotQ p.n (fun i => x i - q i) = p.val x - p.val q := by
  unfold Pl.val dotQ; ring

/-- The vertex of the three further planes is below all planes of the cell. -/
theorem Frame.ev_drop {c v q : Q3} {pl : ℕ → Pl} {n : ℕ} (F : Frame c v q pl n) (M : List (Polygon D)) :
    Ev fun ε => ∀ h ∈ Finset.range n, ∀ K : Finset ℕ, {n, n + 1, n + 2} ⊆ K → K ⊆ Finset.range (n + 3) → cutOff c M (sh (n + 3) pl ε) K h = 0 := by
  have h1 : Ev fun ε => ∀ h ∈ Finset.range n, ∀ a ∈ Finset.range (n + 3), ∀ b ∈ Finset.range (n + 3), ∀ x : Q3, tau c (pl h).n (pl a).n (pl b).n ≠ 0 →
      (∀ k, (k = n ∨ k = n + 1 ∨ k = n + 2) → (sh (n + 3) pl ε k).val x ≤ 0) → (sh (n + 3) pl ε a).val x = 0 → (sh (n + 3) pl ε b).val x = 0 →
      0 < (sh (n + 3) pl ε h).val x → False := by
    refine ev_fin _ fun h hh => ev_fin _ fun a ha => ev_fin _ fun b hb => ?_
    rw [Finset.mem_range] at hh ha hb
    by_cases ht : tau c (pl h).n (pl a).n (pl b).n = 0
    · exact Filter.Eventually.of_forall fun ε x h => absurd ht h
    have mh := F.inside h hh
    have le : ∀ k < n + 3, (pl k).val q ≤ 0 := by
      intro k hk
      rcases Nat.lt_or_ge k n with h | h
      · exact (F.inside k h).le
      · obtain rfl | rfl | rfl : k = n ∨ k = n + 1 ∨ k = n + 2 := by omega
        · exact F.onA.le
        · exact F.onB.le
        · exact F.onC.le
    have qa := le a ha
    have qb := le b hb
    have key : ∀ ε : ℚ, 0 < ε → ∀ x : Q3, (∀ k, (k = n ∨ k = n + 1 ∨ k = n + 2) → (sh (n + 3) pl ε k).val x ≤ 0) → (sh (n + 3) pl ε a).val x = 0 →
        (sh (n + 3) pl ε b).val x = 0 → 0 < (sh (n + 3) pl ε h).val x →
        dotQ c (fun i => x i - q i) < 0 ∧ -(pl h).val q - ε ^ (n + 3 - h) < dotQ (pl h).n (fun i => x i - q i) ∧ -ε ^ (n + 3 - a) ≤ dotQ (pl a).n (fun i => x i - q i) ∧
        -ε ^ (n + 3 - b) ≤ dotQ (pl b).n (fun i => x i - q i) := by
      intro ε h0 x hx xa xb xh
      rw [sh_val] at xa xb xh
      rw [val_sub, val_sub, val_sub]
      refine ⟨?_, by linarith, by linarith, by linarith⟩
      have e : dotQ c (fun i => x i - q i) = dotQ (pl n).n (fun i => x i - q i) + dotQ (pl (n + 1)).n (fun i => x i - q i) + dotQ (pl (n + 2)).n (fun i => x i - q i) := by
        unfold dotQ; rw [F.sum, F.sum, F.sum]; ring
      have a1 := hx n (Or.inl rfl)
      have a2 := hx (n + 1) (Or.inr (Or.inl rfl))
      have a3 := hx (n + 2) (Or.inr (Or.inr rfl))
      rw [sh_val] at a1 a2 a3
      have p1 : 0 < ε ^ (n + 3 - n) := pow_pos h0 _
      have p2 : 0 < ε ^ (n + 3 - (n + 1)) := pow_pos h0 _
      have p3 : 0 < ε ^ (n + 3 - (n + 2)) := pow_pos h0 _
      rw [e, val_sub, val_sub, val_sub, F.onA, F.onB, F.onC]
      linarith
    have cr := fun y => cramer c (pl h).n (pl a).n (pl b).n y
    rcases tau_cases ht with ⟨t1, t2, t3, t4, _⟩ | ⟨t1, t2, t3, t4, _⟩
    · have e1 := ev_pos0 (mul_pos t2 (neg_pos.2 mh)) (-om c (pl a).n (pl b).n) (-om c (pl h).n (pl a).n) (-om c (pl b).n (pl h).n)
        (i := n + 3 - h) (j := n + 3 - b) (k := n + 3 - a) (by omega) (by omega) (by omega)
      filter_upwards [e1, ev_pos] with ε he h0 x _ hx xa xb xh
      obtain ⟨k1, k2, k3, k4⟩ := key ε h0 x hx xa xb xh
      have c0 := cr (fun i => x i - q i)
      have := mul_neg_of_pos_of_neg t4 k1
      have := mul_lt_mul_of_pos_left k2 t2
      have := mul_le_mul_of_nonneg_left k3 t3.le
      have := mul_le_mul_of_nonneg_left k4 t1.le
      linarith
    · have e1 := ev_pos0 (mul_pos (neg_pos.2 t2) (neg_pos.2 mh)) (om c (pl a).n (pl b).n) (om c (pl h).n (pl a).n) (om c (pl b).n (pl h).n)
        (i := n + 3 - h) (j := n + 3 - b) (k := n + 3 - a) (by omega) (by omega) (by omega)
      filter_upwards [e1, ev_pos] with ε he h0 x _ hx xa xb xh
      obtain ⟨k1, k2, k3, k4⟩ := key ε h0 x hx xa xb xh
      have c0 := cr (fun i => x i - q i)
      have := mul_pos_of_neg_of_neg t4 k1
      have := mul_lt_mul_of_neg_left k2 t2
      have := mul_le_mul_of_nonpos_left k3 t3.le
      have := mul_le_mul_of_nonpos_left k4 t1.le
      linarith
  filter_upwards [h1] with ε he h hh K hK1 hK2
  unfold cutOff
  refine Finset.sum_eq_zero fun a ha => Finset.sum_eq_zero fun b hb => ?_
  by_cases ht : tau c (pl h).n (pl a).n (pl b).n = 0
  · have : tau c (sh (n + 3) pl ε h).n (sh (n + 3) pl ε a).n (sh (n + 3) pl ε b).n = 0 := ht
    rw [this, zero_mul]
  by_cases hha : h = a
  · exact absurd (by rw [hha, tau_rot c (pl b).n, tau_self]) ht
  by_cases hhb : h = b
  · exact absurd (by rw [hhb, tau_rot c (pl b).n, tau_rot c (pl a).n, tau_self]) ht
  rw [flow_zero, mul_zero]
  intro P _ x xa xb _ hi
  refine he h hh a (hK2 ha) b (hK2 hb) x ht (fun k hk => ?_) xa xb ?_
  · have hkK : k ∈ K := hK1 (by simp; tauto)
    by_cases ka : k = a
    · rw [ka]; exact xa.le
    by_cases kb : k = b
    · rw [kb]; exact xb.le
    have := hi k (Finset.mem_insert_of_mem hkK) ka kb
    rw [Finset.mem_range] at hh
    rw [fl, if_neg (by simp; omega)] at this
    push_cast at this
    linarith
  · have := hi h (Finset.mem_insert_self _ _) hha hhb
    rw [fl, if_pos (by simp)] at this
    push_cast at this
    linarith

/-- The crossing of the ray from `q` in direction `v` with the facet: 1 from the back to
the front, -1 the other way, 0 if the ray misses the facet. -/
noncomputable def crossing (v q : Q3) (P : Polygon D) : ℤ := sgn (dotQ P.plane.n.q v) * ind (∃ t : ℚ, 0 < t ∧ q + t • v ∈ P.region)

theorem ray_dot (w q v : Q3) (t : ℚ) : dotQ w (q + t • v) = dotQ w q + t * dotQ w v := by
  unfold dotQ
  simp only [Pi.add_apply, Pi.smul_apply, smul_eq_mul]
  ring

theorem Frame.dots {c v q : Q3} {pl : ℕ → Pl} {n : ℕ} (F : Frame c v q pl n) : dotQ (pl n).n v = 0 ∧ dotQ (pl (n + 1)).n v = 0 ∧
    dotQ (pl (n + 2)).n v = dotQ c v := by
  obtain ⟨κ, hk, hc⟩ := F.cross
  have hc0 := hc 0
  have hc1 := hc 1
  have hc2 := hc 2
  simp only [crossQ_zero, crossQ_one, crossQ_two] at hc0 hc1 hc2
  have a : dotQ (pl n).n v = 0 := by
    refine (mul_eq_zero.1 (?_ : κ * _ = 0)).resolve_left hk.ne'
    unfold dotQ
    linear_combination -(pl n).n 0 * hc0 - (pl n).n 1 * hc1 - (pl n).n 2 * hc2
  have b : dotQ (pl (n + 1)).n v = 0 := by
    refine (mul_eq_zero.1 (?_ : κ * _ = 0)).resolve_left hk.ne'
    unfold dotQ
    linear_combination -(pl (n + 1)).n 0 * hc0 - (pl (n + 1)).n 1 * hc1 - (pl (n + 1)).n 2 * hc2
  refine ⟨a, b, ?_⟩
  unfold dotQ at *
  rw [F.sum 0, F.sum 1, F.sum 2]
  linarith

theorem Frame.ev_term {c v q : Q3} {pl : ℕ → Pl} {n : ℕ} (F : Frame c v q pl n) {P : Polygon D} (hP : IsConvexPolygon P) (hq : q ∉ P.region)
    (hgen : ∀ t : ℚ, 0 < t → q + t • v ∈ P.region → ∀ i < P.count, 0 < Poly.turn P.plane.n.q (P.pt i) (P.pt ((i + 1) % P.count)) (q + t • v))
    {s : ℕ → ℤ} (hs : (s (n + 2) : ℚ) * dotQ c v < 0) :
    Ev fun ε => term P (sh (n + 3) pl ε) (insert (n + 2) {n, n + 1}) s n (n + 1) = crossing v q P := by
  obtain ⟨da, db, dc⟩ := F.dots
  have hdet : ∃ κ : ℚ, 0 < κ ∧ det3 P.plane.n.q (pl n).n (pl (n + 1)).n = κ * dotQ P.plane.n.q v := by
    obtain ⟨κ, hk, hc⟩ := F.cross
    refine ⟨κ, hk, ?_⟩
    unfold det3
    unfold dotQ
    rw [hc 0, hc 1, hc 2]; ring
  obtain ⟨κ, hk, hdet⟩ := hdet
  unfold crossing
  have esg : sgn (det3 P.plane.n.q (pl n).n (pl (n + 1)).n) = sgn (dotQ P.plane.n.q v) := by
    rw [hdet]
    rcases lt_trichotomy (dotQ P.plane.n.q v) 0 with h | h | h
    · rw [sgn_neg h, sgn_neg (mul_neg_of_pos_of_neg hk h)]
    · rw [h, mul_zero]
    · rw [sgn_pos h, sgn_pos (mul_pos hk h)]
  by_cases hd : dotQ P.plane.n.q v = 0
  · refine Filter.Eventually.of_forall fun ε => ?_
    unfold term
    have : sgn (det3 P.plane.n.q (sh (n + 3) pl ε n).n (sh (n + 3) pl ε (n + 1)).n) = 0 := by
      show sgn (det3 P.plane.n.q (pl n).n (pl (n + 1)).n) = 0
      rw [esg, hd, sgn_zero]
    rw [this, hd, sgn_zero, zero_mul, zero_mul]
  have hd3 : det3 P.plane.n.q (pl n).n (pl (n + 1)).n ≠ 0 := by rw [hdet]; exact mul_ne_zero hk.ne' hd
  set N := P.plane.n.q with hN
  obtain ⟨t0, ht0⟩ : ∃ t0 : ℚ, dotQ N (q + t0 • v) = P.plane.d := by
    refine ⟨(P.plane.d - dotQ N q) / dotQ N v, ?_⟩
    rw [ray_dot, div_mul_cancel₀ _ hd]; ring
  have hx0 : q + t0 • v = meet N P.plane.d (pl n) (pl (n + 1)) := by
    refine (meet_unique hd3 ht0 ?_ ?_).symm
    · unfold Pl.val; rw [ray_dot, da, mul_zero, add_zero]; exact F.onA
    · unfold Pl.val; rw [ray_dot, db, mul_zero, add_zero]; exact F.onB
  have only : ∀ t : ℚ, q + t • v ∈ P.region → t = t0 := by
    intro t ht
    have := region_onPlane hP ht
    rw [← ht0, ray_dot, ray_dot] at this
    have : (t - t0) * dotQ N v = 0 := by linarith
    exact sub_eq_zero.1 ((mul_eq_zero.1 this).resolve_right hd)
  have main : Ev fun ε => (meet N P.plane.d (sh (n + 3) pl ε n) (sh (n + 3) pl ε (n + 1)) ∈ P.region ∧
      Inside2 (sh (n + 3) pl ε) (insert (n + 2) {n, n + 1}) s n (n + 1) (meet N P.plane.d (sh (n + 3) pl ε n) (sh (n + 3) pl ε (n + 1)))) ↔
      ∃ t : ℚ, 0 < t ∧ q + t • v ∈ P.region := by
    have exT : ∀ i, ∃ α β : ℚ, ∀ ε, Poly.turn N (P.pt i) (P.pt ((i + 1) % P.count)) (meet N P.plane.d (sh (n + 3) pl ε n) (sh (n + 3) pl ε (n + 1))) =
        Poly.turn N (P.pt i) (P.pt ((i + 1) % P.count)) (q + t0 • v) + α * ε ^ (n + 3 - n) + β * ε ^ (n + 3 - (n + 1)) := by
      intro i
      obtain ⟨α, β, _, h⟩ := meet_expand (d := P.plane.d) (m := n + 3) hd3 (crossQ N (fun j => P.pt ((i + 1) % P.count) j - P.pt i j))
      refine ⟨α, β, fun ε => ?_⟩
      rw [turn_dot, turn_dot, h ε, hx0]; ring
    have exC : ∃ α β : ℚ, ∀ ε, (sh (n + 3) pl ε (n + 2)).val (meet N P.plane.d (sh (n + 3) pl ε n) (sh (n + 3) pl ε (n + 1))) =
        t0 * dotQ c v + α * ε ^ (n + 3 - n) + β * ε ^ (n + 3 - (n + 1)) + ε ^ (n + 3 - (n + 2)) := by
      obtain ⟨α, β, _, h⟩ := meet_expand (d := P.plane.d) (m := n + 3) hd3 (pl (n + 2)).n
      refine ⟨α, β, fun ε => ?_⟩
      rw [sh_val]
      have o := F.onC
      unfold Pl.val at o ⊢
      rw [h ε, ← hx0, ray_dot, dc]
      linarith
    have in2 : ∀ ε : ℚ, ∀ x, Inside2 (sh (n + 3) pl ε) (insert (n + 2) {n, n + 1}) s n (n + 1) x ↔ (s (n + 2) : ℚ) * (sh (n + 3) pl ε (n + 2)).val x < 0 := by
      intro ε x
      unfold Inside2
      constructor
      · intro h; exact h (n + 2) (by simp) (by omega) (by omega)
      · intro h k hk h1 h2
        have : k = n + 2 := by simp at hk; tauto
        rw [this]; exact h
    obtain ⟨α, β, hC⟩ := exC
    by_cases hin : q + t0 • v ∈ P.region
    · rcases lt_trichotomy t0 0 with h | h | h
      · have e := ev_pos0 (mul_pos_of_neg_of_neg h hs) ((s (n + 2) : ℚ) * α) ((s (n + 2) : ℚ) * β) (s (n + 2) : ℚ)
          (i := n + 3 - n) (j := n + 3 - (n + 1)) (k := n + 3 - (n + 2)) (by omega) (by omega) (by omega)
        filter_upwards [e] with ε he
        rw [in2, hC]
        constructor
        · rintro ⟨_, h'⟩; exfalso; nlinarith
        · rintro ⟨t, ht, hr⟩
          rw [only t hr] at ht; exact absurd ht (not_lt.2 h.le)
      · rw [h, zero_smul, add_zero] at hin
        exact absurd hin hq
      · have e := ev_pos0 (mul_pos_of_neg_of_neg (mul_neg_of_pos_of_neg h hs) (show (-1 : ℚ) < 0 by norm_num)) (-((s (n + 2) : ℚ) * α)) (-((s (n + 2) : ℚ) * β)) (-(s (n + 2) : ℚ))
          (i := n + 3 - n) (j := n + 3 - (n + 1)) (k := n + 3 - (n + 2)) (by omega) (by omega) (by omega)
        have e2 : Ev fun ε => ∀ i ∈ Finset.range P.count, 0 < Poly.turn N (P.pt i) (P.pt ((i + 1) % P.count)) (meet N P.plane.d (sh (n + 3) pl ε n) (sh (n + 3) pl ε (n + 1))) := by
          refine ev_fin _ fun i hi => ?_
          obtain ⟨α', β', h'⟩ := exT i
          filter_upwards [ev_pos0 (hgen t0 h hin i (Finset.mem_range.1 hi)) α' β' 0 (i := n + 3 - n) (j := n + 3 - (n + 1)) (k := 1) (by omega) (by omega) (by omega)] with ε he
          rw [h' ε]; linarith
        filter_upwards [e, e2] with ε he he2
        rw [in2, hC]
        refine ⟨fun _ => ⟨t0, h, hin⟩, fun _ => ⟨mem_of_turns hP ?_ fun i hi => (he2 i (Finset.mem_range.2 hi)).le, by linarith⟩⟩
        rw [side_dot, ← hN, (meet_spec (a := sh (n + 3) pl ε n) (b := sh (n + 3) pl ε (n + 1)) (D := P.plane.d) hd3).1, sub_self]
    · obtain ⟨i, hi, hneg⟩ : ∃ i < P.count, Poly.turn N (P.pt i) (P.pt ((i + 1) % P.count)) (q + t0 • v) < 0 := by
        by_contra hc
        push Not at hc
        exact hin (mem_of_turns hP (by rw [side_dot, ← hN, ht0, sub_self]) hc)
      obtain ⟨α', β', h'⟩ := exT i
      filter_upwards [ev_pos0 (neg_pos.2 hneg) (-α') (-β') 0 (i := n + 3 - n) (j := n + 3 - (n + 1)) (k := 1) (by omega) (by omega) (by omega)] with ε he
      constructor
      · rintro ⟨h1, _⟩
        have := turn_region hP hi h1
        rw [← hN, h' ε] at this
        exfalso; linarith
      · rintro ⟨t, _, hr⟩
        rw [only t hr] at hr
        exact absurd hr hin
  filter_upwards [main] with ε he
  unfold term
  rw [show sgn (det3 N (sh (n + 3) pl ε n).n (sh (n + 3) pl ε (n + 1)).n) = sgn (dotQ N v) from esg, ind_congr he]

theorem total_three (c : Q3) (M : List (Polygon D)) (pl : ℕ → Pl) (n : ℕ) :
    total c M pl [n + 2, n + 1, n] = 2 * (tau c (pl (n + 2)).n (pl n).n (pl (n + 1)).n * flow M pl (insert (n + 2) {n, n + 1}) (fl {n + 2}) n (n + 1)) := by
  have e1 : ([n + 1, n] : List ℕ).toFinset = {n, n + 1} := by ext x; simp; tauto
  have e2 : ([n] : List ℕ).toFinset = {n} := by ext x; simp
  simp only [total]
  rw [e1, e2]
  unfold cutOff
  rw [Finset.sum_pair (by omega), Finset.sum_pair (by omega), Finset.sum_pair (by omega), Finset.sum_singleton, Finset.sum_singleton, tau_self c (pl (n + 1)).n (pl n).n, flow_self, flow_self,
    flow_swap M pl _ _ n (n + 1), tau_swap c _ (pl n).n (pl (n + 1)).n]
  simp
  ring

theorem Frame.tau {c v q : Q3} {pl : ℕ → Pl} {n : ℕ} (F : Frame c v q pl n) : Bsp.tau c (pl (n + 2)).n (pl n).n (pl (n + 1)).n = sgn (dotQ c v) := by
  obtain ⟨κ, hk, hc⟩ := F.cross
  have hc0 := hc 0
  have hc1 := hc 1
  have hc2 := hc 2
  simp only [crossQ_zero, crossQ_one, crossQ_two] at hc0 hc1 hc2
  have s0 := F.sum 0
  have s1 := F.sum 1
  have s2 := F.sum 2
  have e : ∀ x, x = κ * dotQ c v → sgn x = sgn (dotQ c v) := by
    rintro x rfl
    rcases lt_trichotomy (dotQ c v) 0 with h | h | h
    · rw [sgn_neg h, sgn_neg (mul_neg_of_pos_of_neg hk h)]
    · rw [h, mul_zero]
    · rw [sgn_pos h, sgn_pos (mul_pos hk h)]
  have f1 : om c (pl n).n (pl (n + 1)).n = κ * dotQ c v := by
    unfold om dotQ
    rw [hc 0, hc 1, hc 2]; ring
  have cv : ∀ i, (pl (n + 2)).n i = c i - (pl n).n i - (pl (n + 1)).n i := fun i => by rw [F.sum i]; ring
  have f2 : om c (pl (n + 2)).n (pl n).n = om c (pl n).n (pl (n + 1)).n := by
    unfold om dotQ
    simp only [crossQ_zero, crossQ_one, crossQ_two, cv]
    ring
  have f3 : om c (pl (n + 1)).n (pl (n + 2)).n = om c (pl n).n (pl (n + 1)).n := by
    unfold om dotQ
    simp only [crossQ_zero, crossQ_one, crossQ_two, cv]
    ring
  have f4 : det3 (pl (n + 2)).n (pl n).n (pl (n + 1)).n = om c (pl n).n (pl (n + 1)).n := by
    unfold om det3 dotQ
    simp only [crossQ_zero, crossQ_one, crossQ_two, cv]
    ring
  unfold Bsp.tau
  rw [f2, f3, f4, f1, e _ rfl]
  simp

theorem Frame.feasible {c v q : Q3} {pl : ℕ → Pl} {n : ℕ} (F : Frame c v q pl n) : Ev fun ε => ∃ x, ∀ k ∈ Finset.range (n + 3), (sh (n + 3) pl ε k).val x < 0 := by
  have hdet : det3 (pl (n + 2)).n (pl n).n (pl (n + 1)).n ≠ 0 := by
    have := F.tau
    intro h
    unfold Bsp.tau at this
    rw [h, sgn_zero] at this
    have nz : sgn (dotQ c v) ≠ 0 := fun h => F.up (sgn_eq_zero.1 h)
    split_ifs at this with hh
    · exact nz (this ▸ hh.2.2.symm)
    · exact nz this.symm
  set A := (pl n).n with hA
  set B := (pl (n + 1)).n with hB
  set C := (pl (n + 2)).n with hC
  set Δ := det3 C A B with hΔ
  obtain ⟨y, ya, yb, yc⟩ : ∃ y : Q3, dotQ A y < 0 ∧ dotQ B y < 0 ∧ dotQ C y < 0 := by
    refine ⟨fun i => -Δ * (crossQ B C i + crossQ C A i + crossQ A B i), ?_, ?_, ?_⟩
    all_goals
      rw [show dotQ _ _ = -(Δ * Δ) by
        rw [hΔ]; unfold det3 dotQ; simp only [crossQ_zero, crossQ_one, crossQ_two]; ring]
      exact neg_neg_of_pos (mul_self_pos.2 hdet)
  have hval : ∀ (p : Pl) (ρ : ℚ), p.val (q + ρ • y) = p.val q + ρ * dotQ p.n y := by
    intro p ρ
    unfold Pl.val; rw [ray_dot]; ring
  have e1 : Ev fun ρ => ∀ k ∈ Finset.range n, (pl k).val (q + ρ • y) < 0 := by
    refine ev_fin _ fun k hk => ?_
    filter_upwards [ev_pos0 (neg_pos.2 (F.inside k (Finset.mem_range.1 hk))) (-dotQ (pl k).n y) 0 0 (i := 1) (j := 1) (k := 1) (by omega) (by omega) (by omega)] with ρ h
    rw [hval]; linarith
  obtain ⟨ρ, hρ, h1⟩ := ev_exists e1
  have h2 : ∀ k ∈ Finset.range (n + 3), (pl k).val (q + ρ • y) < 0 := by
    intro k hk
    rw [Finset.mem_range] at hk
    rcases Nat.lt_or_ge k n with h | h
    · exact h1 k (Finset.mem_range.2 h)
    · obtain rfl | rfl | rfl : k = n ∨ k = n + 1 ∨ k = n + 2 := by omega
      · rw [hval, F.onA, zero_add]; exact mul_neg_of_pos_of_neg hρ ya
      · rw [hval, F.onB, zero_add]; exact mul_neg_of_pos_of_neg hρ yb
      · rw [hval, F.onC, zero_add]; exact mul_neg_of_pos_of_neg hρ yc
  have e2 : Ev fun ε => ∀ k ∈ Finset.range (n + 3), (sh (n + 3) pl ε k).val (q + ρ • y) < 0 := by
    refine ev_fin _ fun k hk => ?_
    filter_upwards [ev_pos0 (neg_pos.2 (h2 k hk)) (-1) 0 0 (i := n + 3 - k) (j := 1) (k := 1) (by rw [Finset.mem_range] at hk; omega) (by omega) (by omega)] with ε h
    rw [sh_val]; linarith
  exact e2.mono fun ε h => ⟨_, h⟩

/-- The sum over the planes of a cell without facets is twice the number of crossings of
the ray. -/
theorem Frame.eval {c v q : Q3} {pl : ℕ → Pl} {n : ℕ} (F : Frame c v q pl n) {M : List (Polygon D)} (hM : ∀ P ∈ M, IsConvexPolygon P) (hc : ClosedMesh M)
    (hempty : ∀ x, (∀ k < n, (pl k).val x < 0) → ∀ P ∈ M, x ∉ P.region)
    (hgen : ∀ P ∈ M, ∀ t : ℚ, 0 < t → q + t • v ∈ P.region → ∀ i < P.count, 0 < Poly.turn P.plane.n.q (P.pt i) (P.pt ((i + 1) % P.count)) (q + t • v)) :
    Ev fun ε => total c M (sh (n + 3) pl ε) (List.range n).reverse = 2 * (M.map (crossing v q)).sum := by
  have term : ∀ {s : ℕ → ℤ}, (s (n + 2) : ℚ) * dotQ c v < 0 →
      Ev fun ε => flow M (sh (n + 3) pl ε) (insert (n + 2) {n, n + 1}) s n (n + 1) = (M.map (crossing v q)).sum := by
    intro s hs
    have := ev_list M (p := fun P ε => Bsp.term P (sh (n + 3) pl ε) (insert (n + 2) {n, n + 1}) s n (n + 1) = crossing v q P) fun P hP =>
      F.ev_term (hM P hP) (hempty q F.inside P hP) (hgen P hP) hs
    filter_upwards [this] with ε h
    unfold flow
    congr 1
    exact List.map_congr_left h
  have hflow : Ev fun ε => sgn (dotQ c v) * flow M (sh (n + 3) pl ε) (insert (n + 2) {n, n + 1}) (fl {n + 2}) n (n + 1) = (M.map (crossing v q)).sum := by
    rcases lt_or_gt_of_ne F.up with h | h
    · have e := term (s := fun _ => 1) (by push_cast; linarith)
      filter_upwards [e, ev_generic M pl (le_refl (n + 3))] with ε h1 h2
      have st := flow_star hM hc (h2.mono (T := {n, n + 1}) (by intro x hx; simp at hx ⊢; omega)) (s := fun _ => 1) (fun _ _ => Or.inl rfl) (a := n) (by simp)
      rw [show ({n, n + 1} : Finset ℕ).erase n = {n + 1} by rw [Finset.erase_insert]; simp, Finset.sum_singleton, one_mul] at st
      rw [flow_split (B := n + 2) (s1 := fun _ => 1) (s2 := fl {n + 2}) (by simp) (by simp) (by simp) (fun _ _ => rfl)
        (fun k hk => by unfold fl; rw [if_neg]; simp at hk ⊢; omega) rfl (by unfold fl; simp)
        (fun P hP hd => h2.facet P hP n (by simp) (n + 1) (by simp) (n + 2) (by simp) (by omega) (by omega) (by omega) hd), h1] at st
      rw [sgn_neg h]; linarith
    · have e := term (s := fl {n + 2}) (by unfold fl; rw [if_pos (by simp)]; push_cast; linarith)
      filter_upwards [e] with ε h1
      rw [h1, sgn_pos h, one_mul]
  filter_upwards [hflow, F.ev_drop M, F.feasible, ev_generic M pl (le_refl (n + 3)), ev_pos] with ε h1 h2 ⟨x, h3⟩ h4 h5
  have e1 : total c M (sh (n + 3) pl ε) (List.range (n + 3)).reverse = total c M (sh (n + 3) pl ε) (List.range n).reverse := by
    rw [List.range_succ, List.range_succ, List.range_succ]
    simp only [List.reverse_append, List.reverse_singleton, List.singleton_append, total]
    rw [cutOff_empty c h5 hempty (by intro k hk; simp at hk ⊢; omega) (by omega), cutOff_empty c h5 hempty (by intro k hk; simp at hk ⊢; omega) (by omega),
      cutOff_empty c h5 hempty (by intro k hk; simp at hk ⊢; omega) (by omega)]
    simp
  have perm : (List.range (n + 3)).reverse.Perm (List.range n ++ [n + 2, n + 1, n]) := by
    refine (List.reverse_perm _).trans ?_
    rw [List.range_succ, List.range_succ, List.range_succ, List.append_assoc, List.append_assoc]
    refine List.Perm.append_left _ ?_
    exact (List.reverse_perm [n, n + 1, n + 2]).symm
  have nodup : (List.range (n + 3)).reverse.Nodup := List.nodup_reverse.2 List.nodup_range
  have fs : (List.range (n + 3)).reverse.toFinset = Finset.range (n + 3) := by ext; simp
  rw [← e1, total_perm (pl := sh (n + 3) pl ε) hM hc perm nodup (by rw [fs]; exact h4) (fun i hi j hj => F.seen i (by simpa using hi) j (by simpa using hj))
    (x := x) (fun k hk => h3 k (by simpa using hk)),
    total_drop (fun h hh K hK1 hK2 => h2 h (by simpa using hh) K (by intro y hy; apply hK1; simp at hy ⊢; tauto) (by intro y hy; have := hK2 hy; simp at this ⊢; omega)),
    total_three]
  have ht : Bsp.tau c (sh (n + 3) pl ε (n + 2)).n (sh (n + 3) pl ε n).n (sh (n + 3) pl ε (n + 1)).n = sgn (dotQ c v) := F.tau
  rw [ht, h1]

end Walnut.Bsp
