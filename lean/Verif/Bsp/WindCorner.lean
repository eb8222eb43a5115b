/-
Where the moved planes meet inside of a facet in the cell: at the facet's vertices, one
plane being the deepest one at the vertex and the other one the deepest one at an edge
beside it.
-/
import Verif.Bsp.WindEps

namespace Walnut.Bsp
open Walnut.Geom Walnut.Poly Filter Topology

variable {D : Type}

theorem turn_dot (N p q x : Q3) : Poly.turn N p q x = dotQ (crossQ N (fun i => q i - p i)) x - dotQ (crossQ N (fun i => q i - p i)) p := by
  unfold Poly.turn dotQ
  simp only [crossQ_zero, crossQ_one, crossQ_two]
  ring

/-- The turn in terms of the distances to two planes. -/
theorem turn_meet {N v x y : Q3} {a b : Pl} (hx : dotQ N x = dotQ N v) (hy : dotQ N y = dotQ N v) (ha : a.val v = 0) (hb : b.val v = 0) :
    dotQ N N * (a.val y * b.val x - b.val y * a.val x) = det3 N a.n b.n * Poly.turn N v y x := by
  have a1 : ∀ z, a.val z = dotQ a.n (fun i => z i - v i) := by
    intro z; unfold Pl.val dotQ at *; linarith
  have b1 : ∀ z, b.val z = dotQ b.n (fun i => z i - v i) := by
    intro z; unfold Pl.val dotQ at *; linarith
  have hw : dotQ N (fun i => x i - v i) = 0 := by unfold dotQ at *; linarith
  have hu : dotQ N (fun i => y i - v i) = 0 := by unfold dotQ at *; linarith
  rw [a1, a1, b1, b1]
  unfold Poly.turn
  generalize (fun i => x i - v i) = w at *
  generalize (fun i => y i - v i) = u at *
  have e : dotQ N N * (dotQ a.n u * dotQ b.n w - dotQ b.n u * dotQ a.n w) - det3 N a.n b.n * dotQ N (crossQ u w) =
      dotQ (crossQ a.n b.n) (crossQ N w) * dotQ N u - dotQ (crossQ a.n b.n) (crossQ N u) * dotQ N w := by
    unfold det3 dotQ
    simp only [crossQ_zero, crossQ_one, crossQ_two]
    ring
  rw [hu, hw] at e
  linarith

theorem region_onPlane {P : Polygon D} (h : IsConvexPolygon P) {x : Q3} (hx : x ∈ P.region) : dotQ P.plane.n.q x = P.plane.d := by
  refine convexHull_min (t := {x | dotQ P.plane.n.q x = P.plane.d}) ?_ ?_ hx
  · rintro _ ⟨k, hk, rfl⟩
    have := h.onPlane k hk
    rw [side_dot] at this
    simp only [Set.mem_ofPred_eq]
    linarith
  · intro x hx y hy s t hs ht hst
    simp only [Set.mem_ofPred_eq] at *
    have e : dotQ P.plane.n.q (s • x + t • y) = s * dotQ P.plane.n.q x + t * dotQ P.plane.n.q y := by
      unfold dotQ; simp only [Pi.add_apply, Pi.smul_apply, smul_eq_mul]; ring
    rw [e, hx, hy, ← add_mul, hst, one_mul]

/-- The two planes meet inside of the facet if one is the deepest at `v` and the other one
the deepest at the edge from `v` to `w`. -/
theorem corner_suff {P : Polygon D} (h : IsConvexPolygon P) {pl : ℕ → Pl} {n m0 : ℕ} (hn : n ≤ m0)
    (hin : ∀ k < n, ∀ x ∈ P.region, (pl k).val x ≤ 0) (hoff : ∀ k < n, ∃ x ∈ P.region, (pl k).val x < 0)
    {m l : ℕ} (hm : m < n) (hlm : l < m) (hd : det3 P.plane.n.q (pl m).n (pl l).n ≠ 0) {v w : Q3} (hv : v ∈ P.region) (hw : w ∈ P.region)
    (mv : (pl m).val v = 0) (lv : (pl l).val v = 0) (lw : (pl l).val w = 0) (mw : (pl m).val w < 0)
    (dv : ∀ k, m < k → k < n → (pl k).val v ≠ 0) (de : ∀ k, l < k → k < n → ¬((pl k).val v = 0 ∧ (pl k).val w = 0)) :
    Ev fun ε => meet P.plane.n.q P.plane.d (sh m0 pl ε m) (sh m0 pl ε l) ∈ P.region ∧
      ∀ k ∈ Finset.range n, k ≠ m → k ≠ l → (sh m0 pl ε k).val (meet P.plane.n.q P.plane.d (sh m0 pl ε m) (sh m0 pl ε l)) < 0 := by
  have pdot : ∀ x ∈ P.region, dotQ P.plane.n.q x = P.plane.d := fun x hx => region_onPlane h hx
  have v0 := meet_unique (D := (P.plane.d : ℚ)) hd (pdot v hv) mv lv
  have t1 : Ev fun ε => ∀ i ∈ Finset.range P.count, 0 ≤ Poly.turn P.plane.n.q (P.pt i) (P.pt ((i + 1) % P.count))
      (meet P.plane.n.q P.plane.d (sh m0 pl ε m) (sh m0 pl ε l)) := by
    refine ev_fin _ fun i hi => ?_
    have hi := Finset.mem_range.1 hi
    have tr := fun z hz => turn_region h hi (z := z) hz
    generalize P.pt i = p at tr ⊢
    generalize P.pt ((i + 1) % P.count) = q at tr ⊢
    simp only [turn_dot] at tr ⊢
    obtain ⟨α, β, e1, e2⟩ := meet_expand (d := P.plane.d) (m := m0) hd (crossQ P.plane.n.q (fun i => q i - p i))
    simp only [e2, v0]
    generalize (crossQ P.plane.n.q (fun i => q i - p i)) = u at *
    have tv := tr v hv
    have tw := tr w hw
    rw [e1 w v (by rw [pdot w hw, pdot v hv]), mv, lv, lw] at tw
    rcases tv.lt_or_eq with c | c
    · filter_upwards [ev_pos0 c α β 0 (i := m0 - m) (j := m0 - l) (k := 1) (by omega) (by omega) (by omega)] with ε he
      linarith
    · have ha : 0 ≤ α := by
        by_contra hc
        have := mul_pos_of_neg_of_neg (not_le.1 hc) mw
        linarith
      rcases ha.lt_or_eq with c' | c'
      · filter_upwards [ev_pos1 c' β 0 (i := m0 - m) (j := m0 - l) (k := m0 - l) (by omega) (by omega)] with ε he
        linarith
      · obtain ⟨x, hx, lx⟩ := hoff l (by omega)
        have tx := tr x hx
        rw [e1 x v (by rw [pdot x hx, pdot v hv]), mv, lv, ← c'] at tx
        have hb : 0 ≤ β := by
          by_contra hc
          have := mul_pos_of_neg_of_neg (not_le.1 hc) lx
          linarith
        filter_upwards [ev_pos] with ε he
        have := mul_nonneg hb (pow_pos he (m0 - l)).le
        rw [← c']
        linarith
  have t2 : Ev fun ε => ∀ k ∈ Finset.range n, k ≠ m → k ≠ l →
      (sh m0 pl ε k).val (meet P.plane.n.q P.plane.d (sh m0 pl ε m) (sh m0 pl ε l)) < 0 := by
    refine ev_fin _ fun k hk => ev_imp fun hkm => ev_imp fun hkl => ?_
    have hk := Finset.mem_range.1 hk
    obtain ⟨α, β, e1, e2⟩ := meet_expand (d := P.plane.d) (m := m0) hd (pl k).n
    have e1' : ∀ x ∈ P.region, (pl k).val x = (pl k).val v - α * (pl m).val x - β * (pl l).val x := by
      intro x hx
      have := e1 x v (by rw [pdot x hx, pdot v hv])
      rw [mv, lv] at this
      unfold Pl.val at this ⊢
      linarith
    have e2' : ∀ ε, (sh m0 pl ε k).val (meet P.plane.n.q P.plane.d (sh m0 pl ε m) (sh m0 pl ε l)) =
        (pl k).val v + α * ε ^ (m0 - m) + β * ε ^ (m0 - l) + ε ^ (m0 - k) := by
      intro ε
      rw [sh_val]
      unfold Pl.val
      rw [e2 ε, v0]
      ring
    simp only [e2']
    rcases (hin k hk v hv).lt_or_eq with c | c
    · filter_upwards [ev_pos0 (neg_pos.2 c) (-α) (-β) (-1) (i := m0 - m) (j := m0 - l) (k := m0 - k) (by omega) (by omega) (by omega)] with ε he
      linarith
    · have hkm' : k < m := by
        by_contra hc
        exact dv k (by omega) hk c
      have kw := e1' w hw
      rw [c, lw] at kw
      have kw' := hin k hk w hw
      rw [c]
      have ha : α ≤ 0 := by
        by_contra hc
        have := mul_neg_of_pos_of_neg (not_le.1 hc) mw
        linarith
      rcases ha.lt_or_eq with c' | c'
      · filter_upwards [ev_pos1 (neg_pos.2 c') (-β) (-1) (i := m0 - m) (j := m0 - l) (k := m0 - k) (by omega) (by omega)] with ε he
        linarith
      · rw [c'] at kw
        have hkl' : k < l := by
          by_contra hc
          exact de k (by omega) hk ⟨c, by linarith⟩
        obtain ⟨x, hx, kx⟩ := hoff k hk
        have tx := e1' x hx
        rw [c, c'] at tx
        have lx := hin l (by omega) x hx
        have hb : β < 0 := by
          by_contra hc
          have := mul_nonpos_of_nonneg_of_nonpos (not_lt.1 hc) lx
          linarith
        filter_upwards [ev_pos1 (neg_pos.2 hb) (-1) 0 (i := m0 - l) (j := m0 - k) (k := m0 - k) (by omega) (by omega)] with ε he
        rw [c']
        linarith
  filter_upwards [t1, t2] with ε h1 h2
  refine ⟨mem_of_turns h ?_ fun i hi => h1 i (Finset.mem_range.2 hi), h2⟩
  rw [side_dot, (meet_spec (N := P.plane.n.q) (D := P.plane.d) (a := sh m0 pl ε m) (b := sh m0 pl ε l) hd).1, sub_self]

/-- If the two planes always meet inside of the facet, they meet at a vertex. -/
theorem corner_nec {P : Polygon D} (h : IsConvexPolygon P) {pl : ℕ → Pl} {n m0 : ℕ} (hn : n ≤ m0)
    (hin : ∀ k < n, ∀ x ∈ P.region, (pl k).val x ≤ 0)
    {m l : ℕ} (hm : m < n) (hlm : l < m) (hd : det3 P.plane.n.q (pl m).n (pl l).n ≠ 0)
    (hf : ∃ᶠ ε in 𝓝[>] (0 : ℚ), meet P.plane.n.q P.plane.d (sh m0 pl ε m) (sh m0 pl ε l) ∈ P.region ∧
      ∀ k ∈ Finset.range n, k ≠ m → k ≠ l → (sh m0 pl ε k).val (meet P.plane.n.q P.plane.d (sh m0 pl ε m) (sh m0 pl ε l)) < 0) :
    ∃ j < P.count, (pl m).val (P.pt j) = 0 ∧ (pl l).val (P.pt j) = 0 ∧ (∀ k, m < k → k < n → (pl k).val (P.pt j) ≠ 0) ∧
      ∀ w ∈ P.region, (pl l).val w = 0 → w ≠ P.pt j → ∀ k, l < k → k < n → ¬((pl k).val (P.pt j) = 0 ∧ (pl k).val w = 0) := by
  obtain ⟨s0, s1, s2⟩ := meet_spec (D := (P.plane.d : ℚ)) hd
  have hreg : meet P.plane.n.q P.plane.d (pl m) (pl l) ∈ P.region := by
    refine mem_of_turns h (by rw [side_dot, s0, sub_self]) fun i hi => ?_
    by_contra hc
    apply hf
    obtain ⟨α, β, e1, e2⟩ := meet_expand (d := P.plane.d) (m := m0) hd (crossQ P.plane.n.q (fun k => P.pt ((i + 1) % P.count) k - P.pt i k))
    rw [turn_dot] at hc
    filter_upwards [ev_pos0 (neg_pos.2 (not_le.1 hc)) (-α) (-β) 0 (i := m0 - m) (j := m0 - l) (k := 1) (by omega) (by omega) (by omega)] with ε he hq
    have := turn_region h hi hq.1
    rw [turn_dot, e2] at this
    linarith
  obtain ⟨j, hj, hjm, hjl⟩ : ∃ j < P.count, (pl m).val (P.pt j) = 0 ∧ (pl l).val (P.pt j) = 0 := by
    by_contra hc
    push Not at hc
    have : meet P.plane.n.q P.plane.d (pl m) (pl l) ∈ {x | (pl m).val x + (pl l).val x < 0} := by
      refine convexHull_min ?_ ?_ hreg
      · rintro _ ⟨k, hk, rfl⟩
        have h1 := hin m hm _ (pt_mem hk)
        have h2 := hin l (by omega) _ (pt_mem hk)
        have := hc k hk
        simp only [Set.mem_ofPred_eq]
        rcases h1.lt_or_eq with c | c
        · linarith
        · have := lt_of_le_of_ne h2 (this c)
          linarith
      · intro x hx y hy s t hs ht hst
        simp only [Set.mem_ofPred_eq] at *
        rw [Pl.val_comb _ hst, Pl.val_comb _ hst]
        rcases hs.lt_or_eq with c | c
        · have := mul_neg_of_pos_of_neg c hx
          have := mul_nonpos_of_nonneg_of_nonpos ht hy.le
          linarith
        · have ht1 : t = 1 := by linarith
          rw [← c, ht1]
          linarith
    simp only [Set.mem_ofPred_eq] at this
    linarith
  have v0 := meet_unique (D := (P.plane.d : ℚ)) hd (region_onPlane h (pt_mem hj)) hjm hjl
  have ex : ∀ k, ∃ α β : ℚ, (∀ x ∈ P.region, (pl k).val x = (pl k).val (P.pt j) - α * (pl m).val x - β * (pl l).val x) ∧
      ∀ ε, (sh m0 pl ε k).val (meet P.plane.n.q P.plane.d (sh m0 pl ε m) (sh m0 pl ε l)) =
        (pl k).val (P.pt j) + α * ε ^ (m0 - m) + β * ε ^ (m0 - l) + ε ^ (m0 - k) := by
    intro k
    obtain ⟨α, β, e1, e2⟩ := meet_expand (d := P.plane.d) (m := m0) hd (pl k).n
    refine ⟨α, β, fun x hx => ?_, fun ε => ?_⟩
    · have := e1 x (P.pt j) (by rw [region_onPlane h hx, region_onPlane h (pt_mem hj)])
      rw [hjm, hjl] at this
      unfold Pl.val at this ⊢
      linarith
    · rw [sh_val]
      unfold Pl.val
      rw [e2 ε, v0]
      ring
  have deep : ∀ k, m < k → k < n → (pl k).val (P.pt j) ≠ 0 := by
    intro k h1 h2 h3
    obtain ⟨α, β, _, e2⟩ := ex k
    apply hf
    filter_upwards [ev_pos1 (one_pos : (0 : ℚ) < 1) α β (i := m0 - k) (j := m0 - m) (k := m0 - l) (by omega) (by omega)] with ε he hq
    have := hq.2 k (Finset.mem_range.2 h2) (by omega) (by omega)
    rw [e2, h3] at this
    linarith
  refine ⟨j, hj, hjm, hjl, deep, ?_⟩
  rintro w hw lw hwj k h1 h2 ⟨k1, k2⟩
  have mw : (pl m).val w ≠ 0 := by
    intro c
    apply hwj
    rw [← meet_unique (D := (P.plane.d : ℚ)) hd (region_onPlane h hw) c lw, v0]
  have hkm : k < m := by
    rcases Nat.lt_trichotomy k m with c | c | c
    · exact c
    · rw [c] at k2; exact absurd k2 mw
    · exact absurd k1 (deep k c h2)
  obtain ⟨α, β, e1, e2⟩ := ex k
  have hα : α = 0 := by
    have := e1 w hw
    rw [k1, k2, lw] at this
    have : α * (pl m).val w = 0 := by linarith
    exact (mul_eq_zero.1 this).resolve_right mw
  apply hf
  filter_upwards [ev_pos1 (one_pos : (0 : ℚ) < 1) β 0 (i := m0 - k) (j := m0 - l) (k := m0 - l) (by omega) (by omega)] with ε he hq
  have := hq.2 k (Finset.mem_range.2 h2) (by omega) (by omega)
  rw [e2, k1, hα] at this
  linarith

/-- `k` is the deepest of the planes below `n` through vertex `j`. -/
def DeepV (pl : ℕ → Pl) (n : ℕ) (P : Polygon D) (j k : ℕ) : Prop :=
  k < n ∧ (pl k).val (P.pt j) = 0 ∧ ∀ i, k < i → i < n → (pl i).val (P.pt j) ≠ 0

/-- `k` is the deepest of the planes below `n` through the edge that starts at vertex `j`. -/
def DeepE (pl : ℕ → Pl) (n : ℕ) (P : Polygon D) (j k : ℕ) : Prop :=
  k < n ∧ ((pl k).val (P.pt j) = 0 ∧ (pl k).val (P.pt ((j + 1) % P.count)) = 0) ∧
    ∀ i, k < i → i < n → ¬((pl i).val (P.pt j) = 0 ∧ (pl i).val (P.pt ((j + 1) % P.count)) = 0)

theorem normal_pos {P : Polygon D} (h : IsConvexPolygon P) : 0 < dotQ P.plane.n.q P.plane.n.q := by
  have h0 : (P.plane.n.comp P.drop : ℚ) ≠ 0 := by exact_mod_cast h.drop
  have h1 : ∀ i, (P.plane.n.comp i : ℚ) = P.plane.n.q i := by
    intro i; fin_cases i <;> rfl
  rw [h1] at h0
  unfold dotQ
  have := sq_nonneg (P.plane.n.q 0)
  have := sq_nonneg (P.plane.n.q 1)
  have := sq_nonneg (P.plane.n.q 2)
  have h2 : 0 < (P.plane.n.q P.drop) ^ 2 := by positivity
  obtain e | e | e := fin3 P.drop <;> rw [e] at h2 <;> nlinarith

theorem turn_flip (N p q x : Q3) : Poly.turn N q p x = -Poly.turn N p q x := by
  unfold Poly.turn dotQ
  simp only [crossQ_zero, crossQ_one, crossQ_two]
  ring

theorem next_ne {P : Polygon D} (h : IsConvexPolygon P) {j : ℕ} (hj : j < P.count) : P.pt ((j + 1) % P.count) ≠ P.pt j := by
  have h3 := h.three
  rcases Nat.lt_or_ge (j + 1) P.count with c | c
  · rw [Nat.mod_eq_of_lt c]
    exact fun e => h.distinct j (j + 1) (by omega) c e.symm
  · obtain rfl : j = P.count - 1 := by omega
    rw [show P.count - 1 + 1 = P.count by omega, Nat.mod_self]
    exact h.distinct 0 _ (by omega) hj

theorem pt_inj {P : Polygon D} (h : IsConvexPolygon P) {i j : ℕ} (hi : i < P.count) (hj : j < P.count) (e : P.pt i = P.pt j) : i = j := by
  rcases Nat.lt_trichotomy i j with c | c | c
  · exact absurd e (h.distinct i j c hj)
  · exact c
  · exact absurd e.symm (h.distinct j i c hi)

/-- The edge beside the vertex lies on the other plane. -/
theorem edge_on {P : Polygon D} (h : IsConvexPolygon P) {pl : ℕ → Pl} {n m0 : ℕ} (hn : n ≤ m0) {m l : ℕ} (hm : m < n) (hlm : l < m)
    (hd : det3 P.plane.n.q (pl m).n (pl l).n ≠ 0) {v w : Q3} (hv : v ∈ P.region) (hw : w ∈ P.region)
    (mv : (pl m).val v = 0) (lv : (pl l).val v = 0) (lw : (pl l).val w ≤ 0)
    (hf : ∃ᶠ ε in 𝓝[>] (0 : ℚ), 0 ≤ det3 P.plane.n.q (pl m).n (pl l).n *
      Poly.turn P.plane.n.q v w (meet P.plane.n.q P.plane.d (sh m0 pl ε m) (sh m0 pl ε l))) : (pl l).val w = 0 := by
  by_contra hc
  have lw' := lt_of_le_of_ne lw hc
  apply hf
  filter_upwards [ev_pos1 (neg_pos.2 lw') ((pl m).val w) 0 (i := m0 - m) (j := m0 - l) (k := m0 - l) (by omega) (by omega)] with ε he h0
  obtain ⟨f0, f1, f2⟩ := meet_spec (N := P.plane.n.q) (D := P.plane.d) (a := sh m0 pl ε m) (b := sh m0 pl ε l) hd
  rw [sh_val] at f1 f2
  have e := turn_meet (N := P.plane.n.q) (v := v) (x := meet P.plane.n.q P.plane.d (sh m0 pl ε m) (sh m0 pl ε l)) (y := w) (a := pl m) (b := pl l)
    (by rw [f0, region_onPlane h hv]) (by rw [region_onPlane h hw, region_onPlane h hv]) mv lv
  rw [← e] at h0
  generalize meet P.plane.n.q P.plane.d (sh m0 pl ε m) (sh m0 pl ε l) = x at *
  have g1 : (pl m).val x = -ε ^ (m0 - m) := by linarith
  have g2 : (pl l).val x = -ε ^ (m0 - l) := by linarith
  have := nonneg_of_mul_nonneg_right h0 (normal_pos h)
  rw [g1, g2] at this
  linarith

/-- The planes meet inside of the facet, on the inner side of the other planes. -/
def MeetIn (P : Polygon D) (pl : ℕ → Pl) (n a b : ℕ) : Prop :=
  meet P.plane.n.q P.plane.d (pl a) (pl b) ∈ P.region ∧
    ∀ k ∈ Finset.range n, k ≠ a → k ≠ b → (pl k).val (meet P.plane.n.q P.plane.d (pl a) (pl b)) < 0

theorem MeetIn.swap {P : Polygon D} {pl : ℕ → Pl} {n a b : ℕ} : MeetIn P pl n a b ↔ MeetIn P pl n b a := by
  unfold MeetIn
  rw [meet_swap]
  exact and_congr Iff.rfl ⟨fun h k hk h1 h2 => h k hk h2 h1, fun h k hk h1 h2 => h k hk h2 h1⟩

theorem ev_iff {p : ℚ → Prop} {q : Prop} (h1 : q → Ev p) (h2 : (∃ᶠ ε in 𝓝[>] (0 : ℚ), p ε) → q) : Ev fun ε => p ε ↔ q := by
  by_cases hq : q
  · exact (h1 hq).mono fun ε h => ⟨fun _ => hq, fun _ => h⟩
  · have : Ev fun ε => ¬ p ε := by
      by_contra hc
      exact hq (h2 (fun h => hc h))
    exact this.mono fun ε h => ⟨fun h' => absurd h' h, fun h' => absurd h' hq⟩

theorem corner_out {P : Polygon D} (h : IsConvexPolygon P) {pl : ℕ → Pl} {n m0 : ℕ} (hn : n ≤ m0)
    (hin : ∀ k < n, ∀ x ∈ P.region, (pl k).val x ≤ 0) (hoff : ∀ k < n, ∃ x ∈ P.region, (pl k).val x < 0)
    {m l : ℕ} (hm : m < n) (hlm : l < m) (hd : 0 < det3 P.plane.n.q (pl m).n (pl l).n) :
    Ev fun ε => MeetIn P (sh m0 pl ε) n m l ↔ ∃ j < P.count, DeepV pl n P j m ∧ DeepE pl n P j l := by
  have h3 := h.three
  refine ev_iff ?_ fun hf => ?_
  · rintro ⟨j, hj, ⟨a1, a2, a3⟩, b1, ⟨b2, b3⟩, b4⟩
    have hj' : (j + 1) % P.count < P.count := Nat.mod_lt _ (by omega)
    refine corner_suff h hn hin hoff hm hlm hd.ne' (pt_mem hj) (pt_mem hj') a2 b2 b3 (lt_of_le_of_ne (hin m hm _ (pt_mem hj')) fun c => ?_) a3 b4
    apply next_ne h hj
    rw [← meet_unique (D := (P.plane.d : ℚ)) hd.ne' (region_onPlane h (pt_mem hj')) c b3,
      meet_unique (D := (P.plane.d : ℚ)) hd.ne' (region_onPlane h (pt_mem hj)) a2 b2]
  · obtain ⟨j, hj, h1, h2, h4, h5⟩ := corner_nec h hn hin hm hlm hd.ne' hf
    have hj' : (j + 1) % P.count < P.count := Nat.mod_lt _ (by omega)
    have hl := edge_on h hn hm hlm hd.ne' (pt_mem hj) (pt_mem hj') h1 h2 (hin l (by omega) _ (pt_mem hj'))
      (hf.mono fun ε he => mul_nonneg hd.le (turn_region h hj he.1))
    exact ⟨j, hj, ⟨hm, h1, h4⟩, by omega, ⟨h2, hl⟩, h5 _ (pt_mem hj') hl (next_ne h hj)⟩

theorem corner_in {P : Polygon D} (h : IsConvexPolygon P) {pl : ℕ → Pl} {n m0 : ℕ} (hn : n ≤ m0)
    (hin : ∀ k < n, ∀ x ∈ P.region, (pl k).val x ≤ 0) (hoff : ∀ k < n, ∃ x ∈ P.region, (pl k).val x < 0)
    {m l : ℕ} (hm : m < n) (hlm : l < m) (hd : det3 P.plane.n.q (pl m).n (pl l).n < 0) :
    Ev fun ε => MeetIn P (sh m0 pl ε) n m l ↔ ∃ j < P.count, DeepE pl n P j l ∧ DeepV pl n P ((j + 1) % P.count) m := by
  have h3 := h.three
  refine ev_iff ?_ fun hf => ?_
  · rintro ⟨j, hj, ⟨b1, ⟨b2, b3⟩, b4⟩, a1, a2, a3⟩
    have hj' : (j + 1) % P.count < P.count := Nat.mod_lt _ (by omega)
    refine corner_suff h hn hin hoff hm hlm hd.ne (pt_mem hj') (pt_mem hj) a2 b3 b2 (lt_of_le_of_ne (hin m hm _ (pt_mem hj)) fun c => ?_) a3
      fun k k1 k2 k3 => b4 k k1 k2 k3.symm
    apply next_ne h hj
    rw [← meet_unique (D := (P.plane.d : ℚ)) hd.ne (region_onPlane h (pt_mem hj)) c b2,
      meet_unique (D := (P.plane.d : ℚ)) hd.ne (region_onPlane h (pt_mem hj')) a2 b3]
  · obtain ⟨j, hj, h1, h2, h4, h5⟩ := corner_nec h hn hin hm hlm hd.ne hf
    obtain ⟨i, hi, rfl⟩ : ∃ i < P.count, (i + 1) % P.count = j := by
      refine ⟨(j + P.count - 1) % P.count, Nat.mod_lt _ (by omega), ?_⟩
      rw [Nat.mod_add_mod, show j + P.count - 1 + 1 = j + P.count by omega, Nat.add_mod_right, Nat.mod_eq_of_lt hj]
    have hl := edge_on h hn hm hlm hd.ne (pt_mem hj) (pt_mem hi) h1 h2 (hin l (by omega) _ (pt_mem hi))
      (hf.mono fun ε he => by rw [turn_flip]; exact mul_nonneg_of_nonpos_of_nonpos hd.le (neg_nonpos.2 (turn_region h hi he.1)))
    refine ⟨i, hi, ⟨by omega, ⟨hl, h2⟩, fun k k1 k2 k3 => h5 _ (pt_mem hi) hl (next_ne h hi).symm k k1 k2 k3.symm⟩, hm, h1, h4⟩

theorem DeepV.unique {pl : ℕ → Pl} {n : ℕ} {P : Polygon D} {j a b : ℕ} (ha : DeepV pl n P j a) (hb : DeepV pl n P j b) : a = b := by
  rcases Nat.lt_trichotomy a b with c | c | c
  · exact absurd hb.2.1 (ha.2.2 b c hb.1)
  · exact c
  · exact absurd ha.2.1 (hb.2.2 a c ha.1)

theorem DeepE.unique {pl : ℕ → Pl} {n : ℕ} {P : Polygon D} {j a b : ℕ} (ha : DeepE pl n P j a) (hb : DeepE pl n P j b) : a = b := by
  rcases Nat.lt_trichotomy a b with c | c | c
  · exact absurd hb.2.1 (ha.2.2 b c hb.1)
  · exact c
  · exact absurd ha.2.1 (hb.2.2 a c ha.1)

theorem DeepV.ge {pl : ℕ → Pl} {n : ℕ} {P : Polygon D} {j a b : ℕ} (ha : DeepV pl n P j a) (hb : b < n) (h0 : (pl b).val (P.pt j) = 0) : b ≤ a := by
  by_contra c
  exact ha.2.2 b (by omega) hb h0

theorem DeepE.ge {pl : ℕ → Pl} {n : ℕ} {P : Polygon D} {j a b : ℕ} (ha : DeepE pl n P j a) (hb : b < n) (h0 : (pl b).val (P.pt j) = 0)
    (h1 : (pl b).val (P.pt ((j + 1) % P.count)) = 0) : b ≤ a := by
  by_contra c
  exact ha.2.2 b (by omega) hb ⟨h0, h1⟩

/-- The deepest plane at a vertex and the one at the edge after it, in this order. -/
theorem det_out {P : Polygon D} (h : IsConvexPolygon P) {pl : ℕ → Pl} {n : ℕ} (hin : ∀ k < n, ∀ x ∈ P.region, (pl k).val x ≤ 0)
    (hoff : ∀ k < n, ∃ x ∈ P.region, (pl k).val x < 0) {j a b : ℕ} (hj : j < P.count) (ha : DeepV pl n P j a) (hb : DeepE pl n P j b) (hab : a ≠ b) :
    0 < det3 P.plane.n.q (pl a).n (pl b).n := by
  have h3 := h.three
  have hj' : (j + 1) % P.count < P.count := Nat.mod_lt _ (by omega)
  have hba := ha.ge hb.1 hb.2.1.1
  have y : (pl a).val (P.pt ((j + 1) % P.count)) < 0 := by
    refine lt_of_le_of_ne (hin a ha.1 _ (pt_mem hj')) fun c => ?_
    have := hb.ge ha.1 ha.2.1 c
    omega
  obtain ⟨x, hx, bx⟩ := hoff b hb.1
  have e := turn_meet (N := P.plane.n.q) (v := P.pt j) (x := x) (y := P.pt ((j + 1) % P.count)) (a := pl a) (b := pl b)
    (by rw [region_onPlane h hx, region_onPlane h (pt_mem hj)]) (by rw [region_onPlane h (pt_mem hj'), region_onPlane h (pt_mem hj)]) ha.2.1 hb.2.1.1
  rw [hb.2.1.2, zero_mul, sub_zero] at e
  have h1 := mul_pos (normal_pos h) (mul_pos_of_neg_of_neg y bx)
  rw [e] at h1
  exact pos_of_mul_pos_left h1 (turn_region h hj hx)

/-- The deepest plane at an edge and the one at the vertex after it, in this order. -/
theorem det_in {P : Polygon D} (h : IsConvexPolygon P) {pl : ℕ → Pl} {n : ℕ} (hin : ∀ k < n, ∀ x ∈ P.region, (pl k).val x ≤ 0)
    (hoff : ∀ k < n, ∃ x ∈ P.region, (pl k).val x < 0) {j a b : ℕ} (hj : j < P.count) (ha : DeepE pl n P j a) (hb : DeepV pl n P ((j + 1) % P.count) b)
    (hab : a ≠ b) : 0 < det3 P.plane.n.q (pl a).n (pl b).n := by
  have h3 := h.three
  have hj' : (j + 1) % P.count < P.count := Nat.mod_lt _ (by omega)
  have hba := hb.ge ha.1 ha.2.1.2
  have y : (pl b).val (P.pt j) < 0 := by
    refine lt_of_le_of_ne (hin b hb.1 _ (pt_mem hj)) fun c => ?_
    have := ha.ge hb.1 c hb.2.1
    omega
  obtain ⟨x, hx, ax⟩ := hoff a ha.1
  have e := turn_meet (N := P.plane.n.q) (v := P.pt ((j + 1) % P.count)) (x := x) (y := P.pt j) (a := pl a) (b := pl b)
    (by rw [region_onPlane h hx, region_onPlane h (pt_mem hj')]) (by rw [region_onPlane h (pt_mem hj'), region_onPlane h (pt_mem hj)]) ha.2.1.2 hb.2.1
  rw [ha.2.1.1, zero_mul, zero_sub, turn_flip] at e
  have h1 := mul_pos (normal_pos h) (mul_pos_of_neg_of_neg y ax)
  have h2 : 0 < det3 P.plane.n.q (pl a).n (pl b).n * Poly.turn P.plane.n.q (P.pt j) (P.pt ((j + 1) % P.count)) x := by linarith
  exact pos_of_mul_pos_left h2 (turn_region h hj hx)

/-- How often `a` and `b` are the deepest planes at a vertex not inside of `n` and at the edge
after it, or at an edge and at the vertex after it. -/
noncomputable def corners (pl : ℕ → Pl) (n : ℕ) (P : Polygon D) (a b : ℕ) : ℤ :=
  ∑ j ∈ Finset.range P.count, (ind (DeepV pl n P j a ∧ DeepE pl n P j b ∧ 0 ≤ (pl n).val (P.pt j)) +
    ind (DeepE pl n P j a ∧ DeepV pl n P ((j + 1) % P.count) b ∧ 0 ≤ (pl n).val (P.pt ((j + 1) % P.count))))

theorem corners_zero {P : Polygon D} (h : IsConvexPolygon P) {pl : ℕ → Pl} {n : ℕ} (hin : ∀ k < n, ∀ x ∈ P.region, (pl k).val x ≤ 0)
    (hoff : ∀ k < n, ∃ x ∈ P.region, (pl k).val x < 0) {a b : ℕ} (hab : a ≠ b) (hd : ¬ 0 < det3 P.plane.n.q (pl a).n (pl b).n) :
    corners pl n P a b = 0 := by
  refine Finset.sum_eq_zero fun j hj => ?_
  have hj := Finset.mem_range.1 hj
  rw [ind_false_of, ind_false_of, add_zero]
  · rintro ⟨h1, h2, _⟩
    exact hd (det_in h hin hoff hj h1 h2 hab)
  · rintro ⟨h1, h2, _⟩
    exact hd (det_out h hin hoff hj h1 h2 hab)

/-- The side of the last plane, which was moved by more than the other two. -/
theorem ev_last {N : Q3} {d : ℚ} {pl : ℕ → Pl} {n m0 a b : ℕ} (hn : n < m0) (ha : a < n) (hb : b < n) (hd : det3 N (pl a).n (pl b).n ≠ 0) :
    Ev fun ε => 0 < (sh m0 pl ε n).val (meet N d (sh m0 pl ε a) (sh m0 pl ε b)) ↔ 0 ≤ (pl n).val (meet N d (pl a) (pl b)) := by
  obtain ⟨α, β, _, e2⟩ := meet_expand (d := d) (m := m0) hd (pl n).n
  have e2' : ∀ ε, (sh m0 pl ε n).val (meet N d (sh m0 pl ε a) (sh m0 pl ε b)) =
      (pl n).val (meet N d (pl a) (pl b)) + α * ε ^ (m0 - a) + β * ε ^ (m0 - b) + ε ^ (m0 - n) := by
    intro ε
    rw [sh_val]
    unfold Pl.val
    rw [e2 ε]
    ring
  simp only [e2']
  generalize (pl n).val (meet N d (pl a) (pl b)) = x
  rcases lt_trichotomy x 0 with c | c | c
  · filter_upwards [ev_pos0 (neg_pos.2 c) (-α) (-β) (-1) (i := m0 - a) (j := m0 - b) (k := m0 - n) (by omega) (by omega) (by omega)] with ε he
    exact ⟨fun h => by linarith, fun h => by linarith⟩
  · filter_upwards [ev_pos1 (one_pos : (0 : ℚ) < 1) α β (i := m0 - n) (j := m0 - a) (k := m0 - b) (by omega) (by omega)] with ε he
    exact ⟨fun h => by linarith, fun h => by linarith⟩
  · filter_upwards [ev_pos0 c α β 1 (i := m0 - a) (j := m0 - b) (k := m0 - n) (by omega) (by omega) (by omega)] with ε he
    exact ⟨fun h => by linarith, fun h => by linarith⟩

theorem sum_ind_one {n : ℕ} {p : ℕ → Prop} {j : ℕ} (hj : j < n) (hp : ∀ i < n, p i → i = j) : ∑ i ∈ Finset.range n, ind (p i) = ind (p j) := by
  rw [Finset.sum_eq_single j]
  · intro i hi hij
    exact ind_false_of fun c => hij (hp i (Finset.mem_range.1 hi) c)
  · intro hc
    exact absurd (Finset.mem_range.2 hj) hc

theorem corners_pos {P : Polygon D} (h : IsConvexPolygon P) {pl : ℕ → Pl} {n m0 : ℕ} (hn : n < m0) (hin : ∀ k < n, ∀ x ∈ P.region, (pl k).val x ≤ 0)
    (hoff : ∀ k < n, ∃ x ∈ P.region, (pl k).val x < 0) {a b : ℕ} (ha : a < n) (hb : b < n) (hab : a ≠ b)
    (hd : 0 < det3 P.plane.n.q (pl a).n (pl b).n) :
    Ev fun ε => corners pl n P a b = ind (MeetIn P (sh m0 pl ε) n a b ∧
      0 < (sh m0 pl ε n).val (meet P.plane.n.q P.plane.d (sh m0 pl ε a) (sh m0 pl ε b))) := by
  have h3 := h.three
  have hmod : ∀ j, (j + 1) % P.count < P.count := fun j => Nat.mod_lt _ (by omega)
  have at0 : ∀ j < P.count, (pl a).val (P.pt j) = 0 → (pl b).val (P.pt j) = 0 → meet P.plane.n.q P.plane.d (pl a) (pl b) = P.pt j :=
    fun j hj h1 h2 => meet_unique (D := (P.plane.d : ℚ)) hd.ne' (region_onPlane h (pt_mem hj)) h1 h2
  unfold corners
  rw [Finset.sum_add_distrib]
  rcases Nat.lt_or_ge b a with c | c
  · have z : ∑ j ∈ Finset.range P.count, ind (DeepE pl n P j a ∧ DeepV pl n P ((j + 1) % P.count) b ∧ 0 ≤ (pl n).val (P.pt ((j + 1) % P.count))) = 0 := by
      refine Finset.sum_eq_zero fun j _ => ind_false_of ?_
      rintro ⟨h1, h2, _⟩
      have := h2.ge h1.1 h1.2.1.2
      omega
    rw [z, add_zero]
    filter_upwards [corner_out h hn.le hin hoff ha c hd, ev_last (d := P.plane.d) hn ha hb hd.ne'] with ε e1 e2
    by_cases hex : ∃ j < P.count, DeepV pl n P j a ∧ DeepE pl n P j b
    · obtain ⟨j, hj, v, e⟩ := hex
      rw [sum_ind_one hj]
      · rw [at0 j hj v.2.1 e.2.1.1] at e2
        apply ind_congr
        rw [e2, e1]
        exact ⟨fun x => ⟨⟨j, hj, v, e⟩, x.2.2⟩, fun x => ⟨v, e, x.2⟩⟩
      · rintro i hi ⟨v', e', _⟩
        apply pt_inj h hi hj
        rw [← at0 i hi v'.2.1 e'.2.1.1, at0 j hj v.2.1 e.2.1.1]
    · rw [ind_false_of fun x => hex (e1.1 x.1)]
      refine Finset.sum_eq_zero fun j hj => ind_false_of fun x => hex ⟨j, Finset.mem_range.1 hj, x.1, x.2.1⟩
  · have c : a < b := by omega
    have z : ∑ j ∈ Finset.range P.count, ind (DeepV pl n P j a ∧ DeepE pl n P j b ∧ 0 ≤ (pl n).val (P.pt j)) = 0 := by
      refine Finset.sum_eq_zero fun j _ => ind_false_of ?_
      rintro ⟨h1, h2, _⟩
      have := h1.ge h2.1 h2.2.1.1
      omega
    rw [z, zero_add]
    have hd' : det3 P.plane.n.q (pl b).n (pl a).n < 0 := by rw [det3_swap]; linarith
    filter_upwards [corner_in h hn.le hin hoff hb c hd', ev_last (d := P.plane.d) hn ha hb hd.ne'] with ε e1 e2
    rw [MeetIn.swap] at e1
    by_cases hex : ∃ j < P.count, DeepE pl n P j a ∧ DeepV pl n P ((j + 1) % P.count) b
    · obtain ⟨j, hj, e, v⟩ := hex
      rw [sum_ind_one hj]
      · rw [at0 _ (hmod j) e.2.1.2 v.2.1] at e2
        apply ind_congr
        rw [e2, e1]
        exact ⟨fun x => ⟨⟨j, hj, e, v⟩, x.2.2⟩, fun x => ⟨e, v, x.2⟩⟩
      · rintro i hi ⟨e', v', _⟩
        have := pt_inj h (hmod i) (hmod j) (by rw [← at0 _ (hmod i) e'.2.1.2 v'.2.1, at0 _ (hmod j) e.2.1.2 v.2.1])
        rcases Nat.lt_or_ge (i + 1) P.count with c1 | c1 <;> rcases Nat.lt_or_ge (j + 1) P.count with c2 | c2
        · rw [Nat.mod_eq_of_lt c1, Nat.mod_eq_of_lt c2] at this; omega
        · rw [Nat.mod_eq_of_lt c1, show j + 1 = P.count by omega, Nat.mod_self] at this; omega
        · rw [Nat.mod_eq_of_lt c2, show i + 1 = P.count by omega, Nat.mod_self] at this; omega
        · omega
    · rw [ind_false_of fun x => hex (e1.1 x.1)]
      refine Finset.sum_eq_zero fun j hj => ind_false_of fun x => hex ⟨j, Finset.mem_range.1 hj, x.1, x.2.1⟩

theorem inside_last {pl : ℕ → Pl} {n a b : ℕ} (ha : a < n) (hb : b < n) (x : Q3) : Inside2 pl (insert n (Finset.range n)) (fl {n}) a b x ↔
    (∀ k ∈ Finset.range n, k ≠ a → k ≠ b → (pl k).val x < 0) ∧ 0 < (pl n).val x := by
  have f1 : fl {n} n = -1 := by unfold fl; simp
  have f2 : ∀ k ∈ Finset.range n, fl {n} k = 1 := by
    intro k hk
    have := Finset.mem_range.1 hk
    unfold fl; simp; omega
  unfold Inside2
  constructor
  · intro h
    refine ⟨fun k hk h1 h2 => ?_, ?_⟩
    · have := h k (Finset.mem_insert_of_mem hk) h1 h2
      rw [f2 k hk] at this
      simpa using this
    · have := h n (Finset.mem_insert_self _ _) (by omega) (by omega)
      rw [f1] at this
      simpa using this
  · rintro ⟨h1, h2⟩ k hk k1 k2
    rcases Finset.mem_insert.1 hk with rfl | hk
    · rw [f1]; simpa using h2
    · rw [f2 k hk]; simpa using h1 k hk k1 k2

/-- The crossing of the moved planes with a facet in the cell. -/
theorem term_corners {P : Polygon D} (h : IsConvexPolygon P) {pl : ℕ → Pl} {n m0 : ℕ} (hn : n < m0) (hin : ∀ k < n, ∀ x ∈ P.region, (pl k).val x ≤ 0)
    (hoff : ∀ k < n, ∃ x ∈ P.region, (pl k).val x < 0) {a b : ℕ} (ha : a < n) (hb : b < n) :
    Ev fun ε => term P (sh m0 pl ε) (insert n (Finset.range n)) (fl {n}) a b = corners pl n P a b - corners pl n P b a := by
  have pos : ∀ a b, a < n → b < n → 0 < det3 P.plane.n.q (pl a).n (pl b).n →
      Ev fun ε => term P (sh m0 pl ε) (insert n (Finset.range n)) (fl {n}) a b = corners pl n P a b - corners pl n P b a := by
    intro a b ha hb hd
    have hab : a ≠ b := by
      rintro rfl
      have := det3_swap P.plane.n.q (pl a).n (pl a).n
      linarith
    filter_upwards [corners_pos h hn hin hoff ha hb hab hd] with ε he
    rw [he, corners_zero h hin hoff hab.symm (by rw [det3_swap]; linarith), sub_zero]
    unfold term
    rw [show sgn (det3 P.plane.n.q (sh m0 pl ε a).n (sh m0 pl ε b).n) = 1 from sgn_pos hd, one_mul]
    apply ind_congr
    rw [inside_last ha hb, ← and_assoc]
    rfl
  rcases lt_trichotomy (det3 P.plane.n.q (pl a).n (pl b).n) 0 with hd | hd | hd
  · filter_upwards [pos b a hb ha (by rw [det3_swap]; linarith)] with ε he
    rw [term_swap, he]; ring
  · refine Filter.Eventually.of_forall fun ε => ?_
    have z : term P (sh m0 pl ε) (insert n (Finset.range n)) (fl {n}) a b = 0 := by
      unfold term
      rw [show det3 P.plane.n.q (sh m0 pl ε a).n (sh m0 pl ε b).n = 0 from hd, sgn_zero, zero_mul]
    rw [z]
    by_cases hab : a = b
    · rw [hab, sub_self]
    · rw [corners_zero h hin hoff hab (by linarith), corners_zero h hin hoff (Ne.symm hab) (by rw [det3_swap]; linarith), sub_self]
  · exact pos a b ha hb hd

/-- Summed over all pairs of planes. -/
theorem cut_corners {P : Polygon D} (h : IsConvexPolygon P) {pl : ℕ → Pl} {n m0 : ℕ} (hn : n < m0) (hin : ∀ k < n, ∀ x ∈ P.region, (pl k).val x ≤ 0)
    (hoff : ∀ k < n, ∃ x ∈ P.region, (pl k).val x < 0) (T : ℕ → ℕ → ℤ) (hT : ∀ a b, T b a = -T a b) :
    Ev fun ε => ∑ a ∈ Finset.range n, ∑ b ∈ Finset.range n, T a b * term P (sh m0 pl ε) (insert n (Finset.range n)) (fl {n}) a b =
      2 * ∑ a ∈ Finset.range n, ∑ b ∈ Finset.range n, T a b * corners pl n P a b := by
  have h1 : Ev fun ε => ∀ a ∈ Finset.range n, ∀ b ∈ Finset.range n,
      term P (sh m0 pl ε) (insert n (Finset.range n)) (fl {n}) a b = corners pl n P a b - corners pl n P b a :=
    ev_fin _ fun a ha => ev_fin _ fun b hb => term_corners h hn hin hoff (Finset.mem_range.1 ha) (Finset.mem_range.1 hb)
  filter_upwards [h1] with ε he
  have e1 : ∑ a ∈ Finset.range n, ∑ b ∈ Finset.range n, T a b * term P (sh m0 pl ε) (insert n (Finset.range n)) (fl {n}) a b =
      ∑ a ∈ Finset.range n, ∑ b ∈ Finset.range n, T a b * corners pl n P a b - ∑ a ∈ Finset.range n, ∑ b ∈ Finset.range n, T a b * corners pl n P b a := by
    simp only [← Finset.sum_sub_distrib]
    refine Finset.sum_congr rfl fun a ha => Finset.sum_congr rfl fun b hb => ?_
    rw [he a ha b hb]; ring
  have e2 : ∑ a ∈ Finset.range n, ∑ b ∈ Finset.range n, T a b * corners pl n P b a = -∑ a ∈ Finset.range n, ∑ b ∈ Finset.range n, T a b * corners pl n P a b := by
    rw [Finset.sum_comm, ← Finset.sum_neg_distrib]
    refine Finset.sum_congr rfl fun a _ => ?_
    rw [← Finset.sum_neg_distrib]
    refine Finset.sum_congr rfl fun b _ => ?_
    rw [hT a b]; ring
  rw [e1, e2]; ring

end Walnut.Bsp
