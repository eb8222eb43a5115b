/-
Planes moved inwards by powers of a small number: the planes with a higher index by far
more than the ones with a lower index.
-/
import Verif.Bsp.WindSwap
import Mathlib.Topology.Instances.Rat
import Mathlib.Topology.Algebra.Polynomial
import Mathlib.Topology.Algebra.Ring.Basic
import Mathlib.Topology.Order.Basic
import Mathlib.Algebra.Polynomial.Roots

namespace Walnut.Bsp
open Walnut.Geom Walnut.Poly Filter Topology

variable {D : Type}

/-- For all small enough positive numbers. -/
abbrev Ev (p : ℚ → Prop) : Prop := ∀ᶠ ε in 𝓝[>] (0 : ℚ), p ε

theorem ev_exists {p : ℚ → Prop} (h : Ev p) : ∃ ε, 0 < ε ∧ p ε := by
  have := (h.and self_mem_nhdsWithin).exists
  obtain ⟨e, h1, h2⟩ := this
  exact ⟨e, h2, h1⟩

theorem ev_pos : Ev fun ε => 0 < ε := self_mem_nhdsWithin

theorem ev_not {p : ℚ → Prop} (h : ¬ Ev p) (h' : Ev fun ε => ¬ ¬ p ε) : False := h (h'.mono fun _ x => not_not.1 x)

theorem ev_cont {f : ℚ → ℚ} (hf : Continuous f) (h : 0 < f 0) : Ev fun ε => 0 < f ε :=
  (hf.continuousAt.eventually (lt_mem_nhds h)).filter_mono nhdsWithin_le_nhds

/-- The constant term decides. -/
theorem ev_pos0 {x : ℚ} (hx : 0 < x) (a b c : ℚ) {i j k : ℕ} (hi : 0 < i) (hj : 0 < j) (hk : 0 < k) :
    Ev fun ε => 0 < x + a * ε ^ i + b * ε ^ j + c * ε ^ k := by
  apply ev_cont (f := fun ε => x + a * ε ^ i + b * ε ^ j + c * ε ^ k) (by fun_prop)
  simp only [zero_pow hi.ne', zero_pow hj.ne', zero_pow hk.ne']
  linarith

/-- The lowest power decides. -/
theorem ev_pos1 {a : ℚ} (ha : 0 < a) (b c : ℚ) {i j k : ℕ} (hj : i < j) (hk : i < k) :
    Ev fun ε => 0 < a * ε ^ i + b * ε ^ j + c * ε ^ k := by
  have h := ev_pos0 ha b c 0 (i := j - i) (j := k - i) (k := 1) (by omega) (by omega) (by omega)
  filter_upwards [h, ev_pos] with ε h1 h2
  have e : a * ε ^ i + b * ε ^ j + c * ε ^ k = ε ^ i * (a + b * ε ^ (j - i) + c * ε ^ (k - i) + 0 * ε ^ 1) := by
    have e1 : ε ^ j = ε ^ i * ε ^ (j - i) := by rw [← pow_add]; congr 1; omega
    have e2 : ε ^ k = ε ^ i * ε ^ (k - i) := by rw [← pow_add]; congr 1; omega
    rw [e1, e2]; ring
  rw [e]
  exact mul_pos (pow_pos h2 _) h1

/-- A polynomial that is not 0 has no small roots. -/
theorem ev_poly {p : Polynomial ℚ} (hp : p ≠ 0) : Ev fun ε => p.eval ε ≠ 0 := by
  have hfin : {x : ℚ | p.IsRoot x}.Finite := Polynomial.finite_setOf_isRoot hp
  have h0 : (({x : ℚ | p.IsRoot x} \ {0})ᶜ : Set ℚ) ∈ 𝓝 (0 : ℚ) :=
    (hfin.subset Set.diff_subset).isClosed.isOpen_compl.mem_nhds (by simp)
  filter_upwards [nhdsWithin_le_nhds h0, ev_pos] with ε h1 h2
  intro h3
  exact h1 ⟨h3, h2.ne'⟩

/-- A sum of different powers, one of which does not vanish, is not 0. -/
theorem ev_ne (x b c : ℚ) {a : ℚ} (ha : a ≠ 0) {i j k : ℕ} (hi : 0 < i) (hj : i ≠ j) (hk : i ≠ k) :
    Ev fun ε => x + a * ε ^ i + b * ε ^ j + c * ε ^ k ≠ 0 := by
  have hp : (Polynomial.C x + Polynomial.C a * Polynomial.X ^ i + Polynomial.C b * Polynomial.X ^ j + Polynomial.C c * Polynomial.X ^ k : Polynomial ℚ) ≠ 0 := by
    intro h
    have := congrArg (fun q => Polynomial.coeff q i) h
    simp only [Polynomial.coeff_add, Polynomial.coeff_C_mul, Polynomial.coeff_X_pow, Polynomial.coeff_C, Polynomial.coeff_zero, hi.ne', if_false, hj, hk] at this
    simp at this
    exact ha this
  filter_upwards [ev_poly hp] with ε h
  simpa using h

/-- The plane `k` moved inwards by `ε ^ (m - k)`. -/
def sh (m : ℕ) (pl : ℕ → Pl) (ε : ℚ) (k : ℕ) : Pl := ⟨(pl k).n, (pl k).o - ε ^ (m - k)⟩

theorem sh_val (m : ℕ) (pl : ℕ → Pl) (ε : ℚ) (k : ℕ) (x : Q3) : (sh m pl ε k).val x = (pl k).val x + ε ^ (m - k) := by
  unfold Pl.val sh; ring

/-- A linear function on a plane, in terms of two others. -/
theorem pair_expand {N a b : Q3} (hd : det3 N a b ≠ 0) (w : Q3) : ∃ α β : ℚ, ∀ x y, dotQ N x = dotQ N y →
    dotQ w x = dotQ w y + α * (dotQ a y - dotQ a x) + β * (dotQ b y - dotQ b x) := by
  refine ⟨-(det3 N w b / det3 N a b), -(det3 N a w / det3 N a b), fun x y h => ?_⟩
  have e : det3 N a b * (dotQ w x - dotQ w y) = det3 w a b * (dotQ N x - dotQ N y) + det3 N w b * (dotQ a x - dotQ a y) + det3 N a w * (dotQ b x - dotQ b y) := by
    unfold det3 dotQ
    simp only [crossQ_zero, crossQ_one, crossQ_two]
    ring
  rw [h, sub_self, mul_zero, zero_add] at e
  field_simp
  linarith

/-- The values at the point where two moved planes meet. -/
theorem meet_expand {N : Q3} {d : ℚ} {m : ℕ} {pl : ℕ → Pl} {a b : ℕ} (hd : det3 N (pl a).n (pl b).n ≠ 0) (w : Q3) :
    ∃ α β : ℚ, (∀ x y, dotQ N x = dotQ N y →
      dotQ w x = dotQ w y + α * ((pl a).val y - (pl a).val x) + β * ((pl b).val y - (pl b).val x)) ∧
      ∀ ε, dotQ w (meet N d (sh m pl ε a) (sh m pl ε b)) = dotQ w (meet N d (pl a) (pl b)) + α * ε ^ (m - a) + β * ε ^ (m - b) := by
  obtain ⟨α, β, h⟩ := pair_expand hd w
  have h' : ∀ x y, dotQ N x = dotQ N y →
      dotQ w x = dotQ w y + α * ((pl a).val y - (pl a).val x) + β * ((pl b).val y - (pl b).val x) := by
    intro x y hxy
    rw [h x y hxy]
    unfold Pl.val
    ring
  refine ⟨α, β, h', fun ε => ?_⟩
  obtain ⟨e0, e1, e2⟩ := meet_spec (D := d) (a := pl a) (b := pl b) hd
  obtain ⟨f0, f1, f2⟩ := meet_spec (N := N) (D := d) (a := sh m pl ε a) (b := sh m pl ε b) hd
  rw [h' _ _ (f0.trans e0.symm), e1, e2]
  rw [sh_val] at f1 f2
  have g1 : (pl a).val (meet N d (sh m pl ε a) (sh m pl ε b)) = -ε ^ (m - a) := by linarith
  have g2 : (pl b).val (meet N d (sh m pl ε a) (sh m pl ε b)) = -ε ^ (m - b) := by linarith
  rw [g1, g2]
  ring

theorem ev_list {α : Type} (l : List α) {p : α → ℚ → Prop} (h : ∀ x ∈ l, Ev (p x)) : Ev fun ε => ∀ x ∈ l, p x ε := by
  induction l with
  | nil => exact Filter.Eventually.of_forall fun ε x hx => by simp at hx
  | cons a l ih =>
    filter_upwards [h a List.mem_cons_self, ih fun x hx => h x (List.mem_cons_of_mem _ hx)] with ε h1 h2 x hx
    rcases List.mem_cons.1 hx with rfl | hx
    · exact h1
    · exact h2 x hx

theorem ev_fin (S : Finset ℕ) {p : ℕ → ℚ → Prop} (h : ∀ x ∈ S, Ev (p x)) : Ev fun ε => ∀ x ∈ S, p x ε :=
  (Filter.eventually_all_finset S).2 h

theorem ev_imp {c : Prop} {p : ℚ → Prop} (h : c → Ev p) : Ev fun ε => c → p ε := by
  by_cases hc : c
  · exact (h hc).mono fun ε x _ => x
  · exact Filter.Eventually.of_forall fun ε x => absurd x hc

/-- The planes are in general position after they were moved. -/
theorem ev_generic (M : List (Polygon D)) (pl : ℕ → Pl) {m n : ℕ} (hmn : n ≤ m) :
    Ev fun ε => Generic M (sh m pl ε) (Finset.range n) := by
  have h1 : Ev fun ε => ∀ P ∈ M, ∀ a ∈ Finset.range n, ∀ i ∈ Finset.range P.count, (sh m pl ε a).val (P.pt i) ≠ 0 := by
    refine ev_list M fun P _ => ev_fin _ fun a ha => ev_fin _ fun i _ => ?_
    have ha := Finset.mem_range.1 ha
    filter_upwards [ev_ne ((pl a).val (P.pt i)) 0 0 (a := 1) one_ne_zero (i := m - a) (j := m - a + 1) (k := m - a + 1) (by omega) (by omega) (by omega)] with ε h
    rw [sh_val]
    intro h'
    apply h
    linarith
  have h2 : Ev fun ε => ∀ P ∈ M, ∀ a ∈ Finset.range n, ∀ i ∈ Finset.range P.count, ∀ k ∈ Finset.range n, k ≠ a →
      (sh m pl ε a).val (P.pt i) * (sh m pl ε a).val (P.pt ((i + 1) % P.count)) < 0 →
        (sh m pl ε k).val (cr (sh m pl ε a) (P.pt i) (P.pt ((i + 1) % P.count))) ≠ 0 := by
    refine ev_list M fun P _ => ev_fin _ fun a ha => ev_fin _ fun i _ => ev_fin _ fun k hk => ev_imp fun hka => ?_
    have ha := Finset.mem_range.1 ha
    have hk := Finset.mem_range.1 hk
    generalize P.pt i = p
    generalize P.pt ((i + 1) % P.count) = q
    by_cases he : (pl a).val p = (pl a).val q
    · refine Filter.Eventually.of_forall fun ε h => ?_
      rw [sh_val, sh_val, he] at h
      nlinarith [sq_nonneg ((pl a).val q + ε ^ (m - a))]
    · filter_upwards [ev_ne ((pl a).val p * (pl k).val q - (pl a).val q * (pl k).val p) ((pl k).val q - (pl k).val p) 0
        (a := (pl a).val p - (pl a).val q) (sub_ne_zero.2 he) (i := m - k) (j := m - a) (k := m - k + 1) (by omega) (by omega) (by omega)] with ε h _ h'
      apply h
      have hne : (sh m pl ε a).val p - (sh m pl ε a).val q ≠ 0 := by
        rw [sh_val, sh_val]; intro e; apply he; linarith
      have e : (sh m pl ε k).val (cr (sh m pl ε a) p q) * ((sh m pl ε a).val p - (sh m pl ε a).val q) =
          (sh m pl ε a).val p * (sh m pl ε k).val q - (sh m pl ε a).val q * (sh m pl ε k).val p := by
        generalize sh m pl ε a = A at hne ⊢
        generalize sh m pl ε k = B
        generalize hp : A.val p = x at *
        generalize hq : A.val q = y at *
        unfold cr
        rw [hp, hq]
        simp only [Pl.val, dotQ]
        field_simp
        ring
      rw [h', zero_mul, sh_val, sh_val, sh_val, sh_val] at e
      linarith
  have h3 : Ev fun ε => ∀ P ∈ M, ∀ a ∈ Finset.range n, ∀ b ∈ Finset.range n, ∀ k ∈ Finset.range n, b ≠ a → k ≠ a → k ≠ b →
      det3 P.plane.n.q (pl a).n (pl b).n ≠ 0 → (sh m pl ε k).val (meet P.plane.n.q P.plane.d (sh m pl ε a) (sh m pl ε b)) ≠ 0 := by
    refine ev_list M fun P _ => ev_fin _ fun a ha => ev_fin _ fun b hb => ev_fin _ fun k hk => ev_imp fun hba => ev_imp fun hka => ev_imp fun hkb =>
      ev_imp fun hd => ?_
    have ha := Finset.mem_range.1 ha
    have hb := Finset.mem_range.1 hb
    have hk := Finset.mem_range.1 hk
    obtain ⟨α, β, _, h⟩ := meet_expand (d := P.plane.d) (m := m) hd (pl k).n
    filter_upwards [ev_ne ((pl k).val (meet P.plane.n.q P.plane.d (pl a) (pl b))) α β (a := 1) one_ne_zero (i := m - k) (j := m - a) (k := m - b)
      (by omega) (by omega) (by omega)] with ε he
    rw [sh_val]
    unfold Pl.val at he ⊢
    rw [h ε]
    intro h'
    apply he
    linarith
  filter_upwards [h1, h2, h3] with ε g1 g2 g3
  exact ⟨fun P hP a ha i hi => g1 P hP a ha i (Finset.mem_range.2 hi), fun P hP a ha i hi => g2 P hP a ha i (Finset.mem_range.2 hi), g3⟩

end Walnut.Bsp
