/-
The points of a line behind a given one and near it are in general position with respect to the
facets.
-/
import Verif.Bsp.AroundEdge

namespace Walnut.Bsp
open Walnut.Geom Walnut.Poly Walnut.Props

theorem parallel_of_cross {u D : Q3} (hD : D ≠ 0) (h : crossQ u D = 0) : ∃ k : ℚ, u = k • D := by
  obtain ⟨j, hj⟩ : ∃ j, D j ≠ 0 := by
    by_contra hc
    push Not at hc
    exact hD (funext hc)
  have h0 := congrFun h 0; have h1 := congrFun h 1; have h2 := congrFun h 2
  simp only [crossQ_zero, crossQ_one, crossQ_two, Pi.zero_apply] at h0 h1 h2
  refine ⟨u j / D j, funext fun i => ?_⟩
  rw [Pi.smul_apply, smul_eq_mul, div_mul_eq_mul_div, eq_div_iff hj]
  fin_cases i <;> fin_cases j <;> simp only [Fin.zero_eta, Fin.mk_one, Fin.reduceFinMk] <;> linarith

theorem ev_genericPoint (M : List (Polygon EdgeInfo)) (hc : ∀ Q ∈ M, IsConvexPolygon Q) (x : Q3) {D : Q3} (hD : D ≠ 0) : Ev fun ε => GenericPoint M (x + ε • D) D := by
  have hDD := self_pos hD
  have e1 : Ev fun ε => ∀ Q ∈ M, ∀ i ∈ Finset.range Q.count, dotQ D (Q.pt i) ≠ dotQ D (x + ε • D) := by
    refine ev_list M fun Q _ => ev_fin _ fun i _ => ?_
    filter_upwards [ev_line (x := dotQ D (Q.pt i) - dotQ D x) (y := -dotQ D D) (Or.inr (by linarith))] with ε hε e
    apply hε
    rw [e]
    unfold dotQ; simp only [Pi.add_apply, Pi.smul_apply, smul_eq_mul]; ring
  have e2 : Ev fun ε => ∀ Q ∈ M, Q.plane.side (x + ε • D) = 0 → dotQ Q.plane.n.q D = 0 := by
    refine ev_list M fun Q _ => ?_
    by_cases h : dotQ Q.plane.n.q D = 0
    · exact Filter.Eventually.of_forall fun _ _ => h
    filter_upwards [ev_line (x := Q.plane.side x) (Or.inr h)] with ε hε e
    rw [side_ray] at e
    exact absurd e hε
  have e3 : Ev fun ε => ∀ Q ∈ M, ∀ i ∈ Finset.range Q.count, Between (Q.pt i) (Q.pt ((i + 1) % Q.count)) (x + ε • D) → ∃ k : ℚ, k ≠ 0 ∧ Q.pt ((i + 1) % Q.count) - Q.pt i = k • D := by
    refine ev_list M fun Q hQ => ev_fin _ fun i hi => ?_
    have hi := Finset.mem_range.1 hi
    have hne : Q.pt ((i + 1) % Q.count) - Q.pt i ≠ 0 := by
      have h3 := (hc Q hQ).three
      have hm : (i + 1) % Q.count < Q.count := Nat.mod_lt _ (by omega)
      have : (i + 1) % Q.count ≠ i := by
        rcases Nat.lt_or_ge (i + 1) Q.count with c | c
        · rw [Nat.mod_eq_of_lt c]; omega
        · rw [show i + 1 = Q.count by omega, Nat.mod_self]; omega
      rw [sub_ne_zero]
      rcases lt_or_gt_of_ne this with c | c
      · exact (hc Q hQ).distinct _ _ c hi
      · exact ((hc Q hQ).distinct _ _ c hm).symm
    generalize Q.pt ((i + 1) % Q.count) = b at *
    generalize Q.pt i = a at *
    by_cases h : crossQ (b - a) D = 0
    · obtain ⟨k, hk⟩ := parallel_of_cross hD h
      refine Filter.Eventually.of_forall fun _ _ => ⟨k, ?_, hk⟩
      rintro rfl
      exact hne (by rw [hk, zero_smul])
    obtain ⟨j, hj⟩ : ∃ j, crossQ (b - a) D j ≠ 0 := by
      by_contra hcon
      push Not at hcon
      exact h (funext hcon)
    filter_upwards [ev_line (x := crossQ (b - a) (x - a) j) (Or.inr hj)] with ε hε e
    exfalso
    apply hε
    obtain ⟨s, _, _, es⟩ := e
    have e0 := congrFun es 0; have e1 := congrFun es 1; have e2 := congrFun es 2
    simp only [Pi.add_apply, Pi.smul_apply, smul_eq_mul, Pi.sub_apply] at e0 e1 e2
    fin_cases j <;> simp only [Fin.zero_eta, Fin.mk_one, Fin.reduceFinMk, crossQ_zero, crossQ_one, crossQ_two, Pi.sub_apply]
    · linear_combination (b 1 - a 1) * e2 - (b 2 - a 2) * e1
    · linear_combination (b 2 - a 2) * e0 - (b 0 - a 0) * e2
    · linear_combination (b 0 - a 0) * e1 - (b 1 - a 1) * e0
  filter_upwards [e1, e2, e3] with ε h1 h2 h3
  exact ⟨fun Q hQ i hi => h1 Q hQ i (Finset.mem_range.2 hi), h2, fun Q hQ i hi => h3 Q hQ i (Finset.mem_range.2 hi)⟩

end Walnut.Bsp
