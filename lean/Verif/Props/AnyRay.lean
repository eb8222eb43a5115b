/-
C40: the winding number of a closed mesh around a point that is on none of its facets does
not depend on the ray.

The statements use the specification of winding numbers in Props/Winding.
-/
import Verif.Props.ClosedOutput

namespace Walnut.Props
open Walnut.Geom Walnut.Poly Walnut.Bsp

/-- A half-space around the point that misses the facet. -/
theorem facet_apart {D : Type} {P : Polygon D} (h : IsConvexPolygon P) {q : Q3} (hq : q ∉ P.region) :
    ∃ p : Pl, p.n ≠ 0 ∧ p.val q < 0 ∧ ∀ x ∈ P.region, 0 ≤ p.val x := by
  have nn := normal_pos h
  have hz : ∀ w : Q3, dotQ w w ≠ 0 → w ≠ 0 := fun w hw e => hw (by rw [e]; simp [dotQ])
  by_cases hs : P.plane.side q = 0
  · have : ∃ i < P.count, Poly.turn P.plane.n.q (P.pt i) (P.pt ((i + 1) % P.count)) q < 0 := by
      by_contra hc
      push Not at hc
      exact hq (mem_of_turns h hs hc)
    obtain ⟨i, hi, ht⟩ := this
    have tv : ∀ x, Poly.turn P.plane.n.q (P.pt i) (P.pt ((i + 1) % P.count)) x =
        Pl.val ⟨crossQ P.plane.n.q (P.pt ((i + 1) % P.count) - P.pt i), dotQ (crossQ P.plane.n.q (P.pt ((i + 1) % P.count) - P.pt i)) (P.pt i)⟩ x := by
      intro x
      unfold Poly.turn Pl.val dotQ
      simp only [crossQ_zero, crossQ_one, crossQ_two, Pi.sub_apply]
      ring
    refine ⟨_, ?_, by rw [← tv]; exact ht, fun x hx => by rw [← tv]; exact turn_region h hi hx⟩
    intro e
    have e : crossQ P.plane.n.q (P.pt ((i + 1) % P.count) - P.pt i) = 0 := e
    rw [tv] at ht
    unfold Pl.val at ht
    simp only [e, dotQ, Pi.zero_apply] at ht
    norm_num at ht
  · refine ⟨⟨(-P.plane.side q) • P.plane.n.q, -P.plane.side q * P.plane.d⟩, ?_, ?_, fun x hx => ?_⟩
    · intro e
      have := (smul_eq_zero.1 e).resolve_left (neg_ne_zero.2 hs)
      exact hz _ (ne_of_gt nn) this
    all_goals
      unfold Pl.val
      rw [show ∀ z : Q3, dotQ ((-P.plane.side q) • P.plane.n.q) z = -P.plane.side q * dotQ P.plane.n.q z from fun z => by
        unfold dotQ; simp only [Pi.smul_apply, smul_eq_mul]; ring]
    · have := mul_self_pos.2 hs
      have e : P.plane.side q = dotQ P.plane.n.q q - P.plane.d := rfl
      have : P.plane.side q * P.plane.side q = P.plane.side q * (dotQ P.plane.n.q q - P.plane.d) := by rw [← e]
      simp only
      linarith
    · have e : dotQ P.plane.n.q x - P.plane.d = 0 := side_region h hx
      simp only
      rw [show -P.plane.side q * dotQ P.plane.n.q x - -P.plane.side q * P.plane.d = -P.plane.side q * (dotQ P.plane.n.q x - P.plane.d) by ring, e, mul_zero]

/-- C40: the winding number of a closed mesh around a point that is on none of its facets does
not depend on the ray on which it is counted. -/
theorem C40_ray {M : List (Polygon Unit)} (hM : ∀ P ∈ M, IsConvexPolygon P) (hc : Closed M) {q : Q3} (hq : ∀ P ∈ M, q ∉ P.region) {v v' : Q3} (hv : Transversal M q v)
    (hv' : Transversal M q v') : windingNumber M q v = windingNumber M q v' := by
  have : ∃ cell : List Pl, (∀ p ∈ cell, p.n ≠ 0) ∧ (∀ p ∈ cell, p.val q < 0) ∧ ∀ P ∈ M, ∃ p ∈ cell, ∀ x ∈ P.region, 0 ≤ p.val x := by
    clear hc hv hv'
    induction M with
    | nil => exact ⟨[], by simp, by simp, by simp⟩
    | cons P M ih =>
      obtain ⟨cell, c1, c2, c3⟩ := ih (fun P hP => hM P (by simp [hP])) fun P hP => hq P (by simp [hP])
      obtain ⟨p, p1, p2, p3⟩ := facet_apart (hM P (by simp)) (hq P (by simp))
      refine ⟨p :: cell, by simpa using ⟨p1, c1⟩, by simpa using ⟨p2, c2⟩, fun R hR => ?_⟩
      rcases List.mem_cons.1 hR with rfl | hR
      · exact ⟨p, by simp, p3⟩
      · obtain ⟨r, r1, r2⟩ := c3 R hR
        exact ⟨r, by simp [r1], r2⟩
  obtain ⟨cell, c1, c2, c3⟩ := this
  rw [windingNumber_crossing, windingNumber_crossing]
  refine cell_winding c1 hM hc.mesh ?_ c2 c2 hv.1 hv'.1 hv.2 hv'.2
  intro x hx P hP hr
  obtain ⟨p, p1, p2⟩ := c3 P hP
  exact absurd (hx p p1) (not_lt.2 (p2 x hr))

/-- The mesh that goes around is a tetrahedron: rays in two directions. -/
example : (∀ P ∈ tetra, IsConvexPolygon P) ∧ Closed tetra ∧ (∀ P ∈ tetra, ![1, 1, 1] ∉ P.region) ∧ ∃ v v', v ≠ v' ∧ Transversal tetra ![1, 1, 1] v ∧ Transversal tetra ![1, 1, 1] v' := by
  have hq : ∀ P ∈ tetra, ![1, 1, 1] ∉ P.region := by
    intro P hP hr
    have hs := side_region (tetra_convex P hP) hr
    have : ∀ P ∈ tetra, P.plane.side ![1, 1, 1] ≠ 0 := by decide +kernel
    exact this P hP hs
  obtain ⟨η, h0, h1⟩ := ev_exists (ev_transversal tetra_convex ![1, 1, 1])
  obtain ⟨η', _, h2, h3⟩ := ev_exists ((ev_transversal tetra_convex ![1, 1, 1]).and (ev_cont (f := fun ε => η - ε) (by fun_prop) (by simpa using h0)))
  refine ⟨tetra_convex, tetra_closed, hq, dirZ η, dirZ η', fun e => ?_, h1, h2⟩
  have := congrFun e 0
  simp [dirZ] at this
  nlinarith

/-- C71: the winding numbers of the meshes are those around the point, on whatever rays they
are counted. -/
theorem C71_point {aabb : Bool} {d : NodeData} {S : List Source} (h : Reach aabb (.leaf d) S) {t : Node} (ht : Splits d t) {f : Filter} (hf : NoParity f)
    (hk : ∀ id ∈ invertedIds f, id < d.info.length) {choose : Choose} {group : Group} (hg : Grouping group) {pfuel fuel : Nat} {t' : Node} {tr : List Visit}
    (hr : traverse f.eval choose group pfuel fuel t = some (t', tr)) (hc : ∀ id, Closed (meshOf S id)) {q u : Q3} (hG : GenericRay t' tr S q u)
    (hq : ∀ s ∈ S, q ∉ s.poly.region) {u' : ℕ → Q3} (hu : ∀ id, Transversal (meshOf S id) q (u' id)) :
    windingNumber (output tr) q u = one (Inside f fun id => windingNumber (meshOf S id) q (u' id)) - one (Inside f fun _ => 0) := by
  rw [C71_boolean h ht hf hk hg hr hc hG]
  have : (fun id => windingNumber (meshOf S id) q u) = fun id => windingNumber (meshOf S id) q (u' id) := by
    funext id
    refine C40_ray ?_ (hc id) ?_ (hG.transversal id) (hu id)
    all_goals
      intro P hP
      obtain ⟨s, hs, rfl⟩ := List.mem_map.1 hP
    · exact h.leaf_pwn.1 s (List.mem_of_mem_filter hs)
    · exact hq s (List.mem_of_mem_filter hs)
  rw [this]

end Walnut.Props
