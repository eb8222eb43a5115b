/-
The winding number of a closed mesh is the same at all points of a convex cell that the mesh
does not meet, for all rays.
-/
import Verif.Bsp.WindFrame

namespace Walnut.Bsp
open Walnut.Geom Walnut.Poly

variable {D : Type}

theorem ev_om {u w : Q3} : Ev fun η => om (dirZ η) u w = 0 → crossQ u w = 0 := by
  by_cases h : crossQ u w = 0
  · exact Filter.Eventually.of_forall fun _ _ => h
  · exact (ev_dot h).mono fun η h1 h2 => absurd h2 h1

/-- Like `exists_frame`, for planes with any coefficients. -/
theorem ev_frame {cell : List Pl} (hn : ∀ p ∈ cell, p.n ≠ 0) {q v : Q3} (hq : ∀ p ∈ cell, p.val q < 0) (hv : v ≠ 0) :
    Ev fun η => ∃ pl : ℕ → Pl, (∀ k p, cell[k]? = some p → pl k = p) ∧ Frame (dirZ η) v q pl cell.length := by
  filter_upwards [ev_list cell (p := fun a η => ∀ b ∈ cell, om (dirZ η) a.n b.n = 0 → crossQ a.n b.n = 0) fun a _ => ev_list cell fun b _ => ev_om,
    ev_dot hv, ev_cross hv, ev_list cell (p := fun a η => crossQ a.n (dirZ η) ≠ 0) fun a ha => ev_cross (hn a ha)] with η h1 h2 h3 h4
  set c := dirZ η
  obtain ⟨A, B, ⟨κ, hk, hAB⟩, hw⟩ := exists_pair h2 h3 (cell.map fun a => a.n) (by
    intro w hw
    obtain ⟨a, ha, rfl⟩ := List.mem_map.1 hw
    exact h4 a ha)
  set C : Q3 := fun i => c i - A i - B i with hC
  set n := cell.length with hnn
  set pl : ℕ → Pl := fun k => if k < n then cell.getD k ⟨0, 0⟩ else if k = n then ⟨A, dotQ A q⟩ else if k = n + 1 then ⟨B, dotQ B q⟩ else ⟨C, dotQ C q⟩ with hpl
  have pA : pl n = ⟨A, dotQ A q⟩ := by simp [hpl]
  have pB : pl (n + 1) = ⟨B, dotQ B q⟩ := by simp [hpl]
  have pC : pl (n + 2) = ⟨C, dotQ C q⟩ := by simp [hpl]
  have pk : ∀ k (hk : k < n), pl k = cell[k]'hk := by
    intro k hk
    simp only [hpl, if_pos hk]
    rw [List.getD_eq_getElem?_getD, List.getElem?_eq_getElem hk]; rfl
  have omAB : om c A B ≠ 0 := by
    have : om c A B = κ * dotQ c v := by
      unfold om dotQ
      rw [hAB 0, hAB 1, hAB 2]; ring
    rw [this]; exact mul_ne_zero hk.ne' h2
  have omCA : om c C A ≠ 0 := by
    have : om c C A = om c A B := by
      unfold om dotQ
      simp only [crossQ_zero, crossQ_one, crossQ_two, hC]; ring
    rw [this]; exact omAB
  have omBC : om c B C ≠ 0 := by
    have : om c B C = om c A B := by
      unfold om dotQ
      simp only [crossQ_zero, crossQ_one, crossQ_two, hC]; ring
    rw [this]; exact omAB
  have omC : ∀ w, om c C w = -om c (fun i => A i + B i) w := by
    intro w
    unfold om dotQ
    simp only [crossQ_zero, crossQ_one, crossQ_two, hC]; ring
  have self : ∀ u : Q3, crossQ u u = 0 := by
    intro u
    funext i
    fin_cases i <;> simp only [Fin.zero_eta, Fin.mk_one, Fin.reduceFinMk, crossQ_zero, crossQ_one, crossQ_two, Pi.zero_apply] <;> ring
  have tree : ∀ k (hk : k < n), om c A (pl k).n ≠ 0 ∧ om c B (pl k).n ≠ 0 ∧ om c C (pl k).n ≠ 0 := by
    intro k hk
    obtain ⟨a1, a2, a3⟩ := hw (cell[k]'hk).n (List.mem_map_of_mem (List.getElem_mem hk))
    rw [pk k hk, omC]
    exact ⟨a1, a2, neg_ne_zero.2 a3⟩
  have three : ∀ i < n + 3, i < n ∨ i = n ∨ i = n + 1 ∨ i = n + 2 := by intro i hi; omega
  have no : ∀ {x y : Q3}, om c x y ≠ 0 → Seen c x y := fun h h' => absurd h' h
  refine ⟨pl, ?_, ⟨?_, ?_, ?_, ?_, ?_, ?_, h2, ?_⟩⟩
  · intro k a ha
    obtain ⟨hk, rfl⟩ := List.getElem?_eq_some_iff.1 ha
    exact pk k hk
  · intro k hk
    rw [pk k hk]
    exact hq _ (List.getElem_mem hk)
  · rw [pA]; unfold Pl.val; simp
  · rw [pB]; unfold Pl.val; simp
  · rw [pC]; unfold Pl.val; simp
  · intro i
    rw [pA, pB, pC, hC]; ring
  · exact ⟨κ, hk, by rw [pA, pB]; exact hAB⟩
  · intro i hi j hj
    rcases three i hi with hi | rfl | rfl | rfl <;> rcases three j hj with hj | rfl | rfl | rfl
    · rw [pk i hi, pk j hj]
      exact h1 _ (List.getElem_mem hi) _ (List.getElem_mem hj)
    · rw [pA]; exact no (om_swap_zero (tree i hi).1)
    · rw [pB]; exact no (om_swap_zero (tree i hi).2.1)
    · rw [pC]; exact no (om_swap_zero (tree i hi).2.2)
    · rw [pA]; exact no (tree j hj).1
    · exact fun _ => self _
    · rw [pA, pB]; exact no omAB
    · rw [pA, pC]; exact no (om_swap_zero omCA)
    · rw [pB]; exact no (tree j hj).2.1
    · rw [pA, pB]; exact no (om_swap_zero omAB)
    · exact fun _ => self _
    · rw [pB, pC]; exact no omBC
    · rw [pC]; exact no (tree j hj).2.2
    · rw [pA, pC]; exact no omCA
    · rw [pB, pC]; exact no (om_swap_zero omBC)
    · exact fun _ => self _

theorem term_congr_pl (P : Polygon D) {pl pl' : ℕ → Pl} {S : Finset ℕ} (h : ∀ k ∈ S, pl k = pl' k) (s : ℕ → ℤ) {a b : ℕ} (ha : a ∈ S) (hb : b ∈ S) :
    term P pl S s a b = term P pl' S s a b := by
  unfold term
  rw [h a ha, h b hb]
  have : ∀ x, Inside2 pl S s a b x ↔ Inside2 pl' S s a b x := by
    intro x
    unfold Inside2
    exact forall₂_congr fun k hk => by rw [h k hk]
  simp only [this]

theorem total_congr {c : Q3} {M : List (Polygon D)} {pl pl' : ℕ → Pl} : ∀ {l : List ℕ}, (∀ k ∈ l, pl k = pl' k) → total c M pl l = total c M pl' l
  | [], _ => rfl
  | h :: l, hl => by
    unfold total
    rw [total_congr fun k hk => hl k (List.mem_cons_of_mem _ hk)]
    congr 1
    unfold cutOff
    have hm : ∀ k ∈ insert h l.toFinset, pl k = pl' k := by
      intro k hk
      apply hl
      simpa using hk
    refine Finset.sum_congr rfl fun a ha => Finset.sum_congr rfl fun b hb => ?_
    have ia := Finset.mem_insert_of_mem (b := h) ha
    have ib := Finset.mem_insert_of_mem (b := h) hb
    rw [hm a ia, hm b ib, hm h (Finset.mem_insert_self _ _)]
    congr 1
    unfold flow
    congr 1
    exact List.map_congr_left fun P _ => term_congr_pl P hm _ ia ib

/-- Two points of a cell without facets, and two rays. -/
theorem cell_winding {cell : List Pl} (hn : ∀ p ∈ cell, p.n ≠ 0) {M : List (Polygon D)} (hM : ∀ P ∈ M, IsConvexPolygon P) (hc : ClosedMesh M)
    (hempty : ∀ x, (∀ p ∈ cell, p.val x < 0) → ∀ P ∈ M, x ∉ P.region) {q v q' v' : Q3} (hq : ∀ p ∈ cell, p.val q < 0) (hq' : ∀ p ∈ cell, p.val q' < 0)
    (hv : v ≠ 0) (hv' : v' ≠ 0)
    (hgen : ∀ P ∈ M, ∀ t : ℚ, 0 < t → q + t • v ∈ P.region → ∀ i < P.count, 0 < Poly.turn P.plane.n.q (P.pt i) (P.pt ((i + 1) % P.count)) (q + t • v))
    (hgen' : ∀ P ∈ M, ∀ t : ℚ, 0 < t → q' + t • v' ∈ P.region → ∀ i < P.count, 0 < Poly.turn P.plane.n.q (P.pt i) (P.pt ((i + 1) % P.count)) (q' + t • v')) :
    (M.map (crossing v q)).sum = (M.map (crossing v' q')).sum := by
  obtain ⟨η, _, ⟨pl, h1, F⟩, pl', h1', F'⟩ := ev_exists ((ev_frame hn hq hv).and (ev_frame hn hq' hv'))
  have he : ∀ {pl : ℕ → Pl}, (∀ k p, cell[k]? = some p → pl k = p) → ∀ x, (∀ k < cell.length, (pl k).val x < 0) → ∀ P ∈ M, x ∉ P.region := by
    intro pl h x hx
    apply hempty
    intro p hp
    obtain ⟨k, hk, rfl⟩ := List.getElem_of_mem hp
    rw [← h k _ (List.getElem?_eq_getElem hk)]
    exact hx k hk
  obtain ⟨ε, _, e1, e2⟩ := ev_exists ((F.eval hM hc (he h1) hgen).and (F'.eval hM hc (he h1') hgen'))
  rw [total_congr (pl' := sh (cell.length + 3) pl' ε)] at e1
  · omega
  · intro k hk
    have hk : k < cell.length := by simpa using hk
    unfold sh
    rw [h1 k _ (List.getElem?_eq_getElem hk), h1' k _ (List.getElem?_eq_getElem hk)]

end Walnut.Bsp
