/-
A direction that sees the split planes in the order of `RXYCompareBivector`, three planes
through a point, and the winding number at a leaf without facets of a content.
-/
import Verif.Bsp.WindMain
import Verif.Bsp.WindEval

namespace Walnut.Bsp
open Walnut.Geom Walnut.Poly Walnut.Props Filter Topology

/-- Almost the z direction. -/
def dirZ (η : ℚ) : Q3 := ![η ^ 2, η, 1]

theorem ev_lex (x y z : ℤ) : Ev fun η => sgn ((x : ℚ) * η ^ 2 + y * η + z) =
    if z.sign ≠ 0 then z.sign else if y.sign ≠ 0 then y.sign else x.sign := by
  rcases lt_trichotomy z 0 with h | h | h
  · have h' : (0 : ℚ) < -(z : ℚ) := by have : (z : ℚ) < 0 := by exact_mod_cast h
                                       linarith
    filter_upwards [ev_pos0 h' (-(x : ℚ)) (-(y : ℚ)) 0 (i := 2) (j := 1) (k := 1) (by omega) (by omega) (by omega)] with η e
    rw [Int.sign_eq_neg_one_of_neg h, sgn_neg (by nlinarith)]; simp
  · subst h
    rcases lt_trichotomy y 0 with h | h | h
    · have h' : (0 : ℚ) < -(y : ℚ) := by have : (y : ℚ) < 0 := by exact_mod_cast h
                                         linarith
      filter_upwards [ev_pos1 h' (-(x : ℚ)) 0 (i := 1) (j := 2) (k := 2) (by omega) (by omega)] with η e
      rw [Int.sign_eq_neg_one_of_neg h, sgn_neg (by push_cast; linarith)]; simp
    · subst h
      filter_upwards [ev_pos] with η h0
      have p : 0 < η ^ 2 := pow_pos h0 2
      rcases lt_trichotomy x 0 with h | h | h
      · have h' : (x : ℚ) < 0 := by exact_mod_cast h
        rw [Int.sign_eq_neg_one_of_neg h, sgn_neg (by push_cast; nlinarith)]; simp
      · subst h; simp [sgn_zero]
      · have h' : (0 : ℚ) < x := by exact_mod_cast h
        rw [Int.sign_eq_one_of_pos h, sgn_pos (by push_cast; nlinarith)]; simp
    · have h' : (0 : ℚ) < (y : ℚ) := by exact_mod_cast h
      filter_upwards [ev_pos1 h' (x : ℚ) 0 (i := 1) (j := 2) (k := 2) (by omega) (by omega)] with η e
      rw [Int.sign_eq_one_of_pos h, sgn_pos (by push_cast; linarith)]; simp
  · have h' : (0 : ℚ) < (z : ℚ) := by exact_mod_cast h
    filter_upwards [ev_pos0 h' (x : ℚ) (y : ℚ) 0 (i := 2) (j := 1) (k := 1) (by omega) (by omega) (by omega)] with η e
    rw [Int.sign_eq_one_of_pos h, sgn_pos (by nlinarith)]; simp

theorem ev_sees (l : List V3) : Ev fun η => Sees (dirZ η) l := by
  refine ev_list l fun u _ => ev_list l fun v _ => ?_
  filter_upwards [ev_lex (u.y * v.z - u.z * v.y) (u.z * v.x - u.x * v.z) (u.x * v.y - u.y * v.x)] with η h
  rw [show om (dirZ η) u.q v.q = ((u.y * v.z - u.z * v.y : ℤ) : ℚ) * η ^ 2 + ((u.z * v.x - u.x * v.z : ℤ) : ℚ) * η + ((u.x * v.y - u.y * v.x : ℤ) : ℚ) by
    unfold om dotQ dirZ
    simp only [crossQ_zero, crossQ_one, crossQ_two]
    simp [V3.q, V3.comp]
    ring, h]
  rfl

theorem ev_poly2 (x y z : ℚ) (h : x ≠ 0 ∨ y ≠ 0 ∨ z ≠ 0) : Ev fun η => x * η ^ 2 + y * η + z ≠ 0 := by
  have hp : (Polynomial.C x * Polynomial.X ^ 2 + Polynomial.C y * Polynomial.X + Polynomial.C z : Polynomial ℚ) ≠ 0 := by
    intro e
    have e0 := congrArg (fun q => Polynomial.coeff q 0) e
    have e1 := congrArg (fun q => Polynomial.coeff q 1) e
    have e2 := congrArg (fun q => Polynomial.coeff q 2) e
    simp [Polynomial.coeff_X, Polynomial.coeff_C, Polynomial.coeff_X_pow] at e0 e1 e2
    rcases h with h | h | h
    · exact h e2
    · exact h e1
    · exact h e0
  filter_upwards [ev_poly hp] with η h
  simpa using h

theorem ev_dot {w : Q3} (hw : w ≠ 0) : Ev fun η => dotQ (dirZ η) w ≠ 0 := by
  have : w 0 ≠ 0 ∨ w 1 ≠ 0 ∨ w 2 ≠ 0 := by
    by_contra hc
    push Not at hc
    apply hw
    funext i
    fin_cases i
    · exact hc.1
    · exact hc.2.1
    · exact hc.2.2
  filter_upwards [ev_poly2 (w 0) (w 1) (w 2) this] with η h
  unfold dotQ dirZ
  simp
  intro h'
  apply h
  linarith

theorem ev_cross {w : Q3} (hw : w ≠ 0) : Ev fun η => crossQ w (dirZ η) ≠ 0 := by
  by_cases h2 : w 2 = 0
  · refine Filter.Eventually.of_forall fun η e => hw ?_
    have e0 := congrFun e 0
    have e1 := congrFun e 1
    simp only [crossQ_zero, crossQ_one, dirZ] at e0 e1
    simp [h2] at e0 e1
    funext i
    fin_cases i
    · exact e1
    · exact e0
    · exact h2
  · filter_upwards [ev_poly2 0 (-w 2) (w 1) (Or.inr (Or.inl (neg_ne_zero.2 h2)))] with η h e
    have e0 := congrFun e 0
    simp only [crossQ_zero, dirZ] at e0
    simp at e0
    apply h
    linarith

/-- Two vectors perpendicular to `v` such that `c` sees everything. -/
theorem exists_pair {c v : Q3} (hcv : dotQ c v ≠ 0) (hc : crossQ v c ≠ 0) (ns : List Q3) (hns : ∀ w ∈ ns, crossQ w c ≠ 0) :
    ∃ A B : Q3, (∃ κ : ℚ, 0 < κ ∧ ∀ i, crossQ A B i = κ * v i) ∧ ∀ w ∈ ns, om c A w ≠ 0 ∧ om c B w ≠ 0 ∧ om c (fun i => A i + B i) w ≠ 0 := by
  set E1 := crossQ v c with hE1
  set E2 := crossQ v E1 with hE2
  have n1 : 0 < dotQ E1 E1 := by
    unfold dotQ
    by_contra h
    apply hc
    have h0 := mul_self_nonneg (E1 0)
    have h1 := mul_self_nonneg (E1 1)
    have h2 := mul_self_nonneg (E1 2)
    have z0 : E1 0 * E1 0 = 0 := by linarith
    have z1 : E1 1 * E1 1 = 0 := by linarith
    have z2 : E1 2 * E1 2 = 0 := by linarith
    funext i
    fin_cases i
    · exact mul_self_eq_zero.1 z0
    · exact mul_self_eq_zero.1 z1
    · exact mul_self_eq_zero.1 z2
  have ev1 : dotQ E1 v = 0 := by
    rw [hE1]; unfold dotQ; simp only [crossQ_zero, crossQ_one, crossQ_two]; ring
  have cr : ∀ i, crossQ E1 E2 i = dotQ E1 E1 * v i := by
    intro i
    rw [hE2]
    unfold dotQ at ev1 ⊢
    fin_cases i <;> simp only [Fin.zero_eta, Fin.mk_one, Fin.reduceFinMk, crossQ_zero, crossQ_one, crossQ_two]
    · linear_combination -E1 0 * ev1
    · linear_combination -E1 1 * ev1
    · linear_combination -E1 2 * ev1
  have hd : det3 E1 E2 c ≠ 0 := by
    have : det3 E1 E2 c = dotQ E1 E1 * dotQ c v := by
      rw [det3_rot c E1 E2]
      unfold det3
      unfold dotQ at cr ⊢
      rw [cr 0, cr 1, cr 2]
      ring
    rw [this]
    exact mul_ne_zero n1.ne' hcv
  have one : ∀ w ∈ ns, ∀ k : ℚ, k ≠ 0 → Ev fun s => om c (fun i => E1 i + k * s * E2 i) w ≠ 0 := by
    intro w hw k hk
    have e : ∀ s : ℚ, om c (fun i => E1 i + k * s * E2 i) w = 0 * s ^ 2 + k * dotQ E2 (crossQ w c) * s + dotQ E1 (crossQ w c) := by
      intro s
      unfold om dotQ
      simp only [crossQ_zero, crossQ_one, crossQ_two]
      ring
    refine (ev_poly2 0 (k * dotQ E2 (crossQ w c)) (dotQ E1 (crossQ w c)) ?_).mono fun s h => by rw [e]; exact h
    by_contra hx
    push Not at hx
    refine hns w hw (three_eqs hd hx.2.2 ((mul_eq_zero.1 hx.2.1).resolve_left hk) ?_)
    unfold dotQ
    simp only [crossQ_zero, crossQ_one, crossQ_two]
    ring
  obtain ⟨s, hs, h⟩ := ev_exists ((ev_list ns fun w hw => one w hw 1 (by norm_num)).and ((ev_list ns fun w hw => one w hw 3 (by norm_num)).and
    (ev_list ns fun w hw => one w hw 2 (by norm_num))))
  refine ⟨fun i => E1 i + 1 * s * E2 i, fun i => E1 i + 3 * s * E2 i, ⟨2 * s * dotQ E1 E1, by positivity, fun i => ?_⟩, fun w hw => ⟨h.1 w hw, h.2.1 w hw, ?_⟩⟩
  · rw [mul_assoc, ← cr i]
    fin_cases i <;> simp only [Fin.zero_eta, Fin.mk_one, Fin.reduceFinMk, crossQ_zero, crossQ_one, crossQ_two] <;> ring
  · intro e
    apply h.2.2 w hw
    have : om c (fun i => E1 i + 1 * s * E2 i + (E1 i + 3 * s * E2 i)) w = 2 * om c (fun i => E1 i + 2 * s * E2 i) w := by
      unfold om dotQ
      simp only [crossQ_zero, crossQ_one, crossQ_two]
      ring
    rw [this] at e
    exact (mul_eq_zero.1 e).resolve_left (by norm_num)

theorem rxy_zero {u v : V3} (h : rxyCompareBivector u v = 0) : crossQ u.q v.q = 0 := by
  unfold rxyCompareBivector at h
  simp only at h
  have cz : ∀ a b : ℤ, Geom.cmp a b = 0 → a = b := by
    intro a b h
    unfold Geom.cmp at h
    have := Int.sign_eq_zero_iff_zero.1 h
    omega
  split_ifs at h with h1 h2
  · exact absurd h h1
  · exact absurd h h2
  · have e1 := cz _ _ (not_not.1 h1)
    have e2 := cz _ _ (not_not.1 h2)
    have e3 := cz _ _ h
    have f1 : (u.x : ℚ) * v.y = u.y * v.x := by exact_mod_cast e1
    have f2 : (u.z : ℚ) * v.x = u.x * v.z := by exact_mod_cast e2
    have f3 : (u.y : ℚ) * v.z = u.z * v.y := by exact_mod_cast e3
    funext i
    fin_cases i <;> simp only [Fin.zero_eta, Fin.mk_one, Fin.reduceFinMk, crossQ_zero, crossQ_one, crossQ_two] <;> simp [V3.q, V3.comp] <;> linarith

theorem cross_out {a b : PlaneRef × Bool} (h : crossQ a.1.plane.n.q b.1.plane.n.q = 0) : crossQ (outPl a).n (outPl b).n = 0 := by
  have h0 := congrFun h 0
  have h1 := congrFun h 1
  have h2 := congrFun h 2
  simp only [crossQ_zero, crossQ_one, crossQ_two, Pi.zero_apply] at h0 h1 h2
  unfold outPl
  funext i
  by_cases ha : a.2 = true <;> by_cases hb : b.2 = true <;> simp only [ha, hb, if_true, if_false, Bool.false_eq_true] <;> fin_cases i <;>
    simp only [Fin.zero_eta, Fin.mk_one, Fin.reduceFinMk, crossQ_zero, crossQ_one, crossQ_two, Pi.zero_apply] <;> linarith

theorem out_ne {a : PlaneRef × Bool} (h : a.1.plane.n ≠ ⟨0, 0, 0⟩) : (outPl a).n ≠ 0 := by
  intro e
  apply h
  have key : ∀ i, a.1.plane.n.q i = 0 := by
    intro i
    have := congrFun e i
    unfold outPl at this
    split_ifs at this
    · simpa using this
    · exact this
  have k0 := key 0
  have k1 := key 1
  have k2 := key 2
  simp [V3.q, V3.comp] at k0 k1 k2
  cases hn : a.1.plane.n
  rw [hn] at k0 k1 k2
  simp_all

theorem om_swap_zero {c u v : Q3} (h : om c u v ≠ 0) : om c v u ≠ 0 := by
  rw [om_swap]; exact neg_ne_zero.2 h

/-- There is a direction and three planes through `q` as they are needed. -/
theorem exists_frame {anc : Anc} (hn : ∀ a ∈ anc, a.1.plane.n ≠ ⟨0, 0, 0⟩) {q v : Q3} (hq : InCell anc q) (hv : v ≠ 0) :
    ∃ (c : Q3) (pl : ℕ → Pl), Sees c (anc.map fun a => a.1.plane.n) ∧ Starts pl anc ∧ Frame c v q pl anc.length := by
  obtain ⟨η, _, h1, h2, h3, h4⟩ := ev_exists ((ev_sees (anc.map fun a => a.1.plane.n)).and ((ev_dot hv).and ((ev_cross hv).and
    (ev_list anc (p := fun a η => crossQ (outPl a).n (dirZ η) ≠ 0) fun a ha => ev_cross (out_ne (hn a ha))))))
  set c := dirZ η
  obtain ⟨A, B, ⟨κ, hk, hAB⟩, hw⟩ := exists_pair h2 h3 (anc.map fun a => (outPl a).n) (by
    intro w hw
    obtain ⟨a, ha, rfl⟩ := List.mem_map.1 hw
    exact h4 a ha)
  set C : Q3 := fun i => c i - A i - B i with hC
  set n := anc.length with hnn
  set pl : ℕ → Pl := fun k => if k < n then ancPl anc k else if k = n then ⟨A, dotQ A q⟩ else if k = n + 1 then ⟨B, dotQ B q⟩ else ⟨C, dotQ C q⟩ with hpl
  have pA : pl n = ⟨A, dotQ A q⟩ := by simp [hpl]
  have pB : pl (n + 1) = ⟨B, dotQ B q⟩ := by simp [hpl]
  have pC : pl (n + 2) = ⟨C, dotQ C q⟩ := by simp [hpl]
  have pk : ∀ k (hk : k < n), pl k = outPl (anc[k]'hk) := by
    intro k hk
    simp only [hpl, if_pos hk]
    unfold ancPl
    rw [List.getElem?_eq_getElem hk]; rfl
  have omAB : om c A B ≠ 0 := by
    have : om c A B = κ * dotQ c v := by
      unfold om dotQ
      rw [hAB 0, hAB 1, hAB 2]; ring
    rw [this]; exact mul_ne_zero hk.ne' h2
  have omCA : om c C A ≠ 0 := by
    have : om c C A = om c A B := by
      unfold om dotQ
      simp only [crossQ_zero, crossQ_one, crossQ_two, hC]; ring
    rw [this]; exact omAB
  have omBC : om c B C ≠ 0 := by
    have : om c B C = om c A B := by
      unfold om dotQ
      simp only [crossQ_zero, crossQ_one, crossQ_two, hC]; ring
    rw [this]; exact omAB
  have omC : ∀ w, om c C w = -om c (fun i => A i + B i) w := by
    intro w
    unfold om dotQ
    simp only [crossQ_zero, crossQ_one, crossQ_two, hC]; ring
  have self : ∀ u : Q3, crossQ u u = 0 := by
    intro u
    funext i
    fin_cases i <;> simp only [Fin.zero_eta, Fin.mk_one, Fin.reduceFinMk, crossQ_zero, crossQ_one, crossQ_two, Pi.zero_apply] <;> ring
  have tree : ∀ k (hk : k < n), om c A (pl k).n ≠ 0 ∧ om c B (pl k).n ≠ 0 ∧ om c C (pl k).n ≠ 0 := by
    intro k hk
    obtain ⟨a1, a2, a3⟩ := hw (outPl (anc[k]'hk)).n (List.mem_map_of_mem (List.getElem_mem hk))
    rw [pk k hk, omC]
    exact ⟨a1, a2, neg_ne_zero.2 a3⟩
  have three : ∀ i < n + 3, i < n ∨ i = n ∨ i = n + 1 ∨ i = n + 2 := by intro i hi; omega
  have no : ∀ {x y : Q3}, om c x y ≠ 0 → Seen c x y := fun h h' => absurd h' h
  refine ⟨c, pl, h1, ?_, ⟨?_, ?_, ?_, ?_, ?_, ?_, h2, ?_⟩⟩
  · intro k a ha
    obtain ⟨hk, rfl⟩ := List.getElem?_eq_some_iff.1 ha
    exact pk k hk
  · intro k hk
    rw [pk k hk]
    exact hq _ (List.getElem_mem hk)
  · rw [pA]; unfold Pl.val; simp
  · rw [pB]; unfold Pl.val; simp
  · rw [pC]; unfold Pl.val; simp
  · intro i
    rw [pA, pB, pC, hC]; ring
  · exact ⟨κ, hk, by rw [pA, pB]; exact hAB⟩
  · intro i hi j hj
    rcases three i hi with hi | rfl | rfl | rfl <;> rcases three j hj with hj | rfl | rfl | rfl
    · intro h0
      rw [pk i hi, pk j hj] at h0 ⊢
      have mi : (anc[i]'hi).1.plane.n ∈ anc.map fun a => a.1.plane.n := List.mem_map_of_mem (List.getElem_mem hi)
      have mj : (anc[j]'hj).1.plane.n ∈ anc.map fun a => a.1.plane.n := List.mem_map_of_mem (List.getElem_mem hj)
      have := om_out h1 mi mj
      rw [h0, sgn_zero] at this
      apply cross_out
      apply rxy_zero
      rcases mul_eq_zero.1 this.symm with h | h
      · exact h
      · exfalso
        unfold sd at h
        split_ifs at h <;> simp at h
    · rw [pA]; exact no (om_swap_zero (tree i hi).1)
    · rw [pB]; exact no (om_swap_zero (tree i hi).2.1)
    · rw [pC]; exact no (om_swap_zero (tree i hi).2.2)
    · rw [pA]; exact no (tree j hj).1
    · exact fun _ => self _
    · rw [pA, pB]; exact no omAB
    · rw [pA, pC]; exact no (om_swap_zero omCA)
    · rw [pB]; exact no (tree j hj).2.1
    · rw [pA, pB]; exact no (om_swap_zero omAB)
    · exact fun _ => self _
    · rw [pB, pC]; exact no omBC
    · rw [pC]; exact no (tree j hj).2.2
    · rw [pA, pC]; exact no omCA
    · rw [pB, pC]; exact no (om_swap_zero omBC)
    · exact fun _ => self _

/-- A cell without facets of the content inside does not meet the sources. -/
theorem LeafInv.empty {S : List Source} {id : ℕ} {anc : Anc} {d : NodeData} (hl : LeafInv S id anc d) (hd : ∀ x ∈ d.contents, x.id ≠ id) {x : Q3}
    (hx : InCell anc x) : ∀ P ∈ facets S id, x ∉ P.region := by
  classical
  intro P hP hr
  unfold facets at hP
  obtain ⟨s, hs, rfl⟩ := List.mem_map.1 hP
  obtain ⟨hs, hid⟩ := List.mem_filter.1 hs
  have e := hl.covers s.poly.plane x hx
  have z : cov d.contents id s.poly.plane x = 0 := by
    unfold cov
    rw [List.countP_eq_zero]
    intro p hp
    simp only [decide_eq_true_eq]
    exact fun hc => hd p hp hc.1
  rw [z] at e
  unfold srcCov at e
  have := List.countP_eq_zero.1 e.symm s hs
  simp only [decide_eq_true_eq] at this
  exact this ⟨by simpa using hid, trivial, hr⟩

theorem pwn_winding {aabb : Bool} {d : NodeData} {S : List Source} (h : Reach aabb (.leaf d) S) {t : Node} (ht : Splits d t) {anc : Anc} {l : NodeData}
    (hl : (anc, Node.leaf l) ∈ t.subs []) {id : ℕ} (hd : ∀ x ∈ l.contents, x.id ≠ id) (hc : ClosedMesh (facets S id)) {q v : Q3} (hq : InCell anc q) (hv : v ≠ 0)
    (hgen : ∀ P ∈ facets S id, ∀ t : ℚ, 0 < t → q + t • v ∈ P.region → ∀ i < P.count,
      0 < Poly.turn P.plane.n.q (P.pt i) (P.pt ((i + 1) % P.count)) (q + t • v)) :
    pwnOf l id = ((facets S id).map (crossing v q)).sum := by
  have inv := (leaf_winding h id ht).get hl
  obtain ⟨c, pl, h1, h2, F⟩ := exists_frame inv.normals hq hv
  have w := inv.winding c pl (anc.length + 3) q h2 (by omega) h1 hq
  have hM : ∀ P ∈ facets S id, IsConvexPolygon P := by
    intro P hP
    unfold facets at hP
    obtain ⟨s, hs, rfl⟩ := List.mem_map.1 hP
    exact h.leaf_pwn.1 s (List.mem_of_mem_filter hs)
  have hempty : ∀ x, (∀ k < anc.length, (pl k).val x < 0) → ∀ P ∈ facets S id, x ∉ P.region := by
    intro x hx
    apply inv.empty hd
    intro a ha
    obtain ⟨k, hk, rfl⟩ := List.getElem_of_mem ha
    rw [← h2 k _ (List.getElem?_eq_getElem hk)]
    exact hx k hk
  have e := F.eval hM hc hempty hgen
  obtain ⟨ε, _, e1, e2⟩ := ev_exists (w.and e)
  rw [e2] at e1
  omega

end Walnut.Bsp
