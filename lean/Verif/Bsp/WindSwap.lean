/-
Crossings of a closed mesh with the edges of a polytope that a plane cuts off; cutting off
with two planes in either order gives the same total.
-/
import Verif.Bsp.WindFlow
import Mathlib.Algebra.BigOperators.Group.List.Basic
import Mathlib.Data.List.Perm.Basic

namespace Walnut.Bsp
open Walnut.Geom Walnut.Poly

variable {D : Type}

/-- The directed edges of a facet. -/
def facetEdges (P : Polygon D) : List (Q3 × Q3) := (List.range P.count).map fun i => (P.pt i, P.pt ((i + 1) % P.count))

/-- Every edge occurs as often in one direction as in the other. -/
def ClosedMesh (M : List (Polygon D)) : Prop := ((M.flatMap facetEdges).map Prod.swap).Perm (M.flatMap facetEdges)

/-- The planes in `S` are in general position with the mesh. -/
structure Generic (M : List (Polygon D)) (pl : ℕ → Pl) (S : Finset ℕ) : Prop where
  vertex : ∀ P ∈ M, ∀ a ∈ S, ∀ i < P.count, (pl a).val (P.pt i) ≠ 0
  edge : ∀ P ∈ M, ∀ a ∈ S, ∀ i < P.count, ∀ k ∈ S, k ≠ a → (pl a).val (P.pt i) * (pl a).val (P.pt ((i + 1) % P.count)) < 0 →
      (pl k).val (cr (pl a) (P.pt i) (P.pt ((i + 1) % P.count))) ≠ 0
  facet : ∀ P ∈ M, ∀ a ∈ S, ∀ b ∈ S, ∀ k ∈ S, b ≠ a → k ≠ a → k ≠ b → det3 P.plane.n.q (pl a).n (pl b).n ≠ 0 →
      (pl k).val (meet P.plane.n.q P.plane.d (pl a) (pl b)) ≠ 0

theorem Generic.mono {M : List (Polygon D)} {pl : ℕ → Pl} {S T : Finset ℕ} (h : Generic M pl S) (hT : T ⊆ S) : Generic M pl T :=
  ⟨fun P hP a ha => h.vertex P hP a (hT ha), fun P hP a ha i hi k hk => h.edge P hP a (hT ha) i hi k (hT hk),
    fun P hP a ha b hb k hk => h.facet P hP a (hT ha) b (hT hb) k (hT hk)⟩

/-- The crossings of the mesh with the line of intersection of the planes `a` and `b`,
inside of the other planes. -/
noncomputable def flow (M : List (Polygon D)) (pl : ℕ → Pl) (S : Finset ℕ) (s : ℕ → ℤ) (a b : ℕ) : ℤ :=
  (M.map fun P => term P pl S s a b).sum

theorem term_swap (P : Polygon D) (pl : ℕ → Pl) (S : Finset ℕ) (s : ℕ → ℤ) (a b : ℕ) : term P pl S s b a = -term P pl S s a b := by
  unfold term
  rw [meet_swap, det3_swap, sgn_opp, neg_mul]
  congr 2
  apply ind_congr
  refine and_congr Iff.rfl ?_
  unfold Inside2
  exact ⟨fun h k hk h1 h2 => h k hk h2 h1, fun h k hk h1 h2 => h k hk h2 h1⟩

theorem flow_swap (M : List (Polygon D)) (pl : ℕ → Pl) (S : Finset ℕ) (s : ℕ → ℤ) (a b : ℕ) : flow M pl S s b a = -flow M pl S s a b := by
  unfold flow
  induction M with
  | nil => rfl
  | cons P M ih => simp only [List.map_cons, List.sum_cons, ih]; rw [term_swap]; ring

theorem sum_range_list (f : ℕ → ℤ) (n : ℕ) : ∑ i ∈ Finset.range n, f i = ((List.range n).map f).sum := by
  induction n with
  | zero => rfl
  | succ n ih => rw [Finset.sum_range_succ, List.range_succ, List.map_append, List.sum_append, ih]; simp

theorem sum_list {ι : Type} (K : Finset ι) (f : ι → ℤ) (g : ι → Polygon D → ℤ) (M : List (Polygon D)) :
    ∑ b ∈ K, f b * (M.map (g b)).sum = (M.map fun P => ∑ b ∈ K, f b * g b P).sum := by
  induction M with
  | nil => simp
  | cons P M ih => simp only [List.map_cons, List.sum_cons, mul_add, Finset.sum_add_distrib, ih]

theorem flow_star {M : List (Polygon D)} (hM : ∀ P ∈ M, IsConvexPolygon P) (hc : ClosedMesh M) {pl : ℕ → Pl} {S : Finset ℕ} (hg : Generic M pl S)
    {s : ℕ → ℤ} (hs : ∀ k ∈ S, s k = 1 ∨ s k = -1) {a : ℕ} (ha : a ∈ S) : ∑ b ∈ S.erase a, s b * flow M pl S s a b = 0 := by
  unfold flow
  rw [sum_list]
  have e : (M.map fun P => ∑ b ∈ S.erase a, s b * term P pl S s a b) =
      M.map fun P => ((facetEdges P).map fun e => bd pl S s a e.1 e.2).sum := by
    apply List.map_congr_left
    intro P hP
    rw [chord_sum (hM P hP) pl S s hs (hg.vertex P hP a ha) (hg.edge P hP a ha) (fun b hb k hk => hg.facet P hP a ha b hb k hk)]
    unfold facetEdges
    rw [List.map_map, sum_range_list]
    rfl
  rw [e]
  have e2 : (M.map fun P => ((facetEdges P).map fun e => bd pl S s a e.1 e.2).sum).sum =
      ((M.flatMap facetEdges).map fun e => bd pl S s a e.1 e.2).sum := by
    clear hg hc hM e
    induction M with
    | nil => rfl
    | cons P M ih => simp only [List.map_cons, List.sum_cons, List.flatMap_cons, List.map_append, List.sum_append, ih]
  rw [e2]
  have e3 := (hc.map fun e => bd pl S s a e.1 e.2).sum_eq
  rw [List.map_map] at e3
  have e4 : ((M.flatMap facetEdges).map ((fun e => bd pl S s a e.1 e.2) ∘ Prod.swap)).sum = -((M.flatMap facetEdges).map fun e => bd pl S s a e.1 e.2).sum := by
    generalize M.flatMap facetEdges = L
    induction L with
    | nil => rfl
    | cons x L ih =>
      simp only [List.map_cons, List.sum_cons, ih, Function.comp, Prod.fst_swap, Prod.snd_swap]
      rw [bd_swap]; ring
  omega

/-! ### Cutting off with a plane -/

/-- The planes in `H` are reversed. -/
def fl (H : Finset ℕ) (k : ℕ) : ℤ := if k ∈ H then -1 else 1

theorem fl_cases (H : Finset ℕ) (k : ℕ) : fl H k = 1 ∨ fl H k = -1 := by unfold fl; split_ifs <;> simp

theorem term_congr (P : Polygon D) (pl : ℕ → Pl) {S : Finset ℕ} {s s' : ℕ → ℤ} {a b : ℕ} (h : ∀ k ∈ S, k ≠ a → k ≠ b → s k = s' k) :
    term P pl S s a b = term P pl S s' a b := by
  unfold term
  congr 1
  apply ind_congr
  refine and_congr Iff.rfl ?_
  unfold Inside2
  exact ⟨fun hh k hk h1 h2 => by rw [← h k hk h1 h2]; exact hh k hk h1 h2, fun hh k hk h1 h2 => by rw [h k hk h1 h2]; exact hh k hk h1 h2⟩

theorem flow_congr (M : List (Polygon D)) (pl : ℕ → Pl) {S : Finset ℕ} {s s' : ℕ → ℤ} {a b : ℕ} (h : ∀ k ∈ S, k ≠ a → k ≠ b → s k = s' k) :
    flow M pl S s a b = flow M pl S s' a b := by
  unfold flow
  congr 1
  exact List.map_congr_left fun P _ => term_congr P pl h

theorem term_split (P : Polygon D) (pl : ℕ → Pl) {S : Finset ℕ} {s s1 s2 : ℕ → ℤ} {a b B : ℕ} (hB : B ∉ S) (ha : a ∈ S) (hb : b ∈ S)
    (h1 : ∀ k ∈ S, s1 k = s k) (h2 : ∀ k ∈ S, s2 k = s k) (b1 : s1 B = 1) (b2 : s2 B = -1)
    (hg : det3 P.plane.n.q (pl a).n (pl b).n ≠ 0 → (pl B).val (meet P.plane.n.q P.plane.d (pl a) (pl b)) ≠ 0) :
    term P pl S s a b = term P pl (insert B S) s1 a b + term P pl (insert B S) s2 a b := by
  unfold term
  by_cases hd : det3 P.plane.n.q (pl a).n (pl b).n = 0
  · rw [hd, sgn_zero, zero_mul, zero_mul, zero_mul]; rfl
  rw [← mul_add]
  congr 1
  have hv := hg hd
  generalize meet P.plane.n.q P.plane.d (pl a) (pl b) = v at hv ⊢
  have hBa : B ≠ a := by rintro rfl; exact hB ha
  have hBb : B ≠ b := by rintro rfl; exact hB hb
  have e1 : ∀ s' : ℕ → ℤ, (∀ k ∈ S, s' k = s k) → (Inside2 pl (insert B S) s' a b v ↔ Inside2 pl S s a b v ∧ (s' B : ℚ) * (pl B).val v < 0) := by
    intro s' hs'
    unfold Inside2
    constructor
    · intro h
      exact ⟨fun k hk k1 k2 => by rw [← hs' k hk]; exact h k (Finset.mem_insert_of_mem hk) k1 k2, h B (Finset.mem_insert_self _ _) hBa hBb⟩
    · rintro ⟨h, h'⟩ k hk k1 k2
      rcases Finset.mem_insert.1 hk with rfl | hk
      · exact h'
      · rw [hs' k hk]; exact h k hk k1 k2
  rw [ind_congr (and_congr Iff.rfl (e1 s1 h1)), ind_congr (and_congr Iff.rfl (e1 s2 h2)), b1, b2, ← and_assoc, ← and_assoc,
    ind_split _ (((1 : ℤ) : ℚ) * (pl B).val v < 0)]
  congr 1
  apply ind_congr
  refine and_congr Iff.rfl ?_
  rw [not_lt]
  push_cast
  constructor
  · intro h
    have := lt_of_le_of_ne (by linarith : 0 ≤ (pl B).val v) hv.symm
    linarith
  · intro h; linarith

theorem flow_split {M : List (Polygon D)} {pl : ℕ → Pl} {S : Finset ℕ} {s s1 s2 : ℕ → ℤ} {a b B : ℕ} (hB : B ∉ S) (ha : a ∈ S) (hb : b ∈ S)
    (h1 : ∀ k ∈ S, s1 k = s k) (h2 : ∀ k ∈ S, s2 k = s k) (b1 : s1 B = 1) (b2 : s2 B = -1)
    (hg : ∀ P ∈ M, det3 P.plane.n.q (pl a).n (pl b).n ≠ 0 → (pl B).val (meet P.plane.n.q P.plane.d (pl a) (pl b)) ≠ 0) :
    flow M pl S s a b = flow M pl (insert B S) s1 a b + flow M pl (insert B S) s2 a b := by
  unfold flow
  induction M with
  | nil => rfl
  | cons P M ih =>
    simp only [List.map_cons, List.sum_cons]
    rw [ih (fun Q hQ => hg Q (List.mem_cons_of_mem _ hQ)), term_split P pl hB ha hb h1 h2 b1 b2 (hg P List.mem_cons_self)]
    ring

theorem flow_self (M : List (Polygon D)) (pl : ℕ → Pl) (S : Finset ℕ) (s : ℕ → ℤ) (a : ℕ) : flow M pl S s a a = 0 := by
  have := flow_swap M pl S s a a; omega

/-- Twice the crossings of the mesh with the path of the vertex in direction `c`, when the
plane `h` is moved to its place and cuts a part off the polytope bounded by `K`. -/
noncomputable def cutOff (c : Q3) (M : List (Polygon D)) (pl : ℕ → Pl) (K : Finset ℕ) (h : ℕ) : ℤ :=
  ∑ a ∈ K, ∑ b ∈ K, tau c (pl h).n (pl a).n (pl b).n * flow M pl (insert h K) (fl {h}) a b

/-- What a further plane changes. -/
theorem cutOff_insert (c : Q3) {M : List (Polygon D)} {pl : ℕ → Pl} {K : Finset ℕ} {h B : ℕ} (hh : h ∉ K) (hB : B ∉ K) (hne : h ≠ B)
    (hg : Generic M pl (insert h (insert B K))) :
    cutOff c M pl (insert B K) h - cutOff c M pl K h =
      -∑ a ∈ K, ∑ b ∈ K, tau c (pl h).n (pl a).n (pl b).n * flow M pl (insert h (insert B K)) (fl {h, B}) a b +
        2 * ∑ a ∈ K, tau c (pl h).n (pl a).n (pl B).n * flow M pl (insert h (insert B K)) (fl {h, B}) a B := by
  have e1 : cutOff c M pl K h = ∑ a ∈ K, ∑ b ∈ K, (tau c (pl h).n (pl a).n (pl b).n * flow M pl (insert h (insert B K)) (fl {h}) a b +
      tau c (pl h).n (pl a).n (pl b).n * flow M pl (insert h (insert B K)) (fl {h, B}) a b) := by
    unfold cutOff
    refine Finset.sum_congr rfl fun a ha => Finset.sum_congr rfl fun b hb => ?_
    by_cases hab : b = a
    · subst hab; rw [tau_self]; ring
    have ins : insert h (insert B K) = insert B (insert h K) := Finset.insert_comm _ _ _
    rw [← mul_add, ins]
    congr 1
    refine flow_split (s := fl {h}) (s1 := fl {h}) (s2 := fl {h, B}) ?_ (Finset.mem_insert_of_mem ha) (Finset.mem_insert_of_mem hb) (fun _ _ => rfl) ?_ ?_ ?_ ?_
    · rw [Finset.mem_insert]; rintro (e | e)
      · exact hne e.symm
      · exact hB e
    · intro k hk
      have : k ≠ B := by
        rintro rfl
        rcases Finset.mem_insert.1 hk with e | e
        · exact hne e.symm
        · exact hB e
      unfold fl; simp [this]
    · unfold fl; simp [hne.symm]
    · unfold fl; simp
    · intro P hP hd
      refine hg.facet P hP a (by simp [ha]) b (by simp [hb]) B (by simp) hab ?_ ?_ hd
      · rintro rfl; exact hB ha
      · rintro rfl; exact hB hb
  have e2 : ∀ a ∈ K, flow M pl (insert h (insert B K)) (fl {h}) a B = flow M pl (insert h (insert B K)) (fl {h, B}) a B := by
    intro a ha
    refine flow_congr M pl fun k hk h1 h2 => ?_
    unfold fl; simp [h2]
  rw [e1]
  unfold cutOff
  rw [Finset.sum_insert hB]
  simp only [Finset.sum_insert hB, Finset.sum_add_distrib]
  have e3 : ∑ b ∈ K, tau c (pl h).n (pl B).n (pl b).n * flow M pl (insert h (insert B K)) (fl {h}) B b =
      ∑ a ∈ K, tau c (pl h).n (pl a).n (pl B).n * flow M pl (insert h (insert B K)) (fl {h, B}) a B := by
    refine Finset.sum_congr rfl fun b hb => ?_
    rw [tau_swap c _ (pl b).n, flow_swap, e2 b hb]; ring
  have e4 : ∑ a ∈ K, tau c (pl h).n (pl a).n (pl B).n * flow M pl (insert h (insert B K)) (fl {h}) a B =
      ∑ a ∈ K, tau c (pl h).n (pl a).n (pl B).n * flow M pl (insert h (insert B K)) (fl {h, B}) a B :=
    Finset.sum_congr rfl fun a ha => by rw [e2 a ha]
  rw [e3, e4, tau_self, zero_mul]
  ring

/-- Cutting off with `h` and then with `B`, or the other way round. -/
theorem cutOff_comm {c : Q3} {M : List (Polygon D)} (hM : ∀ P ∈ M, IsConvexPolygon P) (hc : ClosedMesh M) {pl : ℕ → Pl} {K : Finset ℕ} {h B : ℕ}
    (hh : h ∉ K) (hB : B ∉ K) (hne : h ≠ B) (hg : Generic M pl (insert h (insert B K)))
    (hseen : ∀ i ∈ insert h (insert B K), ∀ j ∈ insert h (insert B K), Seen c (pl i).n (pl j).n)
    {x : Q3} (hx : ∀ k ∈ insert h (insert B K), (pl k).val x < 0) :
    cutOff c M pl (insert B K) h + cutOff c M pl K B = cutOff c M pl (insert h K) B + cutOff c M pl K h := by
  have A1 := cutOff_insert c hh hB hne hg
  have A2 := cutOff_insert c (K := K) (h := B) (B := h) hB hh hne.symm (by rw [Finset.insert_comm]; exact hg)
  rw [Finset.insert_comm B h K, Finset.pair_comm B h] at A2
  have star : ∀ a ∈ K, ∑ b ∈ K, flow M pl (insert h (insert B K)) (fl {h, B}) a b =
      flow M pl (insert h (insert B K)) (fl {h, B}) a h + flow M pl (insert h (insert B K)) (fl {h, B}) a B := by
    intro a ha
    have hah : a ≠ h := by rintro rfl; exact hh ha
    have haB : a ≠ B := by rintro rfl; exact hB ha
    have st := flow_star hM hc hg (s := fl {h, B}) (fun k _ => fl_cases _ _) (a := a) (by simp [ha])
    have e0 : ∑ b ∈ (insert h (insert B K)).erase a, fl {h, B} b * flow M pl (insert h (insert B K)) (fl {h, B}) a b =
        ∑ b ∈ insert h (insert B K), fl {h, B} b * flow M pl (insert h (insert B K)) (fl {h, B}) a b := by
      refine Finset.sum_erase _ ?_
      rw [flow_self, mul_zero]
    rw [e0, Finset.sum_insert (by simp [hne, hh]), Finset.sum_insert hB] at st
    have e1 : ∑ b ∈ K, fl {h, B} b * flow M pl (insert h (insert B K)) (fl {h, B}) a b =
        ∑ b ∈ K, flow M pl (insert h (insert B K)) (fl {h, B}) a b := by
      refine Finset.sum_congr rfl fun b hb => ?_
      have hbh : b ≠ h := by rintro rfl; exact hh hb
      have hbB : b ≠ B := by rintro rfl; exact hB hb
      unfold fl; simp [hbh, hbB]
    have f1 : fl {h, B} h = -1 := by unfold fl; simp
    have f2 : fl {h, B} B = -1 := by unfold fl; simp
    rw [e1, f1, f2] at st
    omega
  set X := flow M pl (insert h (insert B K)) (fl {h, B}) with hX
  have four : ∀ a ∈ K, ∀ b ∈ K, tau c (pl B).n (pl a).n (pl b).n * X a b - tau c (pl h).n (pl a).n (pl b).n * X a b =
      tau c (pl h).n (pl B).n (pl a).n * X a b - tau c (pl h).n (pl B).n (pl b).n * X a b := by
    intro a ha b hb
    by_cases h0 : X a b = 0
    · rw [h0]; ring
    · have : tau c (pl B).n (pl a).n (pl b).n - tau c (pl h).n (pl a).n (pl b).n + tau c (pl h).n (pl B).n (pl b).n -
          tau c (pl h).n (pl B).n (pl a).n = 0 := by
        obtain ⟨P, hP, hPt⟩ : ∃ P ∈ M, term P pl (insert h (insert B K)) (fl {h, B}) a b ≠ 0 := by
          by_contra hcon
          push Not at hcon
          apply h0
          rw [hX]
          unfold flow
          apply List.sum_eq_zero
          intro x hx
          obtain ⟨P, hP, rfl⟩ := List.mem_map.1 hx
          exact hcon P hP
        unfold term at hPt
        have hd : det3 P.plane.n.q (pl a).n (pl b).n ≠ 0 := by
          intro e; rw [e, sgn_zero, zero_mul] at hPt; exact hPt rfl
        have hin : Inside2 pl (insert h (insert B K)) (fl {h, B}) a b (meet P.plane.n.q P.plane.d (pl a) (pl b)) := by
          by_contra hcon
          rw [ind_false_of (fun c => hcon c.2), mul_zero] at hPt
          exact hPt rfl
        obtain ⟨_, va, vb⟩ := meet_spec (D := (P.plane.d : ℚ)) hd
        generalize meet P.plane.n.q P.plane.d (pl a) (pl b) = v at hin va vb
        have hah : h ≠ a := by rintro rfl; exact hh ha
        have haB : B ≠ a := by rintro rfl; exact hB ha
        have hbh : h ≠ b := by rintro rfl; exact hh hb
        have hbB : B ≠ b := by rintro rfl; exact hB hb
        have vh := hin h (by simp) hah hbh
        have vB := hin B (by simp) haB hbB
        have f1 : fl {h, B} h = -1 := by unfold fl; simp
        have f2 : fl {h, B} B = -1 := by unfold fl; simp
        rw [f1] at vh
        rw [f2] at vB
        push_cast at vh vB
        have dy : ∀ k ∈ insert h (insert B K), 0 ≤ (pl k).val v → dotQ (pl k).n (fun i => x i - v i) < 0 := by
          intro k hk hv
          have := hx k hk
          unfold Pl.val at this hv
          unfold dotQ at *
          linarith
        exact tau_four (dy h (by simp) (by linarith)) (dy B (by simp) (by linarith)) (dy a (by simp [ha]) va.ge) (dy b (by simp [hb]) vb.ge)
          (hseen _ (by simp) _ (by simp)) (hseen _ (by simp) _ (by simp [ha])) (hseen _ (by simp) _ (by simp [hb]))
          (hseen _ (by simp) _ (by simp [ha])) (hseen _ (by simp) _ (by simp [hb])) (hseen _ (by simp [ha]) _ (by simp [hb]))
      linear_combination X a b * this
  have s1 : ∑ a ∈ K, ∑ b ∈ K, tau c (pl B).n (pl a).n (pl b).n * X a b - ∑ a ∈ K, ∑ b ∈ K, tau c (pl h).n (pl a).n (pl b).n * X a b =
      ∑ a ∈ K, ∑ b ∈ K, tau c (pl h).n (pl B).n (pl a).n * X a b - ∑ a ∈ K, ∑ b ∈ K, tau c (pl h).n (pl B).n (pl b).n * X a b := by
    simp only [← Finset.sum_sub_distrib]
    exact Finset.sum_congr rfl fun a ha => Finset.sum_congr rfl fun b hb => four a ha b hb
  have s2 : ∑ a ∈ K, ∑ b ∈ K, tau c (pl h).n (pl B).n (pl a).n * X a b = ∑ a ∈ K, tau c (pl h).n (pl B).n (pl a).n * (X a h + X a B) := by
    refine Finset.sum_congr rfl fun a ha => ?_
    rw [← Finset.mul_sum, star a ha]
  have s3 : ∑ a ∈ K, ∑ b ∈ K, tau c (pl h).n (pl B).n (pl b).n * X a b = -∑ a ∈ K, tau c (pl h).n (pl B).n (pl a).n * (X a h + X a B) := by
    rw [Finset.sum_comm, ← Finset.sum_neg_distrib]
    refine Finset.sum_congr rfl fun b hb => ?_
    rw [← star b hb, Finset.mul_sum, ← Finset.sum_neg_distrib]
    refine Finset.sum_congr rfl fun a ha => ?_
    rw [hX, flow_swap M pl _ _ b a]; ring
  have s4 : ∑ a ∈ K, tau c (pl h).n (pl a).n (pl B).n * X a B = -∑ a ∈ K, tau c (pl h).n (pl B).n (pl a).n * X a B := by
    rw [← Finset.sum_neg_distrib]
    refine Finset.sum_congr rfl fun a _ => ?_
    rw [tau_swap]; ring
  have s5 : ∑ a ∈ K, tau c (pl B).n (pl a).n (pl h).n * X a h = ∑ a ∈ K, tau c (pl h).n (pl B).n (pl a).n * X a h := by
    refine Finset.sum_congr rfl fun a _ => ?_
    rw [tau_rot]
  simp only [mul_add, Finset.sum_add_distrib] at s2 s3
  rw [s4] at A1
  rw [s5] at A2
  linarith

/-- The total of cutting off with the planes of a list, the last one first. -/
noncomputable def total (c : Q3) (M : List (Polygon D)) (pl : ℕ → Pl) : List ℕ → ℤ
  | [] => 0
  | h :: l => cutOff c M pl l.toFinset h + total c M pl l

theorem total_perm {c : Q3} {M : List (Polygon D)} (hM : ∀ P ∈ M, IsConvexPolygon P) (hc : ClosedMesh M) {pl : ℕ → Pl} {x : Q3} {l l' : List ℕ}
    (hp : l.Perm l') (hl : l.Nodup) (hg : Generic M pl l.toFinset) (hseen : ∀ i ∈ l, ∀ j ∈ l, Seen c (pl i).n (pl j).n)
    (hx : ∀ k ∈ l, (pl k).val x < 0) : total c M pl l = total c M pl l' := by
  induction hp with
  | nil => rfl
  | @cons h l l' hp ih =>
    obtain ⟨h1, h2⟩ := List.nodup_cons.1 hl
    unfold total
    rw [ih h2 (hg.mono (by intro k; simp; exact Or.inr)) (fun i hi j hj => hseen i (by simp [hi]) j (by simp [hj])) (fun k hk => hx k (by simp [hk])),
      List.toFinset_eq_of_perm _ _ hp]
  | @swap B h l =>
    simp only [List.nodup_cons, List.mem_cons, not_or] at hl
    obtain ⟨⟨h1, h2⟩, h3, h4⟩ := hl
    unfold total
    unfold total
    simp only [List.toFinset_cons] at *
    have := cutOff_comm (c := c) (K := l.toFinset) (h := B) (B := h) hM hc (by simpa using h3) (by simpa using h2) (fun e => h1 e.symm)
      (by rw [Finset.insert_comm]; exact hg) (fun i hi j hj => hseen i (by simpa [or_left_comm] using hi) j (by simpa [or_left_comm] using hj))
      (x := x) (fun k hk => hx k (by simpa [or_left_comm] using hk))
    linarith
  | trans hp hq ih1 ih2 =>
    rw [ih1 hl hg hseen hx]
    exact ih2 (hp.nodup_iff.1 hl) (by rw [← List.toFinset_eq_of_perm _ _ hp]; exact hg)
      (fun i hi j hj => hseen i (hp.mem_iff.2 hi) j (hp.mem_iff.2 hj)) (fun k hk => hx k (hp.mem_iff.2 hk))

end Walnut.Bsp
