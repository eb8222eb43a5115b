/-
C40: the winding numbers at the leaves of a binary space partition.

The statements use `Reach` (histories of a tree with the polygons added to it), `Splits`
(splits of a tree that is a leaf at first), `Node.subs` (the nodes with the split planes
above them) and the following specification.
-/
import Verif.Bsp.WindFrame

namespace Walnut.Props
open Walnut.Geom Walnut.Poly Walnut.Bsp

/-! ### Specification -/

/-- The facets of the mesh `id`. -/
def meshOf (S : List Source) (id : ℕ) : List (Polygon Unit) := (S.filter fun s => s.id == id).map Source.poly

/-- The directed edges of a mesh. -/
def meshSides (M : List (Polygon Unit)) : List (Q3 × Q3) :=
  M.flatMap fun P => (List.range P.count).map fun i => (P.pt i, P.pt ((i + 1) % P.count))

/-- The mesh is closed: every edge occurs as often in one direction as in the other. -/
def Closed (M : List (Polygon Unit)) : Prop := ∀ a b : Q3, (meshSides M).count (a, b) = (meshSides M).count (b, a)

/-- The point `x` of the facet is not on one of its edges: it is strictly left of all. -/
def OffEdges (P : Polygon Unit) (x : Q3) : Prop := ∀ i < P.count, 0 < Poly.turn P.plane.n.q (P.pt i) (P.pt ((i + 1) % P.count)) x

open Classical in
/-- How the ray from `q` in direction `v` crosses the facet: 1 if it hits it from the back,
-1 from the front, and 0 if it does not hit it. -/
noncomputable def hits {D : Type} (q v : Q3) (P : Polygon D) : ℤ :=
  if ∃ t : ℚ, 0 < t ∧ q + t • v ∈ P.region then (if 0 < dotQ P.plane.n.q v then 1 else if dotQ P.plane.n.q v < 0 then -1 else 0) else 0

/-- The ray only hits the facets inside. -/
def Transversal (M : List (Polygon Unit)) (q v : Q3) : Prop :=
  v ≠ 0 ∧ ∀ P ∈ M, ∀ t : ℚ, 0 < t → q + t • v ∈ P.region → OffEdges P (q + t • v)

/-- The number of times that the mesh goes around `q`, counted on the ray. -/
noncomputable def windingNumber {D : Type} (M : List (Polygon D)) (q v : Q3) : ℤ := (M.map (hits q v)).sum

/-- The point is in the interior of the cell. -/
def InsideOf (anc : Anc) (q : Q3) : Prop := ∀ a ∈ anc, if a.2 then 0 < a.1.plane.side q else a.1.plane.side q < 0

/-! ### Proofs -/

theorem crossing_hits (q v : Q3) (P : Polygon Unit) : crossing v q P = hits q v P := by
  unfold crossing hits
  by_cases h : ∃ t : ℚ, 0 < t ∧ q + t • v ∈ P.region
  · rw [ind_true h, mul_one, if_pos h]
    rcases lt_trichotomy (dotQ P.plane.n.q v) 0 with h | h | h
    · rw [sgn_neg h, if_neg (not_lt.2 h.le), if_pos h]
    · rw [h, sgn_zero]; simp
    · rw [sgn_pos h, if_pos h]
  · rw [ind_false h, mul_zero, if_neg h]

theorem Closed.mesh {M : List (Polygon Unit)} (h : Closed M) : ClosedMesh M := by
  unfold ClosedMesh
  rw [List.perm_iff_count]
  intro ⟨a, b⟩
  have := h b a
  have e : ((M.flatMap facetEdges).map Prod.swap).count (a, b) = (M.flatMap facetEdges).count (b, a) :=
    List.count_map_of_injective _ _ Prod.swap_injective (b, a)
  rw [e]
  exact this

theorem InsideOf.cell {anc : Anc} {q : Q3} (h : InsideOf anc q) : InCell anc q := by
  intro a ha
  have := h a ha
  rw [outPl_val]
  split_ifs at this ⊢ <;> linarith

/-! ### C40 -/

/-- C40: if all meshes are added before the first split, then the winding number of a closed
mesh that is stored at a leaf with none of the mesh's facets inside is the winding number
of the mesh around the points of the leaf's cell: the number of facets that a ray from the
point leaves through, minus the number of facets that it enters through, for every ray that
meets no edge. -/
theorem C40_winding {aabb : Bool} {d : NodeData} {S : List Source} (h : Reach aabb (.leaf d) S) {t : Node} (ht : Splits d t) {anc : Anc} {l : NodeData}
    (hl : (anc, Node.leaf l) ∈ t.subs []) {id : ℕ} (hc : Closed (meshOf S id)) (hid : ∀ x ∈ l.contents, x.id ≠ id) {q v : Q3} (hq : InsideOf anc q)
    (hv : Transversal (meshOf S id) q v) : (l.infoFor id).pwn = windingNumber (meshOf S id) q v := by
  have := pwn_winding h ht hl hid hc.mesh hq.cell hv.1 hv.2
  unfold pwnOf at this
  rw [this]
  unfold windingNumber
  congr 1
  exact List.map_congr_left fun P _ => crossing_hits q v P

/-- C40: in particular it is 0 where some ray misses the mesh. -/
theorem C40_outside {aabb : Bool} {d : NodeData} {S : List Source} (h : Reach aabb (.leaf d) S) {t : Node} (ht : Splits d t) {anc : Anc} {l : NodeData}
    (hl : (anc, Node.leaf l) ∈ t.subs []) {id : ℕ} (hc : Closed (meshOf S id)) (hid : ∀ x ∈ l.contents, x.id ≠ id) {q v : Q3} (hq : InsideOf anc q)
    (hv : v ≠ 0) (hmiss : ∀ P ∈ meshOf S id, ∀ s : ℚ, 0 < s → q + s • v ∉ P.region) : (l.infoFor id).pwn = 0 := by
  rw [C40_winding h ht hl hc hid hq ⟨hv, fun P hP s hs hr => absurd hr (hmiss P hP s hs)⟩]
  unfold windingNumber
  apply List.sum_eq_zero
  intro y hy
  obtain ⟨P, hP, rfl⟩ := List.mem_map.1 hy
  unfold hits
  rw [if_neg]
  rintro ⟨s, hs, hr⟩
  exact hmiss P hP s hs hr

theorem ev_transversal {M : List (Polygon Unit)} (hM : ∀ P ∈ M, IsConvexPolygon P) (q : Q3) : Ev fun η => Transversal M q (dirZ η) := by
  have key : Ev fun η => ∀ P ∈ M, ∀ i ∈ Finset.range P.count, crossQ (fun j => P.pt ((i + 1) % P.count) j - P.pt i j) (dirZ η) ≠ 0 ∧
      (crossQ (fun j => P.pt i j - q j) (fun j => P.pt ((i + 1) % P.count) j - q j) ≠ 0 →
        dotQ (dirZ η) (crossQ (fun j => P.pt i j - q j) (fun j => P.pt ((i + 1) % P.count) j - q j)) ≠ 0) := by
    refine ev_list M fun P hP => ev_fin _ fun i hi => ?_
    refine (ev_cross ?_).and (ev_imp fun h => ev_dot h)
    intro e
    refine next_ne (hM P hP) (Finset.mem_range.1 hi) (funext fun j => ?_)
    have := congrFun e j
    simp only [Pi.zero_apply] at this
    linarith
  refine key.mono fun η h => ?_
  refine ⟨fun e => by simpa [dirZ] using congrFun e 2, fun P hP t ht hr i hi => ?_⟩
  obtain ⟨h1, h2⟩ := h P hP i (Finset.mem_range.2 hi)
  have h0 := turn_region (hM P hP) hi hr
  refine lt_of_le_of_ne h0 fun e => ?_
  have hi' : (i + 1) % P.count < P.count := Nat.mod_lt _ (by omega)
  have pa := region_onPlane (hM P hP) (pt_mem hi)
  have pb := region_onPlane (hM P hP) (pt_mem hi')
  have px := region_onPlane (hM P hP) hr
  have nn := normal_pos (hM P hP)
  set N := P.plane.n.q
  set a := P.pt i
  set b := P.pt ((i + 1) % P.count)
  set v := dirZ η
  set x := q + t • v with hx
  unfold Poly.turn at e
  have na : dotQ N (fun j => b j - a j) = 0 := by unfold dotQ at *; linarith
  have nx : dotQ N (fun j => x j - a j) = 0 := by unfold dotQ at *; linarith
  have y0 : ∀ j, crossQ (fun j => b j - a j) (fun j => x j - a j) j = 0 := by
    intro j
    refine (mul_eq_zero.1 (?_ : dotQ N N * _ = 0)).resolve_left nn.ne'
    unfold dotQ at *
    simp only [crossQ_zero, crossQ_one, crossQ_two] at e ⊢
    fin_cases j <;> simp only [Fin.zero_eta, Fin.mk_one, Fin.reduceFinMk, crossQ_zero, crossQ_one, crossQ_two]
    · linear_combination (-N 0) * e - (N 2 * (x 1 - a 1) - N 1 * (x 2 - a 2)) * na - (N 1 * (b 2 - a 2) - N 2 * (b 1 - a 1)) * nx
    · linear_combination (-N 1) * e - (N 0 * (x 2 - a 2) - N 2 * (x 0 - a 0)) * na - (N 2 * (b 0 - a 0) - N 0 * (b 2 - a 2)) * nx
    · linear_combination (-N 2) * e - (N 1 * (x 0 - a 0) - N 0 * (x 1 - a 1)) * na - (N 0 * (b 1 - a 1) - N 1 * (b 0 - a 0)) * nx
  have z0 := y0 0
  have z1 := y0 1
  have z2 := y0 2
  have xv : ∀ j, x j = q j + t * v j := fun j => by rw [hx]; simp
  simp only [crossQ_zero, crossQ_one, crossQ_two, xv] at z0 z1 z2
  by_cases hw : crossQ (fun j => a j - q j) (fun j => b j - q j) = 0
  · apply h1
    have w0 := congrFun hw 0
    have w1 := congrFun hw 1
    have w2 := congrFun hw 2
    simp only [crossQ_zero, crossQ_one, crossQ_two, Pi.zero_apply] at w0 w1 w2
    funext j
    refine (mul_eq_zero.1 (?_ : t * _ = 0)).resolve_left ht.ne'
    fin_cases j <;> simp only [Fin.zero_eta, Fin.mk_one, Fin.reduceFinMk, crossQ_zero, crossQ_one, crossQ_two]
    · linear_combination z0 - w0
    · linear_combination z1 - w1
    · linear_combination z2 - w2
  · apply h2 hw
    refine (mul_eq_zero.1 (?_ : t * _ = 0)).resolve_left ht.ne'
    unfold dotQ
    simp only [crossQ_zero, crossQ_one, crossQ_two]
    linear_combination (a 0 - q 0) * z0 + (a 1 - q 1) * z1 + (a 2 - q 2) * z2

/-- There is a ray that meets no edge. -/
theorem exists_transversal {M : List (Polygon Unit)} (hM : ∀ P ∈ M, IsConvexPolygon P) (q : Q3) : ∃ v, Transversal M q v := by
  obtain ⟨η, _, h⟩ := ev_exists (ev_transversal hM q)
  exact ⟨_, h⟩

/-- C40: the winding number of a leaf does not depend on the order of the splits, nor on
the rest of the tree.  If two trees that contain the same closed mesh have cells with a
common interior point, and none of its facets inside, then they agree. -/
theorem C40_order {aabb aabb' : Bool} {d d' : NodeData} {S S' : List Source} (h : Reach aabb (.leaf d) S) (h' : Reach aabb' (.leaf d') S') {t t' : Node}
    (ht : Splits d t) (ht' : Splits d' t') {anc anc' : Anc} {l l' : NodeData} (hl : (anc, Node.leaf l) ∈ t.subs []) (hl' : (anc', Node.leaf l') ∈ t'.subs [])
    {id id' : ℕ} (hm : (meshOf S id).Perm (meshOf S' id')) (hc : Closed (meshOf S id)) (hid : ∀ x ∈ l.contents, x.id ≠ id)
    (hid' : ∀ x ∈ l'.contents, x.id ≠ id') {q : Q3} (hq : InsideOf anc q) (hq' : InsideOf anc' q) : (l.infoFor id).pwn = (l'.infoFor id').pwn := by
  have hM : ∀ P ∈ meshOf S id, IsConvexPolygon P := by
    intro P hP
    obtain ⟨s, hs, rfl⟩ := List.mem_map.1 hP
    exact h.leaf_pwn.1 s (List.mem_of_mem_filter hs)
  obtain ⟨v, hv⟩ := exists_transversal hM q
  have hc' : Closed (meshOf S' id') := by
    intro a b
    have e : (meshSides (meshOf S' id')).Perm (meshSides (meshOf S id)) := hm.symm.flatMap_right _
    rw [e.count_eq, e.count_eq]; exact hc a b
  rw [C40_winding h ht hl hc hid hq hv, C40_winding h' ht' hl' hc' hid' hq' ⟨hv.1, fun P hP => hv.2 P (hm.mem_iff.2 hP)⟩]
  unfold windingNumber
  exact (hm.map _).sum_eq

/-! ### Examples -/

/-- The splits along the facets of the tetrahedron. -/
def facetSplits : List (List Bool × HS3) :=
  [([], ⟨⟨-1, 0, 0⟩, 0⟩), ([false], ⟨⟨0, -1, 0⟩, 0⟩), ([false, false], ⟨⟨0, 0, -1⟩, 0⟩), ([false, false, false], ⟨⟨1, 1, 1⟩, 4⟩)]

/-- The check of the example: the leaf of the tree below the four planes. -/
def isInner (x : Anc × Node) : Bool :=
  match x.2 with
  | .leaf l => x.1.all (fun a => if a.2 then 0 < a.1.plane.side ![1, 1, 1] else a.1.plane.side ![1, 1, 1] < 0) && l.contents.isEmpty && x.1.length == 4 &&
    (l.infoFor 0).pwn == 1 && l.border.length == 4
  | _ => false

theorem Splits.all {d : NodeData} : ∀ (l : List (List Bool × HS3)) {t t' : Node}, Splits d t → Props.splitAll t l = some t' → Splits d t' := by
  intro l
  induction l with
  | nil => intro t t' h ht; rw [← Option.some.inj ht]; exact h
  | cons s l ih =>
    intro t t' h ht
    obtain ⟨t1, h1, h2⟩ := Option.bind_eq_some_iff.1 ht
    exact ih (h.split h1) h2

theorem tetra_closed : Closed tetra := by
  have h : (meshSides tetra).Perm ((meshSides tetra).map Prod.swap) := by decide +kernel
  intro a b
  rw [h.count_eq]
  exact List.count_map_of_injective _ _ Prod.swap_injective (b, a)

/-- The hypotheses of the theorems are met by the cell with the inside of the tetrahedron
after splits along its four facets; its winding number is 1. -/
example : ∃ d t anc l, Reach false (.leaf d) (tetra.map (fun P => ⟨0, P⟩)) ∧ Splits d t ∧ (anc, Node.leaf l) ∈ t.subs [] ∧ Closed (meshOf (tetra.map (fun P => ⟨0, P⟩)) 0) ∧
    (∀ x ∈ l.contents, x.id ≠ 0) ∧ InsideOf anc ![1, 1, 1] ∧ Transversal (meshOf (tetra.map (fun P => ⟨0, P⟩)) 0) ![1, 1, 1] ![1, 2, 5] ∧ anc.length = 4 ∧
    l.border.length = 4 ∧ (l.infoFor 0).pwn = 1 := by
  have e : meshOf (tetra.map (fun P => ⟨0, P⟩)) 0 = tetra := rfl
  rw [e]
  have h : (((Node.leaf {}).addContents false 0 tetra).bind fun t => match t with
      | .leaf d => (splitAll (.leaf d) facetSplits).map fun t => (t.subs []).any isInner
      | _ => none) = some true := by decide +kernel
  obtain ⟨t0, h0, h1⟩ := Option.bind_eq_some_iff.1 h
  cases t0 with
  | inner => exact absurd h1 (by simp)
  | leaf d =>
    obtain ⟨t, h2, h3⟩ := Option.map_eq_some_iff.1 h1
    obtain ⟨⟨anc, s⟩, h4, h5⟩ := List.any_eq_true.1 h3
    cases s with
    | inner => exact absurd h5 (by simp [isInner])
    | leaf l =>
      simp only [isInner, Bool.and_eq_true, beq_iff_eq, List.all_eq_true, List.isEmpty_iff] at h5
      obtain ⟨⟨⟨⟨a1, a2⟩, a3⟩, a4⟩, a5⟩ := h5
      refine ⟨d, t, anc, l, (Api.empty.add tetra_convex h0).spec.1, Splits.all _ .leaf h2, h4, tetra_closed, by simp [a2], ?_, ?_, a3, a5, a4⟩
      · intro a ha
        have := a1 a ha
        split_ifs at this ⊢ <;> exact of_decide_eq_true this
      · refine ⟨fun e => absurd (congrFun e 0) (by decide), fun P hP r hr hx => ?_⟩
        have hp := region_onPlane (tetra_convex P hP) hx
        simp only [tetra, List.mem_cons, List.not_mem_nil, or_false] at hP
        rcases hP with rfl | rfl | rfl | rfl
        iterate 3
          exfalso
          simp [triangle, HS3.ofPoints, dotQ, V3.q, V3.comp, V3.cross, V3.sub, V3.dot] at hp
          linarith
        simp [triangle, HS3.ofPoints, dotQ, V3.q, V3.comp, V3.cross, V3.sub, V3.dot] at hp
        have hr' : r = 1 / 8 := by linarith
        subst hr'
        have key : ∀ i < (triangle 0 ⟨4, 0, 0⟩ ⟨0, 4, 0⟩ ⟨0, 0, 4⟩).count, 0 < Poly.turn (triangle 0 ⟨4, 0, 0⟩ ⟨0, 4, 0⟩ ⟨0, 0, 4⟩).plane.n.q
            ((triangle 0 ⟨4, 0, 0⟩ ⟨0, 4, 0⟩ ⟨0, 0, 4⟩).pt i)
            ((triangle 0 ⟨4, 0, 0⟩ ⟨0, 4, 0⟩ ⟨0, 0, 4⟩).pt ((i + 1) % (triangle 0 ⟨4, 0, 0⟩ ⟨0, 4, 0⟩ ⟨0, 0, 4⟩).count))
            ![9 / 8, 5 / 4, 13 / 8] := by decide +kernel
        have ex : (![1, 1, 1] + (1 / 8 : ℚ) • ![1, 2, 5] : Q3) = ![9 / 8, 5 / 4, 13 / 8] := by
          funext i; fin_cases i <;> simp <;> norm_num
        intro i hi
        rw [ex]; exact key i hi

end Walnut.Props
