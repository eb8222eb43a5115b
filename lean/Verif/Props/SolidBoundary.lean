/-
C75: the polygons that a boolean operation emits and the sides on which the described set is.

The statements use `traverse` (the model of `BSPTraverser::Run`), the specification of winding
numbers in Props/Winding, the sets that filters describe (`Inside`, Props/Filters) and rays in
general position (`GenericRay`, Bsp/BoolSpec).
-/
import Verif.Props.ClosedOutput

namespace Walnut.Props
open Walnut.Geom Walnut.Poly Walnut.Bsp

/-! ### Specification -/

/-- The point is in the set that the filter describes of the solids bounded by the facets:
according to the winding numbers around the point, counted in direction `u`. -/
def InSolid (f : Filter) (S : List Source) (u z : Q3) : Prop := Inside f fun id => windingNumber (meshOf S id) z u

/-- It holds at all points of the ray shortly before the point `q + r • u`. -/
def Before (q u : Q3) (r : ℚ) (p : Q3 → Prop) : Prop := ∃ ε > 0, ∀ s, r - ε < s → s < r → p (q + s • u)

/-- It holds at all points of the ray shortly after the point `q + r • u`. -/
def After (q u : Q3) (r : ℚ) (p : Q3 → Prop) : Prop := ∃ ε > 0, ∀ s, r < s → s < r + ε → p (q + s • u)

open Classical in
/-- The emitted polygons at a point that the direction leaves through: `u` points away from the
side that the polygon has in the back. -/
noncomputable def leaving (tr : List Visit) (u x : Q3) : List (Polygon EdgeInfo) := (output tr).filter fun P => x ∈ P.region ∧ 0 < dotQ P.plane.n.q u

open Classical in
/-- The emitted polygons at a point that the direction enters through. -/
noncomputable def entering (tr : List Visit) (u x : Q3) : List (Polygon EdgeInfo) := (output tr).filter fun P => x ∈ P.region ∧ dotQ P.plane.n.q u < 0

/-! ### Counting at a point -/

open Classical in
theorem stack_count {l : List BPoly} {x : Q3} {p : HS3 → Prop} [DecidablePred p] :
    (stackAt x l).countP (fun f => decide (p f.2)) = ((l.map BPoly.poly).filter fun P => decide (x ∈ P.region ∧ p P.plane)).length := by
  unfold stackAt
  rw [← List.countP_eq_length_filter, List.countP_map, List.countP_map, List.countP_filter]
  refine List.countP_congr fun y _ => ?_
  by_cases h2 : p y.poly.plane <;> simp [facet, h2]

theorem exists_gap (T : Finset ℚ) {r : ℚ} (hr : 0 < r) : ∃ ε > 0, ε ≤ r ∧ ∀ s ∈ T, r - ε < s → s < r + ε → s = r := by
  induction T using Finset.induction_on with
  | empty => exact ⟨r, hr, le_rfl, by simp⟩
  | insert a T _ ih =>
    obtain ⟨ε, h0, h1, h2⟩ := ih
    by_cases ha : a = r
    · refine ⟨ε, h0, h1, fun s hs => ?_⟩
      rcases Finset.mem_insert.1 hs with rfl | hs
      · exact fun _ _ => ha
      · exact h2 s hs
    · have hp : 0 < |a - r| := abs_pos.2 (sub_ne_zero.2 ha)
      refine ⟨min ε |a - r|, lt_min h0 hp, (min_le_left _ _).trans h1, fun s hs l1 l2 => ?_⟩
      rcases Finset.mem_insert.1 hs with rfl | hs
      · exfalso
        have := min_le_right ε |s - r|
        rcases abs_cases (s - r) with ⟨e, _⟩ | ⟨e, _⟩ <;> linarith
      · have := min_le_left ε |a - r|
        exact h2 s hs (by linarith) (by linarith)

theorem bit_cases (b : Bool) : bit ℤ b = 0 ∨ bit ℤ b = 1 := by cases b <;> simp [bit]

/-- What is emitted at a point of a ray, and the values on both sides. -/
theorem facet_counts {aabb : Bool} {d : NodeData} {S : List Source} (h : Reach aabb (.leaf d) S) {t : Node} (ht : Splits d t) {f : Filter} (hf : NoParity f)
    (hk : ∀ id ∈ invertedIds f, id < d.info.length) {choose : Choose} {group : Group} (hg : Grouping group) {pfuel fuel : Nat} {t' : Node} {tr : List Visit}
    (hr : traverse f.eval choose group pfuel fuel t = some (t', tr)) (hc : ∀ id, Closed (meshOf S id)) {q u : Q3} (hG : GenericRay t' tr S q u) {r : ℚ} (hr0 : 0 < r) :
    ∃ ε > 0, ∀ a b, r - ε < a → a < r → r < b → b < r + ε → ∃ m : ℤ, (m = 0 ∨ m = 1) ∧
      ((leaving tr u (q + r • u)).length : ℤ) = one (InSolid f S u (q + a • u)) - m ∧
      ((entering tr u (q + r • u)).length : ℤ) = one (InSolid f S u (q + b • u)) - m := by
  obtain ⟨c1, c2, c3⟩ := traverse_context h ht (filter_lawful f) hg hr
  obtain ⟨h1, h2, h3, h4⟩ := splits_spec h c1
  have hS : ∀ s ∈ S, IsConvexPolygon s.poly ∧ dotQ s.poly.plane.n.q u ≠ 0 := fun s hs => ⟨h.leaf_pwn.1 s hs, hG.crossFacet s hs⟩
  have hstack := c3 _ (ray_clear h1 h3 hG hr0)
  have hfacet : ∀ f ∈ stackAt (q + r • u) (accepted tr), dotQ f.2.n.q u ≠ 0 ∧ r = root q u f.2 := by
    intro f hf
    rw [hstack] at hf
    obtain ⟨e0, s, hs, e⟩ := ray_facet h1 h3 hg hf
    have hne : dotQ f.2.n.q u ≠ 0 := by rw [← e]; exact (hS s hs).2
    exact ⟨hne, (root_iff hne r).1 e0⟩
  obtain ⟨ε, ε0, ε1, ε2⟩ := exists_gap (stops t' S q u) hr0
  refine ⟨ε, ε0, fun a b ha1 ha2 hb1 hb2 => ?_⟩
  have ha0 : 0 ≤ a := by linarith
  have half : ∀ z : ℚ, r - ε < z → z < r + ε → z ≠ r → 0 ≤ z →
      (((stackAt (q + r • u) (accepted tr)).countP (fun f => decide (f.2.side (q + z • u) < 0)) : ℕ) : ℤ) = one (InSolid f S u (q + z • u)) -
        bit ℤ (valueAt f.eval d.info.length fun id => windingNumber (meshOf S id) (q + z • u) u - facing S (q + r • u) (q + z • u) id) := by
    intro z hz1 hz2 hz hz0
    have near := near_ray hG hz0 hr0 hz fun s hs hsr => by
      rcases hsr with hsr | hsr
      · exact ε2 s hs (by linarith) (by linarith)
      · exact ε2 s hs (by linarith) (by linarith)
    have tv : ∀ id, Transversal (meshOf S id) (q + z • u) u := fun id => transversal_move (hG.transversal id) hz0
    have := point_output (R := ℤ) h c1 h1 h3 h2 (filter_lawful f) (filter_monotone hf).exact hg c2 near hc tv
    rw [h4] at this
    rw [hstack]
    rw [valueAt_inside hk fun id hid => unknown_winding h c1 hc near.off tv hid] at this
    exact_mod_cast this
  have e : (fun id => windingNumber (meshOf S id) (q + a • u) u - facing S (q + r • u) (q + a • u) id) =
      fun id => windingNumber (meshOf S id) (q + b • u) u - facing S (q + r • u) (q + b • u) id :=
    funext fun id => winding_jump hS ha0 ha2 hb1 (fun s hs l1 l2 => ε2 _ (stops_facet hs (by linarith)) (by linarith) (by linarith)) id
  have k1 := half a ha1 (by linarith) ha2.ne ha0
  have k2 := half b (by linarith) hb2 hb1.ne' (by linarith)
  rw [e] at k1
  refine ⟨_, bit_cases (valueAt f.eval d.info.length fun id => windingNumber (meshOf S id) (q + b • u) u - facing S (q + r • u) (q + b • u) id), ?_, ?_⟩
  · rw [← k1, Nat.cast_inj]
    unfold leaving output
    rw [← stack_count (p := fun g => 0 < dotQ g.n.q u)]
    refine List.countP_congr fun f hf => ?_
    obtain ⟨a1, a2⟩ := hfacet f hf
    rw [decide_eq_true_iff, decide_eq_true_iff, side_root a1, ← a2]
    constructor
    · intro h; exact mul_neg_of_neg_of_pos (by linarith) h
    · intro h; by_contra hc; nlinarith
  · rw [← k2, Nat.cast_inj]
    unfold entering output
    rw [← stack_count (p := fun g => dotQ g.n.q u < 0)]
    refine List.countP_congr fun f hf => ?_
    obtain ⟨a1, a2⟩ := hfacet f hf
    rw [decide_eq_true_iff, decide_eq_true_iff, side_root a1, ← a2]
    constructor
    · intro h; exact mul_neg_of_pos_of_neg (by linarith) h
    · intro h; by_contra hc; nlinarith

theorem one_cases (p : Prop) : (p ∧ one p = 1) ∨ (¬ p ∧ one p = 0) := by
  unfold one
  by_cases h : p
  · left; exact ⟨h, by rw [if_pos h]⟩
  · right; exact ⟨h, by rw [if_neg h]⟩

/-! ### C75 -/

section
variable {aabb : Bool} {d : NodeData} {S : List Source} (h : Reach aabb (.leaf d) S) {t : Node} (ht : Splits d t) {f : Filter} (hf : NoParity f)
  (hk : ∀ id ∈ invertedIds f, id < d.info.length) {choose : Choose} {group : Group} (hg : Grouping group) {pfuel fuel : Nat} {t' : Node} {tr : List Visit}
  (hr : traverse f.eval choose group pfuel fuel t = some (t', tr)) (hc : ∀ id, Closed (meshOf S id)) {q u : Q3} (hG : GenericRay t' tr S q u) {r : ℚ} (hr0 : 0 < r)
include h ht hf hk hg hr hc hG hr0

/-- C75: emitted polygons with the same orientation do not overlap.  At every point of a ray
in general position, at most one emitted polygon is left through and at most one is entered
through. -/
theorem C75_once : (leaving tr u (q + r • u)).length ≤ 1 ∧ (entering tr u (q + r • u)).length ≤ 1 := by
  obtain ⟨ε, ε0, H⟩ := facet_counts h ht hf hk hg hr hc hG hr0
  obtain ⟨m, hm, e1, e2⟩ := H (r - ε / 2) (r + ε / 2) (by linarith) (by linarith) (by linarith) (by linarith)
  rcases one_cases (InSolid f S u (q + (r - ε / 2) • u)) with ⟨_, o1⟩ | ⟨_, o1⟩ <;>
    rcases one_cases (InSolid f S u (q + (r + ε / 2) • u)) with ⟨_, o2⟩ | ⟨_, o2⟩ <;> omega

/-- C75: no polygon is emitted away from the boundary: right behind every emitted polygon is
the set that the filter describes. -/
theorem C75_behind : (leaving tr u (q + r • u) ≠ [] → Before q u r (InSolid f S u)) ∧ (entering tr u (q + r • u) ≠ [] → After q u r (InSolid f S u)) := by
  obtain ⟨ε, ε0, H⟩ := facet_counts h ht hf hk hg hr hc hG hr0
  refine ⟨fun hne => ⟨ε, ε0, fun s s1 s2 => ?_⟩, fun hne => ⟨ε, ε0, fun s s1 s2 => ?_⟩⟩
  · obtain ⟨m, hm, e1, e2⟩ := H s (r + ε / 2) s1 s2 (by linarith) (by linarith)
    have := List.length_pos_iff.2 hne
    rcases one_cases (InSolid f S u (q + s • u)) with ⟨i, _⟩ | ⟨_, o⟩
    · exact i
    · omega
  · obtain ⟨m, hm, e1, e2⟩ := H (r - ε / 2) s (by linarith) (by linarith) s1 s2
    have := List.length_pos_iff.2 hne
    rcases one_cases (InSolid f S u (q + s • u)) with ⟨i, _⟩ | ⟨_, o⟩
    · exact i
    · omega

/-- C75: the boundary is covered exactly once.  Where the ray leaves the set that the filter
describes, one polygon is emitted that is left through and none that is entered through;
where the ray enters the set it is the other way around. -/
theorem C75_boundary : (Before q u r (InSolid f S u) → After q u r (fun z => ¬ InSolid f S u z) →
      (leaving tr u (q + r • u)).length = 1 ∧ entering tr u (q + r • u) = []) ∧
    (Before q u r (fun z => ¬ InSolid f S u z) → After q u r (InSolid f S u) →
      leaving tr u (q + r • u) = [] ∧ (entering tr u (q + r • u)).length = 1) := by
  obtain ⟨ε, ε0, H⟩ := facet_counts h ht hf hk hg hr hc hG hr0
  constructor
  all_goals
    rintro ⟨δ, δ0, h1⟩ ⟨γ, γ0, h2⟩
    have m1 := min_le_left ε (min δ γ)
    have m2 := (min_le_right ε (min δ γ)).trans (min_le_left δ γ)
    have m3 := (min_le_right ε (min δ γ)).trans (min_le_right δ γ)
    have m0 : 0 < min ε (min δ γ) := lt_min ε0 (lt_min δ0 γ0)
    set z := min ε (min δ γ)
    obtain ⟨m, hm, e1, e2⟩ := H (r - z / 2) (r + z / 2) (by linarith) (by linarith) (by linarith) (by linarith)
    have i1 := h1 (r - z / 2) (by linarith) (by linarith)
    have i2 := h2 (r + z / 2) (by linarith) (by linarith)
    rw [← List.length_eq_zero_iff]
    rcases one_cases (InSolid f S u (q + (r - z / 2) • u)) with ⟨j1, o1⟩ | ⟨j1, o1⟩ <;>
      rcases one_cases (InSolid f S u (q + (r + z / 2) • u)) with ⟨j2, o2⟩ | ⟨j2, o2⟩ <;>
      first | exact absurd i1 j1 | exact absurd i2 j2 | exact absurd j1 i1 | exact absurd j2 i2 | omega

/-- C75, the part of "in front of every emitted polygon is no point of the set" that holds:
in front of an emitted polygon that no polygon of the opposite orientation covers is no point
of the set.  The full statement is false (`C75_wall_false`): where solids touch, both walls
are emitted. -/
theorem C75_front_partial : (leaving tr u (q + r • u) ≠ [] → entering tr u (q + r • u) = [] → After q u r fun z => ¬ InSolid f S u z) ∧
    (entering tr u (q + r • u) ≠ [] → leaving tr u (q + r • u) = [] → Before q u r fun z => ¬ InSolid f S u z) := by
  obtain ⟨ε, ε0, H⟩ := facet_counts h ht hf hk hg hr hc hG hr0
  refine ⟨fun hne h0 => ⟨ε, ε0, fun s s1 s2 hi => ?_⟩, fun hne h0 => ⟨ε, ε0, fun s s1 s2 hi => ?_⟩⟩
  · obtain ⟨m, hm, e1, e2⟩ := H (r - ε / 2) s (by linarith) (by linarith) s1 s2
    have := List.length_pos_iff.2 hne
    rw [h0] at e2
    simp only [List.length_nil, Nat.cast_zero] at e2
    rcases one_cases (InSolid f S u (q + (r - ε / 2) • u)) with ⟨_, o1⟩ | ⟨_, o1⟩ <;>
      rcases one_cases (InSolid f S u (q + s • u)) with ⟨_, o2⟩ | ⟨n, _⟩ <;> first | exact n hi | omega
  · obtain ⟨m, hm, e1, e2⟩ := H s (r + ε / 2) s1 s2 (by linarith) (by linarith)
    have := List.length_pos_iff.2 hne
    rw [h0] at e1
    simp only [List.length_nil, Nat.cast_zero] at e1
    rcases one_cases (InSolid f S u (q + (r + ε / 2) • u)) with ⟨_, o1⟩ | ⟨_, o1⟩ <;>
      rcases one_cases (InSolid f S u (q + s • u)) with ⟨_, o2⟩ | ⟨n, _⟩ <;> first | exact n hi | omega

end

/-! ### Solids that touch -/

/-- The mirror image of the tetrahedron, below it. -/
def lowerTetra : List (Polygon Unit) :=
  [triangle 2 ⟨0, 0, 0⟩ ⟨4, 0, 0⟩ ⟨0, 4, 0⟩, triangle 1 ⟨0, 0, 0⟩ ⟨0, 0, -4⟩ ⟨4, 0, 0⟩, triangle 0 ⟨0, 0, 0⟩ ⟨0, 4, 0⟩ ⟨0, 0, -4⟩,
    triangle 0 ⟨4, 0, 0⟩ ⟨0, 0, -4⟩ ⟨0, 4, 0⟩]

theorem lowerTetra_convex : ∀ P ∈ lowerTetra, IsConvexPolygon P := by
  simp only [lowerTetra, List.mem_cons, List.not_mem_nil, or_false, forall_eq_or_imp, forall_eq]
  exact ⟨triangle_convex _ _ _ _ (by decide), triangle_convex _ _ _ _ (by decide), triangle_convex _ _ _ _ (by decide),
    triangle_convex _ _ _ _ (by decide)⟩

/-- Points of the common facet of the tetrahedra. -/
theorem wall_region {D : Type} {P : Polygon D} (hv : ∀ v ∈ ([![0, 0, 0], ![4, 0, 0], ![0, 4, 0]] : List Q3), v ∈ (List.range P.count).map P.pt) {x y : ℚ} (hx : 0 < x) (hy : 0 < y)
    (hxy : x + y < 4) : ![x, y, 0] ∈ P.region := by
  have key : ∀ v ∈ ([![0, 0, 0], ![4, 0, 0], ![0, 4, 0]] : List Q3), v ∈ P.region := by
    intro v hv'
    obtain ⟨i, hi, e⟩ := List.mem_map.1 (hv v hv')
    rw [← e]
    exact pt_mem (List.mem_range.1 hi)
  have conv : Convex ℚ P.region := convex_convexHull _ _
  have k1 := key ![0, 0, 0] (by simp)
  have k2 := key ![4, 0, 0] (by simp)
  have k3 := key ![0, 4, 0] (by simp)
  have s0 : 0 < x + y := by linarith
  have m := conv k2 k3 (div_nonneg hx.le s0.le) (div_nonneg hy.le s0.le) (by field_simp)
  have m' := conv k1 m (a := 1 - (x + y) / 4) (b := (x + y) / 4) (by linarith) (by linarith) (by ring)
  convert m' using 1
  funext j
  fin_cases j <;> simp <;> field_simp

/-- C75 is false for the front of emitted polygons: the union of two solids that touch in a
facet still contains this facet, once for each of the solids, although the union is on both of
its sides.  The two polygons are neither removed nor merged. -/
theorem C75_wall_false : ∃ d S t' tr q u r, ∃ f : Filter, Api false (.leaf d) S ∧ (∀ id, Closed (meshOf S id)) ∧ NoParity f ∧ invertedIds f = [] ∧ Grouping groupByKey ∧
    traverse f.eval chooseFirst groupByKey 30 30 (.leaf d) = some (t', tr) ∧ GenericRay t' tr S q u ∧ 0 < r ∧
    (leaving tr u (q + r • u)).length = 1 ∧ (entering tr u (q + r • u)).length = 1 ∧ Before q u r (InSolid f S u) ∧ After q u r (InSolid f S u) := by
  have h : ((twice tetra lowerTetra).bind fun t => (traverse unionFilter chooseFirst groupByKey 30 30 t).map fun r =>
      ((match t with | .leaf _ => true | .inner .. => false), r.1.planes.all (fun g => g.side ![1, 1, -1] ≠ 0),
        (output r.2).any (fun P => P.plane.n = ⟨0, 0, 16⟩ && ([![0, 0, 0], ![4, 0, 0], ![0, 4, 0]] : List Q3).all fun v => decide (v ∈ (List.range P.count).map P.pt)),
        (output r.2).any (fun P => P.plane.n = ⟨0, 0, -16⟩ && ([![0, 0, 0], ![4, 0, 0], ![0, 4, 0]] : List Q3).all fun v => decide (v ∈ (List.range P.count).map P.pt)))) =
      some (true, true, true, true) := by decide +kernel
  obtain ⟨t, ht, h⟩ := Option.bind_eq_some_iff.1 h
  obtain ⟨⟨t', tr⟩, hr, e⟩ := Option.map_eq_some_iff.1 h
  simp only [Prod.mk.injEq] at e
  cases t with
  | inner => exact absurd e.1 (by simp)
  | leaf d =>
    obtain ⟨-, e1, e2, e3⟩ := e
    obtain ⟨P, hP, eP⟩ := List.any_eq_true.1 e2
    obtain ⟨Q, hQ, eQ⟩ := List.any_eq_true.1 e3
    rw [Bool.and_eq_true, List.all_eq_true] at eP eQ
    have ha := twice_api tetra_convex lowerTetra_convex ht
    have hcl := meshOf_two tetra_closed (closed_of_perm (M := lowerTetra) (by decide +kernel))
    have c := traverse_context ha.spec.1 .leaf (filter_lawful _) groupByKey_ok hr
    obtain ⟨η, η0, hG, hη⟩ := ev_exists ((ev_genericRay (splits_spec ha.spec.1 c.1).1 ha.spec.1.leaf_pwn.1 tr (q := ![1, 1, -1])
      fun g hg => of_decide_eq_true (List.all_eq_true.1 e1 g hg)).and (ev_cont (f := fun η => 2 - η ^ 2 - η) (by fun_prop) (by norm_num)))
    have x : (![1, 1, -1] : Q3) + (1 : ℚ) • dirZ η = ![1 + η ^ 2, 1 + η, 0] := by
      funext j; fin_cases j <;> simp [dirZ]
    have mem : ∀ R : Polygon EdgeInfo, (∀ v ∈ ([![0, 0, 0], ![4, 0, 0], ![0, 4, 0]] : List Q3), decide (v ∈ (List.range R.count).map R.pt) = true) →
        (![1, 1, -1] : Q3) + (1 : ℚ) • dirZ η ∈ R.region := by
      intro R hR
      rw [x]
      exact wall_region (fun v hv => of_decide_eq_true (hR v hv)) (by positivity) (by linarith) (by linarith)
    have nP : P.plane.n = ⟨0, 0, 16⟩ := of_decide_eq_true eP.1
    have nQ : Q.plane.n = ⟨0, 0, -16⟩ := of_decide_eq_true eQ.1
    have l1 : P ∈ leaving tr (dirZ η) (![1, 1, -1] + (1 : ℚ) • dirZ η) := by
      unfold leaving
      refine List.mem_filter.2 ⟨hP, ?_⟩
      simp only [decide_eq_true_eq]
      refine ⟨mem P eP.2, ?_⟩
      rw [nP]
      simp [dotQ, V3.q, V3.comp, dirZ]
    have l2 : Q ∈ entering tr (dirZ η) (![1, 1, -1] + (1 : ℚ) • dirZ η) := by
      unfold entering
      refine List.mem_filter.2 ⟨hQ, ?_⟩
      simp only [decide_eq_true_eq]
      refine ⟨mem Q eQ.2, ?_⟩
      rw [nQ]
      simp [dotQ, V3.q, V3.comp, dirZ]
    have np : NoParity (.union (.polygon 0) (.polygon 1)) := ⟨trivial, trivial⟩
    have o := C75_once (f := .union (.polygon 0) (.polygon 1)) ha.spec.1 .leaf np (by simp [invertedIds]) groupByKey_ok hr hcl hG one_pos
    have b := C75_behind (f := .union (.polygon 0) (.polygon 1)) ha.spec.1 .leaf np (by simp [invertedIds]) groupByKey_ok hr hcl hG one_pos
    exact ⟨d, _, t', tr, ![1, 1, -1], dirZ η, 1, .union (.polygon 0) (.polygon 1), ha, hcl, np, rfl, groupByKey_ok, hr, hG, one_pos,
      le_antisymm o.1 (List.length_pos_of_mem l1), le_antisymm o.2 (List.length_pos_of_mem l2), b.1 (List.ne_nil_of_mem l1), b.2 (List.ne_nil_of_mem l2)⟩

end Walnut.Props
