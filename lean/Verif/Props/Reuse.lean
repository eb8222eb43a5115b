/-
C80: the facets that a boolean operation returns are a closed mesh that bounds the described
solid, so that they can be used as an operand of another boolean operation.

The statements use the specification of winding numbers in Props/Winding (`meshOf`, `Closed`,
`Transversal`, `windingNumber`) and the sets that filters describe (`Inside`, Props/Filters).
-/
import Verif.Props.MergedOutput
import Verif.Props.AnyRay
import Verif.Props.SolidBoundary
import Verif.Bsp.Alternate

namespace Walnut.Props
open Walnut.Geom Walnut.Poly Walnut.Bsp
open Walnut.Conn (Net SortOk HeapOk SortFn HeapFns EntrySort EntrySortOk visitCalls facets edgeNum Mesh insertionSort sortHeap entrySort insertionSort_ok sortHeap_ok entrySort_ok)

/-! ### Specification -/

/-- The facet without the data of its edges, as `AddRootContent` uses it (bsp_node.h 178-193). -/
def plain {D : Type} (P : Polygon D) : Polygon Unit := ⟨P.plane, P.drop, P.edges.map fun e => ⟨e.vertex, e.line, ()⟩⟩

/-! ### Facets without data -/

section
variable {D : Type} (P : Polygon D)

theorem plain_count : (plain P).count = P.count := by simp [plain, Polygon.count]

theorem plain_vertexD (i : Nat) : (plain P).vertexD i = P.vertexD i := by
  unfold Polygon.vertexD plain
  rw [List.getElem?_map]
  cases P.edges[i]? <;> rfl

theorem plain_lineD (i : Nat) : (plain P).lineD i = P.lineD i := by
  unfold Polygon.lineD plain
  rw [List.getElem?_map]
  cases P.edges[i]? <;> rfl

theorem plain_pt (i : Nat) : (plain P).pt i = P.pt i := by unfold Polygon.pt; rw [plain_vertexD]

theorem plain_region : (plain P).region = P.region := by
  unfold Polygon.region
  rw [plain_count]
  simp only [plain_pt]

variable {P}

theorem plain_convex (h : IsConvexPolygon P) : IsConvexPolygon (plain P) where
  drop := h.drop
  finite i hi := by rw [plain_vertexD]; exact h.finite i (by rwa [plain_count] at hi)
  onPlane i hi := by rw [plain_pt]; exact h.onPlane i (by rwa [plain_count] at hi)
  line i hi := by
    rw [plain_count] at hi ⊢
    rw [plain_lineD, plain_pt, plain_pt]
    exact h.line i hi
  ccw i j k h1 h2 h3 := by
    rw [plain_pt, plain_pt, plain_pt]
    exact h.ccw i j k h1 h2 (by rwa [plain_count] at h3)
  distinct i j h1 h2 := by
    rw [plain_pt, plain_pt]
    exact h.distinct i j h1 (by rwa [plain_count] at h2)
  proper := by
    obtain ⟨i, j, k, h1, h2, h3, h4⟩ := h.proper
    exact ⟨i, j, k, h1, h2, by rwa [plain_count], by rw [plain_pt, plain_pt, plain_pt]; exact h4⟩

theorem plain_hits (q u : Q3) (P : Polygon D) : hits q u (plain P) = hits q u P := by
  unfold hits
  rw [plain_region]
  rfl
end

/-! ### Closed -/

theorem plain_sides (P : Polygon Nat) :
    (List.range (plain P).count).map (fun i => ((plain P).pt i, (plain P).pt ((i + 1) % (plain P).count))) = (halfEdges P.edges).map Prod.snd := by
  apply List.ext_getElem
  · simp [plain, halfEdges, Polygon.count]
  · intro i h1 h2
    have hi : i < P.edges.length := by simpa [plain, Polygon.count] using h1
    have hm : (i + 1) % P.edges.length < P.edges.length := Nat.mod_lt _ (by omega)
    simp only [List.getElem_map, List.getElem_range, plain_pt, plain_count, halfEdges, List.getElem_zip, List.getElem_rotate]
    unfold Polygon.pt Polygon.vertexD Polygon.count
    rw [List.getElem?_eq_getElem hi, List.getElem?_eq_getElem hm]

theorem halfEdges_nil : halfEdges [] = [] := rfl

/-- A mesh of linked facets without open edges is closed. -/
theorem remaining_closed {M : Mesh} (hL : Linked M.world) (hO : NoOpenEdge M.world) (he : ∀ p, M.size ≤ p → (M.world.polys p).edges = []) :
    Closed (M.remaining.map plain) := by
  let L := (List.range M.size).flatMap fun p => halfEdges (M.world.polys p).edges
  have hs : meshSides (M.remaining.map plain) = L.map Prod.snd := by
    unfold meshSides Mesh.remaining
    rw [List.flatMap_map]
    simp only [plain_sides]
    show _ = ((List.range M.size).flatMap fun p => halfEdges (M.world.polys p).edges).map Prod.snd
    generalize List.range M.size = l
    induction l with
    | nil => rfl
    | cons p l ih =>
      rw [List.map_cons, List.filter_cons, List.flatMap_cons, List.map_append]
      by_cases h0 : (M.world.polys p).edges = []
      · rw [h0, halfEdges_nil, List.map_nil, List.nil_append]
        rw [if_neg (by simp [Polygon.count, h0])]
        exact ih
      · rw [if_pos (by simp [Polygon.count, h0]), List.flatMap_cons, ih]
  have hmem : ∀ x A B, (x, A, B) ∈ L ↔ ∃ p, (x, A, B) ∈ halfEdges (M.world.polys p).edges := by
    intro x A B
    simp only [L, List.mem_flatMap, List.mem_range]
    constructor
    · rintro ⟨p, _, h⟩; exact ⟨p, h⟩
    · rintro ⟨p, h⟩
      refine ⟨p, ?_, h⟩
      by_contra hc
      rw [he p (not_lt.1 hc)] at h
      cases h
  have hnd : L.Nodup := by
    rw [List.nodup_flatMap]
    refine ⟨fun p _ => (hL.once p).of_map, ?_⟩
    refine (List.nodup_range (n := M.size)).imp ?_
    rintro p q hpq ⟨x, A, B⟩ h1 h2
    exact hpq ((hL.own p x A B h1).symm.trans (hL.own q x A B h2))
  let φ : Nat × Q3 × Q3 → Nat × Q3 × Q3 := fun h => ((M.world.partner h.1).getD 0, h.2.2, h.2.1)
  have hφ : ∀ h ∈ L, φ h ∈ L ∧ φ (φ h) = h := by
    rintro ⟨x, A, B⟩ h
    obtain ⟨p, hp⟩ := (hmem x A B).1 h
    obtain ⟨y, hy⟩ := Option.ne_none_iff_exists'.1 (hO p x A B hp)
    obtain ⟨t1, t2⟩ := hL.twin p x A B y hp hy
    have e : φ (x, A, B) = (y, B, A) := by simp [φ, hy]
    rw [e]
    refine ⟨(hmem _ _ _).2 ⟨_, t1⟩, ?_⟩
    simp [φ, t2]
  have hperm : (L.map φ).Perm L := by
    refine List.Subperm.perm_of_length_le (List.Nodup.subperm ?_ ?_) (by simp)
    · refine List.Nodup.map_on ?_ hnd
      intro a ha b hb e
      rw [← (hφ a ha).2, ← (hφ b hb).2, e]
    · intro z hz
      obtain ⟨a, ha, rfl⟩ := List.mem_map.1 hz
      exact (hφ a ha).1
  refine closed_of_perm ?_
  rw [hs]
  have := (hperm.map Prod.snd).symm
  rw [List.map_map] at this ⊢
  exact this

/-! ### Winding numbers of merged facets -/

theorem sameDir_sign {a b : V3} (h : SameDir3 a b) (u : Q3) : (0 < dotQ a.q u ↔ 0 < dotQ b.q u) ∧ (dotQ a.q u < 0 ↔ dotQ b.q u < 0) := by
  obtain ⟨k, l, k0, l0, e⟩ := h
  have k0' : (0 : ℚ) < k := by exact_mod_cast k0
  have l0' : (0 : ℚ) < l := by exact_mod_cast l0
  have key : (k : ℚ) * dotQ a.q u = l * dotQ b.q u := by
    unfold V3.scale at e
    injection e with e0 e1 e2
    have e0' : (a.x : ℚ) * k = b.x * l := by exact_mod_cast e0
    have e1' : (a.y : ℚ) * k = b.y * l := by exact_mod_cast e1
    have e2' : (a.z : ℚ) * k = b.z * l := by exact_mod_cast e2
    simp only [dotQ, V3.q, V3.comp]
    linear_combination u 0 * e0' + u 1 * e1' + u 2 * e2'
  constructor
  · constructor <;> intro h <;> by_contra hc <;> nlinarith
  · constructor <;> intro h <;> by_contra hc <;> nlinarith

theorem sum_filter_le_one {n : ℕ} (p : ℕ → Prop) [DecidablePred p] {j : ℕ} (hj : j < n) (hp : p j) (h : ∀ i < n, p i → i = j) (c : ℤ) :
    (∑ i ∈ Finset.range n, if p i then c else 0) = c := by
  rw [Finset.sum_eq_single j]
  · rw [if_pos hp]
  · intro i hi hne
    rw [if_neg fun hc => hne (h i (Finset.mem_range.1 hi) hc)]
  · intro hc
    exact absurd (Finset.mem_range.2 hj) hc

/-- How a ray hits a facet that is made of other facets, of which it hits at most one. -/
theorem hits_union {P : Polygon Nat} (hP : P.edges = [] ∨ IsConvexPolygon P) {l : List (Polygon EdgeInfo)} {g : Nat → Nat} {p : Nat} {q u : Q3}
    (hreg : P.region = ⋃ j : Nat, ⋃ Q ∈ {Q : Polygon EdgeInfo | l[j]? = some Q ∧ g j = p}, Q.region)
    (hdir : ∀ (j : Nat) Q, l[j]? = some Q → g j = p → SameDir3 P.plane.n Q.plane.n)
    (honce : ∀ r : ℚ, 0 < r → ∀ i j Q R, l[i]? = some Q → l[j]? = some R → g i = p → g j = p → q + r • u ∈ Q.region → q + r • u ∈ R.region →
      dotQ P.plane.n.q u ≠ 0 → i = j) :
    hits q u P = ∑ j ∈ Finset.range l.length, if g j = p then (l[j]?.map (hits q u)).getD 0 else 0 := by
  classical
  have hmem : ∀ z, z ∈ P.region ↔ ∃ j Q, l[j]? = some Q ∧ g j = p ∧ z ∈ Q.region := by
    intro z
    rw [hreg]
    simp only [Set.mem_iUnion, Set.mem_setOf_eq, exists_prop, and_assoc]
  set c : ℤ := if 0 < dotQ P.plane.n.q u then 1 else if dotQ P.plane.n.q u < 0 then -1 else 0 with hc
  have hj : ∀ j, (if g j = p then (l[j]?.map (hits q u)).getD 0 else 0) = if (g j = p ∧ ∃ Q, l[j]? = some Q ∧ ∃ r : ℚ, 0 < r ∧ q + r • u ∈ Q.region) then c else 0 := by
    intro j
    by_cases h1 : g j = p
    · rw [if_pos h1]
      cases h2 : l[j]? with
      | none => rw [if_neg (by simp)]; rfl
      | some Q =>
        obtain ⟨s1, s2⟩ := sameDir_sign (hdir j Q h2 h1) u
        have : c = if 0 < dotQ Q.plane.n.q u then 1 else if dotQ Q.plane.n.q u < 0 then -1 else 0 := by
          rw [hc]
          simp only [s1, s2]
        rw [this, Option.map_some, Option.getD_some]
        unfold hits
        by_cases h3 : ∃ r : ℚ, 0 < r ∧ q + r • u ∈ Q.region
        · rw [if_pos h3]; exact (if_pos ⟨h1, Q, rfl, h3⟩).symm
        · rw [if_neg h3]
          refine (if_neg ?_).symm
          rintro ⟨_, Q', e, h⟩
          obtain rfl := Option.some.inj e
          exact h3 h
    · rw [if_neg h1, if_neg fun h => h1 h.1]
  simp only [hj]
  unfold hits
  rw [← hc]
  by_cases h0 : dotQ P.plane.n.q u = 0
  · have : c = 0 := by rw [hc]; simp [h0]
    rw [this]
    simp
  by_cases h3 : ∃ r : ℚ, 0 < r ∧ q + r • u ∈ P.region
  · rw [if_pos h3]
    obtain ⟨r, r0, hr⟩ := h3
    have hcv : IsConvexPolygon P := by
      refine hP.resolve_left fun e => ?_
      rw [region_empty e] at hr
      cases hr
    obtain ⟨j, Q, j1, j2, j3⟩ := (hmem _).1 hr
    refine (sum_filter_le_one _ (List.getElem?_eq_some_iff.1 j1).1 ⟨j2, Q, j1, r, r0, j3⟩ ?_ c).symm
    rintro i _ ⟨i2, R, i1, s, s0, i3⟩
    have e1 := side_region hcv hr
    have e2 := side_region hcv ((hmem _).2 ⟨i, R, i1, i2, i3⟩)
    have : s = r := by
      have e : (s - r) * dotQ P.plane.n.q u = 0 := by
        unfold HS3.side dotQ at e1 e2
        simp only [Pi.add_apply, Pi.smul_apply, smul_eq_mul] at e1 e2
        unfold dotQ
        linear_combination e2 - e1
      rcases mul_eq_zero.1 e with e | e
      · linarith
      · exact absurd e h0
    subst this
    exact honce s s0 i j R Q i1 j1 i2 j2 i3 j3 h0
  · rw [if_neg h3]
    symm
    refine Finset.sum_eq_zero fun i _ => ?_
    rw [if_neg]
    rintro ⟨i2, R, i1, s, s0, i3⟩
    exact h3 ⟨s, s0, (hmem _).2 ⟨i, R, i1, i2, i3⟩⟩

theorem list_sum_range {α : Type} (l : List α) (f : α → ℤ) : (l.map f).sum = ∑ j ∈ Finset.range l.length, (l[j]?.map f).getD 0 := by
  induction l with
  | nil => simp
  | cons a l ih =>
    rw [List.map_cons, List.sum_cons, ih, List.length_cons, Finset.sum_range_succ']
    simp [add_comm]

section
variable {aabb : Bool} {d : NodeData} {S : List Source} (h : Reach aabb (.leaf d) S) {t : Node} (ht : Splits d t) {f : Filter} (hf : NoParity f)
  (hk : ∀ id ∈ invertedIds f, id < d.info.length) {choose : Choose} {group : Group} (hg : Grouping group) {pfuel fuel : Nat} {t' : Node} {tr : List Visit}
  (hr : traverse f.eval choose group pfuel fuel t = some (t', tr)) (hc : ∀ id, Closed (meshOf S id))
include h ht hf hk hg hr hc

/-- Merging facets does not change winding numbers, on rays in general position. -/
theorem merged_winding {M : Mesh} {g : Nat → Nat} (hcv : ∀ p, (M.world.polys p).edges = [] ∨ IsConvexPolygon (M.world.polys p))
    (he : ∀ p, M.size ≤ p → (M.world.polys p).edges = [])
    (hreg : ∀ p, (M.world.polys p).region = ⋃ j : Nat, ⋃ P ∈ {P : Polygon EdgeInfo | (output tr)[j]? = some P ∧ g j = p}, P.region)
    (hdir : ∀ (j : Nat) P, (output tr)[j]? = some P → SameDir3 (M.world.polys (g j)).plane.n P.plane.n)
    {q u : Q3} (hG : GenericRay t' tr S q u) : windingNumber (M.remaining.map plain) q u = windingNumber (output tr) q u := by
  classical
  have hout := output_convex h ht hg hr
  have hlt : ∀ j ∈ Finset.range (output tr).length, g j ∈ Finset.range M.size := by
    intro j hj
    have hj' := Finset.mem_range.1 hj
    rw [Finset.mem_range]
    by_contra hc
    have hcx := hout _ (List.getElem_mem hj')
    have h3 : 0 < ((output tr)[j]).count := by have := hcx.three; omega
    have : ((output tr)[j]).pt 0 ∈ (M.world.polys (g j)).region := by
      rw [hreg]
      simp only [Set.mem_iUnion, Set.mem_setOf_eq, exists_prop]
      exact ⟨j, _, ⟨List.getElem?_eq_getElem hj', rfl⟩, pt_mem h3⟩
    rw [region_empty (he _ (not_lt.1 hc))] at this
    cases this
  have hh : ∀ p, hits q u (M.world.polys p) = ∑ j ∈ Finset.range (output tr).length, if g j = p then ((output tr)[j]?.map (hits q u)).getD 0 else 0 := by
    intro p
    refine hits_union (hcv p) (hreg p) (fun j Q hQ e => e ▸ hdir j Q hQ) ?_
    intro r r0 i j Q R hi hj gi gj hQ hR h0
    by_contra hne
    obtain ⟨o1, o2⟩ := C75_once h ht hf hk hg hr hc hG r0
    obtain ⟨s1, s2⟩ := sameDir_sign (gi ▸ hdir i Q hi) u
    obtain ⟨z1, z2⟩ := sameDir_sign (gj ▸ hdir j R hj) u
    rcases lt_or_gt_of_ne h0 with h0 | h0
    · unfold entering at o2
      rw [← List.countP_eq_length_filter] at o2
      refine absurd (two_le_countP hne hi hj ?_ ?_) (not_le.2 (lt_of_le_of_lt o2 one_lt_two))
      · exact decide_eq_true ⟨hQ, s2.1 h0⟩
      · exact decide_eq_true ⟨hR, z2.1 h0⟩
    · unfold leaving at o1
      rw [← List.countP_eq_length_filter] at o1
      refine absurd (two_le_countP hne hi hj ?_ ?_) (not_le.2 (lt_of_le_of_lt o1 one_lt_two))
      · exact decide_eq_true ⟨hQ, s1.1 h0⟩
      · exact decide_eq_true ⟨hR, z1.1 h0⟩
  unfold windingNumber
  rw [list_sum_range (output tr), ← Finset.sum_fiberwise_of_maps_to hlt, List.map_map]
  have e1 : (M.remaining.map (hits q u ∘ plain)).sum = ((List.range M.size).map fun p => hits q u (M.world.polys p)).sum := by
    unfold Mesh.remaining
    generalize List.range M.size = l
    induction l with
    | nil => rfl
    | cons p l ih =>
      rw [List.map_cons, List.filter_cons, List.map_cons, List.sum_cons, ← ih]
      by_cases h0 : (M.world.polys p).edges = []
      · rw [if_neg (by simp [Polygon.count, h0])]
        have : hits q u (M.world.polys p) = 0 := by
          unfold hits
          rw [if_neg]
          rintro ⟨r, _, hr⟩
          rw [region_empty h0] at hr
          cases hr
        rw [this, zero_add]
      · rw [if_pos (by simp [Polygon.count, h0]), List.map_cons, List.sum_cons, Function.comp, plain_hits]
  rw [e1]
  have e2 : ((List.range M.size).map fun p => hits q u (M.world.polys p)).sum = ∑ p ∈ Finset.range M.size, hits q u (M.world.polys p) := by
    rw [Finset.sum_range, ← List.sum_ofFn]
    congr 1
    apply List.ext_getElem <;> simp
  rw [e2]
  refine Finset.sum_congr rfl fun p _ => ?_
  rw [hh, Finset.sum_filter]
end

/-! ### Points near a point -/

theorem ev_small {x : ℚ} (hx : 0 < x) : Ev fun s => s < x := by
  filter_upwards [ev_cont (f := fun s => x - s) (by fun_prop) (by simpa using hx)] with s h
  linarith

/-- A short way along the ray, what it hits is still the same. -/
theorem ev_hits {D : Type} (P : Polygon D) (q u : Q3) : Ev fun s => hits (q + s • u) u P = hits q u P := by
  have e : ∀ s t : ℚ, q + s • u + t • u = q + (s + t) • u := fun s t => by rw [add_smul, add_assoc]
  by_cases h : ∃ t : ℚ, 0 < t ∧ q + t • u ∈ P.region
  · obtain ⟨t, t0, ht⟩ := h
    filter_upwards [ev_small t0] with s hs
    unfold hits
    have h1 : ∃ t : ℚ, 0 < t ∧ q + s • u + t • u ∈ P.region := ⟨t - s, by linarith, by rw [e, show s + (t - s) = t by ring]; exact ht⟩
    have h2 : ∃ t : ℚ, 0 < t ∧ q + t • u ∈ P.region := ⟨t, t0, ht⟩
    simp only [if_pos h1, if_pos h2]
  · filter_upwards [ev_pos] with s hs
    unfold hits
    rw [if_neg h, if_neg]
    rintro ⟨t, t0, ht⟩
    rw [e] at ht
    exact h ⟨s + t, by linarith, ht⟩

theorem ev_winding {D : Type} (M : List (Polygon D)) (q u : Q3) : Ev fun s => windingNumber M (q + s • u) u = windingNumber M q u := by
  filter_upwards [ev_list M fun P _ => ev_hits P q u] with s h
  unfold windingNumber
  rw [List.map_congr_left h]

theorem ev_outside {D : Type} {P : Polygon D} (h : IsConvexPolygon P) {q : Q3} (hq : q ∉ P.region) (u : Q3) : Ev fun s => q + s • u ∉ P.region := by
  obtain ⟨p, _, p2, p3⟩ := facet_apart h hq
  have : ∀ s : ℚ, p.val (q + s • u) = p.val q + s * dotQ p.n u := by
    intro s
    unfold Pl.val dotQ
    simp only [Pi.add_apply, Pi.smul_apply, smul_eq_mul]
    ring
  filter_upwards [ev_cont (f := fun s => -(p.val q + s * dotQ p.n u)) (by fun_prop) (by simpa using p2)] with s hs hr
  have := p3 _ hr
  linarith [this, ‹∀ s : ℚ, _› s]

theorem ev_off {g : HS3} {q u : Q3} (h : dotQ g.n.q u ≠ 0) : Ev fun s => g.side (q + s • u) ≠ 0 := by
  have e : ∀ s : ℚ, g.side (q + s • u) = g.side q + s * dotQ g.n.q u := by
    intro s
    unfold HS3.side dotQ
    simp only [Pi.add_apply, Pi.smul_apply, smul_eq_mul]
    ring
  by_cases h0 : g.side q = 0
  · filter_upwards [ev_pos] with s hs
    rw [e, h0, zero_add]
    exact mul_ne_zero hs.ne' h
  · have hp : 0 < g.side q * g.side q := mul_self_pos.2 h0
    filter_upwards [ev_cont (f := fun s => g.side q * (g.side q + s * dotQ g.n.q u)) (by fun_prop) (by simpa using hp)] with s hs hc
    rw [e] at hc
    rw [hc, mul_zero] at hs
    exact lt_irrefl _ hs

/-! ### C80 -/

theorem transversal_of_subset {M N : List (Polygon Unit)} {q u : Q3} (h : Transversal M q u) (hs : N ⊆ M) : Transversal N q u :=
  ⟨h.1, fun P hP => h.2 P (hs hP)⟩

/-- C80: the facets that a union, intersection or subtraction of closed meshes returns are again a
closed mesh of convex polygons, and bound the set that the filter describes.  Around every
point on no facet, the winding number of the result is 1 if the winding numbers of the operands
are in the set of the filter, and 0 otherwise; one less if the set contains the points far away.
The rays on which the winding numbers are counted can be any that avoid the edges.

Partial: no normal has a component `2^63` or `-2^63`, and the direction of no edge has a component `-2^63`. -/
theorem C80_result_partial {aabb : Bool} {d : NodeData} {S : List Source} (h : Reach aabb (.leaf d) S) {t : Node} (ht : Splits d t) {f : Filter} (hf : NoParity f)
    (hk : ∀ id ∈ invertedIds f, id < d.info.length) {choose : Choose} {group : Group} (hg : Grouping group) {pfuel fuel : Nat} {t' : Node} {tr : List Visit}
    (hr : traverse f.eval choose group pfuel fuel t = some (t', tr)) (hc : ∀ id, Closed (meshOf S id)) (hord : ∀ Q ∈ output tr, Ordinary Q.plane.n)
    (hmin : ∀ Q ∈ output tr, ∀ e ∈ Q.edges, NoMin3 e.line.d) {T : SortFn} {o : HeapFns} {D : EntrySort} (hT : SortOk T) (ho : HeapOk o) (hD : EntrySortOk D) :
    ∃ s M, connRun tr {} = some s ∧ visitCalls T o D (edgeNum (output tr)) s.calls (facets (output tr)) = some (M, 0) ∧
      (∀ P ∈ M.remaining.map plain, IsConvexPolygon P) ∧ Closed (M.remaining.map plain) ∧
      ∀ q : Q3, (∀ s ∈ S, q ∉ s.poly.region) → (∀ P ∈ M.remaining.map plain, q ∉ P.region) → ∀ u, Transversal (M.remaining.map plain) q u →
        ∀ u' : ℕ → Q3, (∀ id, Transversal (meshOf S id) q (u' id)) →
          windingNumber (M.remaining.map plain) q u = one (Inside f fun id => windingNumber (meshOf S id) q (u' id)) - one (Inside f fun _ => 0) := by
  obtain ⟨s, M, g, hs, hv, hL, hO, -, he, hreg, hdir, hcv, -⟩ := C79_merged_partial h ht hf hk hg hr hc hord hmin hT ho hD
  have hR : ∀ P ∈ M.remaining.map plain, IsConvexPolygon P := by
    intro P hP
    obtain ⟨Q, hQ, rfl⟩ := List.mem_map.1 hP
    exact plain_convex (hcv Q hQ)
  have hcl := remaining_closed hL hO he
  refine ⟨s, M, hs, hv, hR, hcl, ?_⟩
  intro q hqS hqR u hu u' hu'
  obtain ⟨c1, _, _⟩ := traverse_context h ht (filter_lawful f) hg hr
  have hreach := (splits_spec h c1).1
  have hSc := h.leaf_pwn.1
  have hSc' : ∀ P ∈ S.map Source.poly, IsConvexPolygon P := by
    intro P hP
    obtain ⟨s, hs, rfl⟩ := List.mem_map.1 hP
    exact hSc s hs
  have hsub : ∀ id, meshOf S id ⊆ S.map Source.poly := by
    intro id P hP
    obtain ⟨s, hs, rfl⟩ := List.mem_map.1 hP
    exact List.mem_map_of_mem (List.mem_of_mem_filter hs)
  -- a direction that is not parallel to a split plane
  obtain ⟨η, _, t1, t2, t3⟩ := ev_exists ((ev_transversal hR q).and ((ev_transversal hSc' q).and
    (ev_list t'.planes (p := fun g η => dotQ g.n.q (dirZ η) ≠ 0) fun g hg => ev_side (planes_normal hreach.spec.1 g hg))))
  -- a point near by
  obtain ⟨z, z0, z1, z2, z3, z4, z5⟩ := ev_exists ((ev_winding (M.remaining.map plain) q (dirZ η)).and
    ((ev_list (S.map Source.poly) fun P _ => ev_hits P q (dirZ η)).and ((ev_list _ fun P hP => ev_outside (hR P hP) (hqR P hP) (dirZ η)).and
      ((ev_list S fun s hs => ev_outside (hSc s hs) (hqS s hs) (dirZ η)).and (ev_list t'.planes fun g hg => ev_off (q := q) (t3 g hg))))))
  -- a ray in general position from there
  obtain ⟨η', _, r1, r2⟩ := ev_exists ((ev_genericRay hreach hSc tr z5).and (ev_transversal hR (q + z • dirZ η)))
  have key := C71_boolean h ht hf hk hg hr hc r1
  rw [← merged_winding h ht hf hk hg hr hc hL.convex he hreg hdir r1] at key
  have hop : (fun id => windingNumber (meshOf S id) (q + z • dirZ η) (dirZ η')) = fun id => windingNumber (meshOf S id) q (u' id) := by
    funext id
    have hm : ∀ P ∈ meshOf S id, IsConvexPolygon P := fun P hP => hSc' P (hsub id hP)
    have hq : ∀ P ∈ meshOf S id, q ∉ P.region := by
      intro P hP
      obtain ⟨s, hs, rfl⟩ := List.mem_map.1 hP
      exact hqS s (List.mem_of_mem_filter hs)
    have hq' : ∀ P ∈ meshOf S id, q + z • dirZ η ∉ P.region := by
      intro P hP
      obtain ⟨s, hs, rfl⟩ := List.mem_map.1 hP
      exact z4 s (List.mem_of_mem_filter hs)
    rw [C40_ray hm (hc id) hq' (r1.transversal id) (transversal_move (transversal_of_subset t2 (hsub id)) z0.le),
      C40_ray hm (hc id) hq (hu' id) (transversal_of_subset t2 (hsub id))]
    unfold windingNumber
    rw [List.map_congr_left fun P hP => z2 P (hsub id hP)]
  rw [hop] at key
  rw [← key, C40_ray hR hcl hqR hu t1, ← z1]
  exact C40_ray hR hcl z3 (transversal_move t1 z0.le) r2

/-- The hypotheses of `C80_result_partial` are met by a subtraction of touching solids, which returns
facets. -/
example : ∃ d S t' tr s M, Reach false (.leaf d) S ∧ traverse subFilter.eval chooseFirst groupByKey 20 20 (.leaf d) = some (t', tr) ∧
    connRun tr {} = some s ∧ visitCalls insertionSort sortHeap entrySort (edgeNum (output tr)) s.calls (facets (output tr)) = some (M, 0) ∧
    M.remaining.map plain ≠ [] ∧ Closed (M.remaining.map plain) := by
  obtain ⟨d, S, t', tr, h, ht, hf, hk, hg, hr, hc, hord, hmin, hT, ho, hD, hn⟩ := merged_example
  obtain ⟨s, M, g, hs, hv, hL, hO, -, he, -, -, -, hcov⟩ := C79_merged_partial h ht hf hk hg hr hc hord hmin hT ho hD
  refine ⟨d, S, t', tr, s, M, h, hr, hs, hv, ?_, remaining_closed hL hO he⟩
  intro h0
  rw [List.map_eq_nil_iff.1 h0] at hcov
  have hl : 0 < (output tr).length := by omega
  have hP := List.getElem_mem hl
  have hcx := output_convex h ht hg hr _ hP
  have : ((output tr)[0]).pt 0 ∈ ⋃ P ∈ output tr, P.region := by
    simp only [Set.mem_iUnion, exists_prop]
    exact ⟨_, hP, pt_mem (by have := hcx.three; omega)⟩
  rw [← hcov] at this
  simp at this

/-- C80: boolean operations can be chained.  If the facets that a first operation returns are added
to another tree as mesh `i`, then what a second operation emits is the boundary of the set that
both filters together describe: for mesh `i` the second filter gets 1 inside of the set of
the first filter and 0 outside, one less if the first set contains the points far away.

Partial: for the first operation, no normal has a component `2^63` or `-2^63`, and the direction of no edge
has a component `-2^63`. -/
theorem C80_chain_partial {aabb : Bool} {d : NodeData} {S : List Source} (h : Reach aabb (.leaf d) S) {t : Node} (ht : Splits d t) {f : Filter} (hf : NoParity f)
    (hk : ∀ id ∈ invertedIds f, id < d.info.length) {choose : Choose} {group : Group} (hg : Grouping group) {pfuel fuel : Nat} {t' : Node} {tr : List Visit}
    (hr : traverse f.eval choose group pfuel fuel t = some (t', tr)) (hc : ∀ id, Closed (meshOf S id)) (hord : ∀ Q ∈ output tr, Ordinary Q.plane.n)
    (hmin : ∀ Q ∈ output tr, ∀ e ∈ Q.edges, NoMin3 e.line.d) {T : SortFn} {o : HeapFns} {D : EntrySort} (hT : SortOk T) (ho : HeapOk o) (hD : EntrySortOk D)
    {s : ConnState} {M : Mesh} {n : Nat} (hs : connRun tr {} = some s) (hv : visitCalls T o D (edgeNum (output tr)) s.calls (facets (output tr)) = some (M, n))
    {aabb2 : Bool} {d2 : NodeData} {S2 : List Source} (h2 : Reach aabb2 (.leaf d2) S2) {t2 : Node} (ht2 : Splits d2 t2) {f2 : Filter} (hf2 : NoParity f2)
    (hk2 : ∀ id ∈ invertedIds f2, id < d2.info.length) {choose2 : Choose} {group2 : Group} (hg2 : Grouping group2) {pfuel2 fuel2 : Nat} {t2' : Node} {tr2 : List Visit}
    (hr2 : traverse f2.eval choose2 group2 pfuel2 fuel2 t2 = some (t2', tr2)) {i : Nat} (hi : meshOf S2 i = M.remaining.map plain)
    (hc2 : ∀ id, id ≠ i → Closed (meshOf S2 id)) {q u : Q3} (hG : GenericRay t2' tr2 S2 q u) (hq : ∀ s ∈ S, q ∉ s.poly.region) (hq2 : ∀ s ∈ S2, q ∉ s.poly.region)
    {w w2 : ℕ → Q3} (hw : ∀ id, Transversal (meshOf S id) q (w id)) (hw2 : ∀ id, Transversal (meshOf S2 id) q (w2 id)) :
    windingNumber (output tr2) q u =
      one (Inside f2 fun id => if id = i then one (Inside f fun id => windingNumber (meshOf S id) q (w id)) - one (Inside f fun _ => 0) else windingNumber (meshOf S2 id) q (w2 id)) -
        one (Inside f2 fun _ => 0) := by
  obtain ⟨s', M', hs', hv', hR, hcl, hwind⟩ := C80_result_partial h ht hf hk hg hr hc hord hmin hT ho hD
  obtain rfl := Option.some.inj (hs.symm.trans hs')
  obtain rfl := (Prod.mk.inj (Option.some.inj (hv.symm.trans hv'))).1
  have hcl2 : ∀ id, Closed (meshOf S2 id) := by
    intro id
    by_cases e : id = i
    · rw [e, hi]; exact hcl
    · exact hc2 id e
  rw [C71_point h2 ht2 hf2 hk2 hg2 hr2 hcl2 hG hq2 hw2]
  congr 3
  funext id
  by_cases e : id = i
  · rw [if_pos e, e, hi]
    refine hwind q hq ?_ (w2 i) (hi ▸ hw2 i) w hw
    intro P hP
    rw [← hi] at hP
    obtain ⟨z, hz, rfl⟩ := List.mem_map.1 hP
    exact hq2 z (List.mem_of_mem_filter hz)
  · rw [if_neg e]

theorem twice_defined (a b : List (Polygon Unit)) : ∃ d, twice a b = some (.leaf d) := by
  have push : ∀ d : NodeData, (Node.leaf d).pushToLeaves [] = some (.leaf d) := fun _ => rfl
  have add : ∀ (id : Nat) (l : List (Polygon Unit)) (d : NodeData), ∃ d', (Node.leaf d).addContents false id l = some (.leaf d') := by
    intro id l
    induction l with
    | nil => intro d; exact ⟨d, push d⟩
    | cons P l ih =>
      intro d
      rw [Node.addContents]
      exact ih _
  obtain ⟨d1, e1⟩ := add 0 a {}
  obtain ⟨d2, e2⟩ := add 1 b d1
  exact ⟨d2, by rw [twice, e1]; exact e2⟩

theorem meshOf_pair (a b : List (Polygon Unit)) : meshOf (a.map (fun P => ⟨0, P⟩) ++ b.map fun P => ⟨1, P⟩) 0 = a := by
  unfold meshOf
  rw [List.filter_append, List.filter_eq_self.2, List.filter_eq_nil_iff.2, List.append_nil, List.map_map]
  · exact List.map_id _
  · intro s hs
    obtain ⟨P, _, rfl⟩ := List.mem_map.1 hs
    simp
  · intro s hs
    obtain ⟨P, _, rfl⟩ := List.mem_map.1 hs
    simp

/-- There are points on none of finitely many planes. -/
theorem exists_off (l : List HS3) (hl : ∀ g ∈ l, g.n.q ≠ 0) : ∃ q, ∀ g ∈ l, g.side q ≠ 0 := by
  obtain ⟨η, _, h1⟩ := ev_exists (ev_list l (p := fun g η => dotQ g.n.q (dirZ η) ≠ 0) fun g hg => ev_side (hl g hg))
  obtain ⟨z, _, h2⟩ := ev_exists (ev_list l fun g hg => ev_off (q := 0) (h1 g hg))
  exact ⟨_, h2⟩

/-- The hypotheses of `C80_chain_partial` are met: the result of the subtraction is united with a
tetrahedron. -/
example : ∃ d S t' tr s M d2 S2 t2' tr2 pfuel fuel q u, ∃ w w2 : ℕ → Q3, Reach false (.leaf d) S ∧
    traverse subFilter.eval chooseFirst groupByKey 20 20 (.leaf d) = some (t', tr) ∧ (∀ id, Closed (meshOf S id)) ∧ (∀ Q ∈ output tr, Ordinary Q.plane.n) ∧
    (∀ Q ∈ output tr, ∀ e ∈ Q.edges, NoMin3 e.line.d) ∧ connRun tr {} = some s ∧
    visitCalls insertionSort sortHeap entrySort (edgeNum (output tr)) s.calls (facets (output tr)) = some (M, 0) ∧
    Reach false (.leaf d2) S2 ∧ NoParity (.union (.polygon 0) (.polygon 1)) ∧
    traverse (Filter.union (.polygon 0) (.polygon 1)).eval chooseFirst groupByKey pfuel fuel (.leaf d2) = some (t2', tr2) ∧
    meshOf S2 0 = M.remaining.map plain ∧ (∀ id, id ≠ 0 → Closed (meshOf S2 id)) ∧ GenericRay t2' tr2 S2 q u ∧ (∀ s ∈ S, q ∉ s.poly.region) ∧
    (∀ s ∈ S2, q ∉ s.poly.region) ∧ (∀ id, Transversal (meshOf S id) q (w id)) ∧ ∀ id, Transversal (meshOf S2 id) q (w2 id) := by
  obtain ⟨d, S, t', tr, h, ht, hf, hk, hg, hr, hc, hord, hmin, hT, ho, hD, hn⟩ := merged_example
  obtain ⟨s, M, hs, hv, hR, hcl, -⟩ := C80_result_partial h ht hf hk hg hr hc hord hmin hT ho hD
  obtain ⟨d2, e2⟩ := twice_defined (M.remaining.map plain) tetra
  have ha := twice_api hR tetra_convex e2
  have hcl2 := meshOf_two hcl tetra_closed
  obtain ⟨N, hN⟩ := C71_total ha hcl2 (f := .union (.polygon 0) (.polygon 1)) ⟨trivial, trivial⟩ (by simp [invertedIds]) chooseFirst_from groupByKey_ok
  obtain ⟨t2', tr2, r1, r2⟩ := hN N le_rfl _ (Nat.lt_succ_self _)
  have hSc := h.leaf_pwn.1
  have hSc2 := ha.spec.1.leaf_pwn.1
  have normal : ∀ {P : Polygon Unit}, IsConvexPolygon P → P.plane.n.q ≠ 0 := by
    intro P hP e
    have := normal_pos hP
    rw [e] at this
    simp [dotQ] at this
  obtain ⟨c1, _, _⟩ := traverse_context ha.spec.1 .leaf (filter_lawful _) groupByKey_ok r1
  have hreach := (splits_spec ha.spec.1 c1).1
  obtain ⟨q, hq⟩ := exists_off (t2'.planes ++ (S.map (·.poly.plane) ++ (((M.remaining.map plain).map (fun P => (⟨0, P⟩ : Source)) ++ tetra.map fun P => (⟨1, P⟩ : Source)).map fun z : Source => z.poly.plane))) (by
    intro g hg
    rcases List.mem_append.1 hg with hg | hg
    · exact planes_normal hreach.spec.1 g hg
    rcases List.mem_append.1 hg with hg | hg
    · obtain ⟨z, hz, rfl⟩ := List.mem_map.1 hg
      exact normal (hSc z hz)
    · obtain ⟨z, hz, rfl⟩ := List.mem_map.1 hg
      exact normal (hSc2 z hz))
  obtain ⟨⟨u, hu⟩, -⟩ := r2 q fun g hg => hq g (List.mem_append_left _ hg)
  have sub : ∀ (S : List Source) id, meshOf S id ⊆ S.map Source.poly := by
    intro S id P hP
    obtain ⟨s, hs, rfl⟩ := List.mem_map.1 hP
    exact List.mem_map_of_mem (List.mem_of_mem_filter hs)
  obtain ⟨η, _, hw⟩ := ev_exists (ev_transversal (M := S.map Source.poly) (fun P hP => by obtain ⟨s, hs, rfl⟩ := List.mem_map.1 hP; exact hSc s hs) q)
  refine ⟨d, S, t', tr, s, M, d2, _, t2', tr2, N, _, q, u, fun _ => dirZ η, fun _ => u, h, hr, hc, hord, hmin, hs, hv, ha.spec.1, ⟨trivial, trivial⟩, r1,
    meshOf_pair _ _, fun id _ => hcl2 id, hu, ?_, ?_, fun id => transversal_of_subset hw (sub S id), hu.transversal⟩
  · intro z hz hr
    refine hq z.poly.plane ?_ (side_region (hSc z hz) hr)
    exact List.mem_append_right _ (List.mem_append_left _ (List.mem_map_of_mem hz))
  · intro z hz hr
    refine hq z.poly.plane ?_ (side_region (hSc2 z hz) hr)
    exact List.mem_append_right _ (List.mem_append_right _ (List.mem_map_of_mem hz))

end Walnut.Props
