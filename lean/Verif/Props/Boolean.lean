/-
C71: boolean operations on solids, from the meshes to the emitted polygons.

The statements use `traverse` (the model of `BSPTraverser::Run` with a boolean operation
filter), the specification of winding numbers in Props/Winding (`meshOf`, `Closed`,
`windingNumber`), the sets that filters describe (`Inside`, Props/Filters) and rays in
general position (`GenericRay`, Bsp/BoolSpec).
-/
import Verif.Bsp.BoolMain

namespace Walnut.Props
open Walnut.Geom Walnut.Poly Walnut.Bsp

/-! ### Specification -/

/-- The polygons that the traversal emitted. -/
def output (tr : List Visit) : List (Polygon EdgeInfo) := (accepted tr).map BPoly.poly

/-- The filter is made of unions, intersections and subtractions. -/
def NoParity : Filter → Prop
  | .polygon _ | .inverted _ => True
  | .odd _ | .xor _ _ => False
  | .inter f g | .union f g | .sub f g => NoParity f ∧ NoParity g

open Classical in
/-- 1 if it holds. -/
noncomputable def one (p : Prop) : ℤ := if p then 1 else 0

/-! ### Filters -/

theorem inside_mono {f : Filter} (hf : NoParity f) {w w' : Nat → Int} (h : ∀ id, w id ≤ w' id) : Inside f w → Inside f w' := by
  induction f with
  | polygon id => exact fun hi => lt_of_lt_of_le hi (h id)
  | inverted id => exact fun hi hc => hi (lt_of_le_of_lt (h id) hc)
  | odd id => exact hf.elim
  | xor f g => exact hf.elim
  | inter f g ihf ihg => exact fun hi => ⟨ihf hf.1 hi.1, ihg hf.2 hi.2⟩
  | sub f g ihf ihg => exact fun hi => ⟨ihf hf.1 hi.1, ihg hf.2 hi.2⟩
  | union f g ihf ihg => exact fun hi => hi.imp (ihf hf.1) (ihg hf.2)

theorem filter_monotone {f : Filter} (hf : NoParity f) : Bsp.Monotone f.eval := by
  intro n w w' h
  unfold valueAt
  have key : ∀ id, (((List.range n).map fun i => ({ pwn := w i } : Info))[id]? = none ∧ ((List.range n).map fun i => ({ pwn := w' i } : Info))[id]? = none) ∨
      (((List.range n).map fun i => ({ pwn := w i } : Info))[id]? = some ({ pwn := w id } : Info) ∧
        ((List.range n).map fun i => ({ pwn := w' i } : Info))[id]? = some ({ pwn := w' id } : Info)) := by
    intro id
    by_cases hi : id < n
    · right; simp [hi]
    · left; simp; omega
  generalize ((List.range n).map fun i => ({ pwn := w i } : Info)) = c at key
  generalize ((List.range n).map fun i => ({ pwn := w' i } : Info)) = c' at key
  induction f with
  | polygon id =>
    unfold Filter.eval
    rcases key id with ⟨e1, e2⟩ | ⟨e1, e2⟩
    · rw [e1, e2]; exact fun h => h
    · rw [e1, e2]
      have := h id
      simp only [decide_eq_true_eq]
      omega
  | inverted id =>
    unfold Filter.eval
    rcases key id with ⟨e1, e2⟩ | ⟨e1, e2⟩
    · rw [e1, e2]; exact fun h => h
    · rw [e1, e2]
      have := h id
      simp
      omega
  | odd id => exact hf.elim
  | xor f g => exact hf.elim
  | inter f g ihf ihg | sub f g ihf ihg =>
    simp only [Filter.eval, Bool.and_eq_true]
    exact fun hi => ⟨ihf hf.1 hi.1, ihg hf.2 hi.2⟩
  | union f g ihf ihg =>
    simp only [Filter.eval, Bool.or_eq_true]
    exact fun hi => hi.imp (ihf hf.1) (ihg hf.2)

theorem valueAt_inside {f : Filter} {n : Nat} (hk : ∀ id ∈ invertedIds f, id < n) {w : Nat → Int} (hw : ∀ id, n ≤ id → w id = 0) :
    bit ℤ (valueAt f.eval n w) = one (Inside f w) := by
  have e : windingOf ((List.range n).map fun i => ({ pwn := w i } : Info)) = w := by
    funext id
    rw [windingOf_table]
    split
    · rfl
    · exact (hw id (by omega)).symm
  have := C35_filter_partial f ((List.range n).map fun i => ({ pwn := w i } : Info)) (by simpa using hk)
  rw [e] at this
  unfold bit valueAt one
  by_cases h : Inside f w
  · rw [if_pos h, if_pos (this.2 h)]
  · rw [if_neg h, if_neg (fun h' => h (this.1 h'))]

/-! ### Trees -/

theorem splitSeq_splits {d : NodeData} {ops : List (List Bool × HS3)} {t t' : Node} (h : Splits d t) (hs : splitSeq [] ops t = some t') : Splits d t' := by
  induction ops generalizing t with
  | nil => rw [← Option.some.inj hs]; exact h
  | cons s ops ih =>
    obtain ⟨t1, h1, h2⟩ := Option.bind_eq_some_iff.1 hs
    exact ih (h.split h1) h2

theorem splits_spec {aabb : Bool} {d : NodeData} {S : List Source} (h : Reach aabb (.leaf d) S) {t : Node} (ht : Splits d t) :
    Reach aabb t S ∧ Nested t ∧ Bsp.Settled t ∧ t.data.info.length = d.info.length := by
  induction ht with
  | leaf => exact ⟨h, trivial, trivial, rfl⟩
  | split _ ht' ih =>
    obtain ⟨i1, i2, i3, i4⟩ := ih
    obtain ⟨a1, a2⟩ := splitAt_nested _ [] _ _ _ i1.spec.1 i2 ht'
    refine ⟨i1.split ht', a1, splitAt_settled _ _ _ _ _ i3 ht', ?_⟩
    rw [a2, i4]

theorem unknown_winding {aabb : Bool} {d : NodeData} {S : List Source} (h : Reach aabb (.leaf d) S) {t : Node} (ht : Splits d t) (hc : ∀ id, Closed (meshOf S id))
    {q u : Q3} (hq : ∀ g ∈ t.planes, g.side q ≠ 0) (hu : ∀ id, Transversal (meshOf S id) q u) {id : ℕ} (hid : d.info.length ≤ id) :
    windingNumber (meshOf S id) q u = 0 := by
  obtain ⟨h1, h2, h3, h4⟩ := splits_spec h ht
  obtain ⟨anc, A, hA, hi, _⟩ := leaf_at t [] hq (fun a ha => by simp at ha)
  have hlen : A.info.length = d.info.length := (h2.below [] _ hA).1.1.trans h4
  have hinfo : A.infoFor id = {} := by
    unfold NodeData.infoFor
    rw [List.getD_eq_getElem?_getD, List.getElem?_eq_none (by omega)]; rfl
  rw [← C40_winding h ht hA (hc id) (fun x hx e => ?_) hi (hu id), hinfo]
  have a1 := ((h1.spec.1.sub _ hA).2.2 id).1
  rw [hinfo] at a1
  have a2 := countP_id_pos.2 ⟨x, hx, e⟩
  rw [← a1] at a2
  exact absurd a2 (lt_irrefl _)

theorem traverse_context {aabb : Bool} {d : NodeData} {S : List Source} (h : Reach aabb (.leaf d) S) {t : Node} (ht : Splits d t) {v : IsInside} (hv : Lawful v)
    {choose : Choose} {group : Group} (hg : Grouping group) {pfuel fuel : Nat} {t' : Node} {tr : List Visit} (hr : traverse v choose group pfuel fuel t = some (t', tr)) :
    Splits d t' ∧ (∀ L ∈ t'.unprunedLeaves v, L.contents = []) ∧
      ∀ x, Clear tr t'.borders x → stackAt x (accepted tr) = (t'.leavesAt []).flatMap (leafOutput v group x) := by
  obtain ⟨h1, h2, h3, _⟩ := splits_spec h ht
  have r := traverse_spec h1 h3 hv hg hr
  obtain ⟨ops, e⟩ := r.seq
  exact ⟨splitSeq_splits ht e, r.done, r.out h2⟩

theorem output_exact {R : Type} [CommRing R] {aabb : Bool} {d : NodeData} {S : List Source} (h : Reach aabb (.leaf d) S) {t : Node} (ht : Splits d t) {v : IsInside} (hv : Lawful v) (hm : Exact R v)
    {choose : Choose} {group : Group} (hg : Grouping group) {pfuel fuel : Nat} {t' : Node} {tr : List Visit} (hr : traverse v choose group pfuel fuel t = some (t', tr))
    (hc : ∀ id, Closed (meshOf S id)) {q u : Q3} (hG : GenericRay t' tr S q u) :
    ((windingNumber (output tr) q u : ℤ) : R) =
      bit R (valueAt v d.info.length fun id => windingNumber (meshOf S id) q u) - bit R (valueAt v d.info.length fun _ => 0) := by
  obtain ⟨c1, c2, c3⟩ := traverse_context h ht hv hg hr
  obtain ⟨h1, h2, h3, h4⟩ := splits_spec h c1
  rw [← h4]
  exact ray_output h c1 h1 h3 h2 hv hm hg c2 hc c3 hG

/-! ### Rays in general position -/

theorem ev_side {g : HS3} (hg : g.n.q ≠ 0) : Ev fun η => dotQ g.n.q (dirZ η) ≠ 0 := by
  refine (ev_dot hg).mono fun η h e => h ?_
  rw [← e]; unfold dotQ; ring

theorem ev_apart (g : HS3) {h : HS3} (hn : h.n.q ≠ 0) (q : Q3) :
    Ev fun η => ∀ r : ℚ, 0 < r → g.side (q + r • dirZ η) = 0 → h.side (q + r • dirZ η) = 0 → Through g h := by
  by_cases hw : h.side q • g.n.q - g.side q • h.n.q = 0
  · have w := fun j => congrFun hw j
    simp only [Pi.sub_apply, Pi.smul_apply, smul_eq_mul, Pi.zero_apply] at w
    by_cases hq : h.side q = 0
    · refine (ev_side hn).mono fun η hne r hr _ h2 => ?_
      rw [side_ray, hq, zero_add] at h2
      exact absurd h2 (mul_ne_zero hr.ne' hne)
    · refine Filter.Eventually.of_forall fun η r _ _ _ x hx => ?_
      have w0 := w 0
      have w1 := w 1
      have w2 := w 2
      refine (mul_eq_zero.1 (?_ : h.side q * g.side x = 0)).resolve_left hq
      have e : h.side q * g.side x = g.side q * h.side x := by
        simp only [HS3.side, dotQ] at w0 w1 w2 ⊢
        linear_combination (x 0 - q 0) * w0 + (x 1 - q 1) * w1 + (x 2 - q 2) * w2
      rw [e, hx, mul_zero]
  · refine (ev_dot hw).mono fun η hne r hr h1 h2 => absurd ?_ hne
    rw [side_ray] at h1 h2
    have e : dotQ (dirZ η) (h.side q • g.n.q - g.side q • h.n.q) = h.side q * dotQ g.n.q (dirZ η) - g.side q * dotQ h.n.q (dirZ η) := by
      simp only [dotQ, Pi.sub_apply, Pi.smul_apply, smul_eq_mul]; ring
    rw [e]
    linear_combination dotQ g.n.q (dirZ η) * h2 - dotQ h.n.q (dirZ η) * h1

theorem planes_normal : ∀ {t : Node} {anc : Anc}, TreeOK anc t → ∀ g ∈ t.planes, g.n.q ≠ 0 := by
  intro t
  induction t with
  | leaf d => intro anc _ g hg; simp [Node.planes] at hg
  | inner d g0 n p ihn ihp =>
    intro anc h g hg
    unfold Node.planes at hg
    rcases List.mem_cons.1 hg with rfl | hg
    · intro e
      apply h.2.2.2.1
      have e0 := congrFun e 0
      have e1 := congrFun e 1
      have e2 := congrFun e 2
      simp only [V3.q_zero, V3.q_one, V3.q_two, Pi.zero_apply, Int.cast_eq_zero] at e0 e1 e2
      cases hn : g.n
      rw [hn] at e0 e1 e2
      simp only at e0 e1 e2
      rw [e0, e1, e2]
    · rcases List.mem_append.1 hg with hg | hg
      · exact ihn h.2.2.2.2.1 g hg
      · exact ihp h.2.2.2.2.2 g hg

theorem ev_genericRay {aabb : Bool} {t : Node} {S : List Source} (h : Reach aabb t S) (hS : ∀ s ∈ S, IsConvexPolygon s.poly) (tr : List Visit) {q : Q3}
    (hq : ∀ g ∈ t.planes, g.side q ≠ 0) : Ev fun η => GenericRay t tr S q (dirZ η) := by
  have hn : ∀ s ∈ S, s.poly.plane.n.q ≠ 0 := by
    intro s hs e
    have := normal_pos (hS s hs)
    rw [e] at this
    simp [dotQ] at this
  have e1 := ev_list t.planes fun g hg => ev_side (planes_normal h.spec.1 g hg)
  have e2 := ev_list S fun s hs => ev_side (hn s hs)
  have e3 := ev_list (t.planes ++ cuts tr) fun g _ => ev_list S fun s hs => ev_apart g (hn s hs) q
  have e4 := ev_transversal (M := S.map Source.poly) (fun P hP => by obtain ⟨s, hs, rfl⟩ := List.mem_map.1 hP; exact hS s hs) q
  filter_upwards [e1, e2, e3, e4] with η a1 a2 a3 a4
  refine ⟨hq, a1, a2, a3, fun id => ⟨a4.1, fun P hP => a4.2 P ?_⟩⟩
  obtain ⟨s, hs, rfl⟩ := List.mem_map.1 hP
  exact List.mem_map_of_mem (List.mem_of_mem_filter hs)

/-! ### C71 -/

/-- C71: the polygons that a traversal emits for a filter of unions, intersections and
subtractions are the boundary of the set that the filter describes.  Along every ray in
general position from a point on no split plane, the winding number of the emitted polygons
is 1 if the winding numbers of the meshes around the point are in the set of the filter, and
0 otherwise; one less if the filter's set is unbounded, that is, if it contains the points
far away.  The meshes are closed and were added before the first split; the ids of inverted
operands are known to the tree. -/
theorem C71_boolean {aabb : Bool} {d : NodeData} {S : List Source} (h : Reach aabb (.leaf d) S) {t : Node} (ht : Splits d t) {f : Filter} (hf : NoParity f)
    (hk : ∀ id ∈ invertedIds f, id < d.info.length) {choose : Choose} {group : Group} (hg : Grouping group) {pfuel fuel : Nat} {t' : Node} {tr : List Visit}
    (hr : traverse f.eval choose group pfuel fuel t = some (t', tr)) (hc : ∀ id, Closed (meshOf S id)) {q u : Q3} (hG : GenericRay t' tr S q u) :
    windingNumber (output tr) q u = one (Inside f fun id => windingNumber (meshOf S id) q u) - one (Inside f fun _ => 0) := by
  have := output_exact h ht (filter_lawful f) (filter_monotone hf).exact hg hr hc hG
  rw [valueAt_inside hk fun id hid => unknown_winding h (traverse_context h ht (filter_lawful f) hg hr).1 hc hG.off hG.transversal hid,
    valueAt_inside hk fun _ _ => rfl] at this
  exact_mod_cast this

/-- C71: for every filter, including symmetric differences, the number of polygons on the ray
is odd if exactly one of the point and the points far away is in the set. -/
theorem C71_parity {aabb : Bool} {d : NodeData} {S : List Source} (h : Reach aabb (.leaf d) S) {t : Node} (ht : Splits d t) {f : Filter}
    (hk : ∀ id ∈ invertedIds f, id < d.info.length) {choose : Choose} {group : Group} (hg : Grouping group) {pfuel fuel : Nat} {t' : Node} {tr : List Visit}
    (hr : traverse f.eval choose group pfuel fuel t = some (t', tr)) (hc : ∀ id, Closed (meshOf S id)) {q u : Q3} (hG : GenericRay t' tr S q u) :
    windingNumber (output tr) q u % 2 = (one (Inside f fun id => windingNumber (meshOf S id) q u) + one (Inside f fun _ => 0)) % 2 := by
  have := output_exact h ht (filter_lawful f) (exact_mod_two _) hg hr hc hG
  have e1 := valueAt_inside hk fun id hid => unknown_winding h (traverse_context h ht (filter_lawful f) hg hr).1 hc hG.off hG.transversal hid
  have e2 := valueAt_inside hk (w := fun _ => 0) fun _ _ => rfl
  have cast : ∀ b : Bool, bit (ZMod 2) b = ((bit ℤ b : ℤ) : ZMod 2) := by intro b; cases b <;> simp [bit]
  rw [cast, cast, e1, e2, ← Int.cast_sub] at this
  have := (ZMod.intCast_eq_intCast_iff' _ _ 2).1 this
  push_cast at this
  omega

/-- C71: for every point on no split plane there is a ray in general position. -/
theorem C71_ray {aabb : Bool} {d : NodeData} {S : List Source} (h : Reach aabb (.leaf d) S) {t : Node} (ht : Splits d t) {v : IsInside} (hv : Lawful v)
    {choose : Choose} {group : Group} (hg : Grouping group) {pfuel fuel : Nat} {t' : Node} {tr : List Visit}
    (hr : traverse v choose group pfuel fuel t = some (t', tr)) {q : Q3} (hq : ∀ g ∈ t'.planes, g.side q ≠ 0) : ∃ u, GenericRay t' tr S q u := by
  obtain ⟨c1, _, _⟩ := traverse_context h ht hv hg hr
  obtain ⟨η, _, he⟩ := ev_exists (ev_genericRay (splits_spec h c1).1 h.leaf_pwn.1 tr hq)
  exact ⟨_, he⟩

/-- The ids of the added meshes are known to the tree. -/
theorem leaf_known {aabb : Bool} {d : NodeData} {S : List Source} (h : Reach aabb (.leaf d) S) : ∀ s ∈ S, s.id < d.info.length := by
  intro s hs
  have h3 : 0 < s.poly.count := by have := (h.leaf_pwn.1 s hs).three; omega
  obtain ⟨x, hx, e, _, _⟩ := (C39_cover h s.id s.poly.plane (s.poly.pt 0)).2 ⟨s, hs, rfl, rfl, pt_mem h3⟩
  obtain ⟨c1, c2⟩ := h.spec.1.2.2 s.id
  by_contra hc
  have hinfo : d.infoFor s.id = {} := by
    unfold NodeData.infoFor
    rw [List.getD_eq_getElem?_getD, List.getElem?_eq_none (by omega)]; rfl
  rw [hinfo] at c1 c2
  unfold Node.polys at hx
  rcases List.mem_append.1 hx with hx | hx
  · have a2 := countP_id_pos.2 ⟨x, hx, e⟩
    rw [← c1] at a2
    exact absurd a2 (lt_irrefl _)
  · have a2 := countP_id_pos.2 ⟨x, hx, e⟩
    rw [← c2] at a2
    exact absurd a2 (lt_irrefl _)

/-- C71: altogether.  After closed meshes have been added to an empty tree, the traversal with
a filter of unions, intersections and subtractions ends without a failed assertion, and the
winding numbers of the emitted polygons are those of the set that the filter describes,
around every point on no split plane of the final tree.  For polygons that do not track
their bounding boxes and split planes chosen among those of the node's polygons. -/
theorem C71_total {d : NodeData} {S : List Source} (h : Api false (.leaf d) S) (hc : ∀ id, Closed (meshOf S id)) {f : Filter} (hf : NoParity f)
    (hk : ∀ id ∈ invertedIds f, ∃ s ∈ S, id ≤ s.id) {choose : Choose} (hch : FromContents choose) {group : Group} (hg : Grouping group) :
    ∃ N, ∀ pfuel, N ≤ pfuel → ∀ fuel, (Node.leaf d).polys.length < fuel → ∃ t' tr, traverse f.eval choose group pfuel fuel (.leaf d) = some (t', tr) ∧
      ∀ q, (∀ g ∈ t'.planes, g.side q ≠ 0) → (∃ u, GenericRay t' tr S q u) ∧
        ∀ u, GenericRay t' tr S q u → windingNumber (output tr) q u = one (Inside f fun id => windingNumber (meshOf S id) q u) - one (Inside f fun _ => 0) := by
  have hr := h.spec.1
  obtain ⟨N, hN⟩ := C41_defined h (L := d.info.length) (show d.info.length ≤ d.info.length from le_rfl) (leaf_known hr) (filter_lawful f) hch hg
  refine ⟨N, fun pfuel hp fuel hfu => ?_⟩
  obtain ⟨⟨t', tr⟩, e⟩ := hN pfuel hp fuel hfu
  refine ⟨t', tr, e, fun q hq => ⟨C71_ray hr .leaf (filter_lawful f) hg e hq, fun u hG => C71_boolean hr .leaf hf (fun id hid => ?_) hg e hc hG⟩⟩
  obtain ⟨s, hs, hle⟩ := hk id hid
  exact lt_of_le_of_lt hle (leaf_known hr s hs)

/-! ### Lists of ids -/

theorem fold_mono {step step' : Bool × Bool → Nat → Bool × Bool} (h : ∀ t t' : Bool × Bool, (t.1 = true → t'.1 = true) → ∀ id, (step t id).1 = true → (step' t' id).1 = true)
    (ids : List Nat) : ∀ t t' : Bool × Bool, (t.1 = true → t'.1 = true) → (ids.foldl step t).1 = true → (ids.foldl step' t').1 = true := by
  induction ids with
  | nil => intro t t' ht; exact ht
  | cons id ids ih => intro t t' ht; exact ih _ _ (h t t' ht id)

theorem idFilters_monotone (ids : List Nat) : Bsp.Monotone (unionIds ids) ∧ Bsp.Monotone (intersectIds ids) ∧ Bsp.Monotone (subtractIds ids) := by
  have key : ∀ (n : Nat) (w : Nat → Int) id, ((List.range n).map fun i => ({ pwn := w i } : Info))[id]? = if id < n then some ({ pwn := w id } : Info) else none := by
    intro n w id
    by_cases hi : id < n
    · simp [hi]
    · rw [if_neg hi]; simp; omega
  refine ⟨fun n w w' h => ?_, fun n w w' h => ?_, fun n w w' h => ?_⟩
  · refine fold_mono (fun t t' ht id => ?_) ids _ _ id
    simp only [unionIdsStep, key]
    have := h id
    by_cases hi : id < n
    · simp only [if_pos hi, Bool.or_eq_true, decide_eq_true_eq]
      exact fun h => h.imp ht fun h => by omega
    · simp only [if_neg hi, Bool.or_false]; exact ht
  · refine fold_mono (fun t t' ht id => ?_) ids _ _ id
    simp only [intersectIdsStep, key]
    have := h id
    by_cases hi : id < n
    · simp only [if_pos hi, Bool.and_eq_true, decide_eq_true_eq]
      exact fun h => ⟨ht h.1, by omega⟩
    · simp [if_neg hi]
  · cases ids with
    | nil => exact fun h => h
    | cons id0 rest =>
      unfold valueAt subtractIds
      simp only [List.length_map, List.length_range]
      by_cases h0 : id0 ≥ n
      · simp only [if_pos h0]; exact fun h => h
      · simp only [if_neg h0]
        have k := key n w 0
        have k' := key n w' 0
        rw [if_pos (by omega)] at k k'
        have a := key n w
        have a' := key n w'
        generalize ((List.range n).map fun i => ({ pwn := w i } : Info)) = c at k a
        generalize ((List.range n).map fun i => ({ pwn := w' i } : Info)) = c' at k' a'
        cases c with
        | nil => simp at k
        | cons x c =>
          cases c' with
          | nil => simp at k'
          | cons x' c' =>
            simp only [List.getElem?_cons_zero, Option.some.injEq] at k k'
            simp only [k, k']
            rw [← k, ← k'] 
            refine fold_mono (fun t t' ht id => ?_) rest _ _ ?_
            · simp only [subtractIdsStep, a, a']
              have := h id
              by_cases hi : id < n
              · simp only [if_pos hi, Bool.and_eq_true, decide_eq_true_eq]
                exact fun h => ⟨ht h.1, by omega⟩
              · simp [if_neg hi]
            · have := h 0
              rw [k, k']
              simp only [decide_eq_true_eq]
              omega

/-- C71 for `UnionIdsFilter` and `IntersectIdsFilter`: the emitted polygons are the boundary
of the union and of the intersection. -/
theorem C71_ids {aabb : Bool} {d : NodeData} {S : List Source} (h : Reach aabb (.leaf d) S) {t : Node} (ht : Splits d t) (ids : List Nat)
    {choose : Choose} {group : Group} (hg : Grouping group) {pfuel fuel : Nat} {t' : Node} {tr : List Visit} (hc : ∀ id, Closed (meshOf S id)) {q u : Q3}
    (hG : GenericRay t' tr S q u) :
    (traverse (unionIds ids) choose group pfuel fuel t = some (t', tr) →
      windingNumber (output tr) q u = one (∃ id ∈ ids, 0 < windingNumber (meshOf S id) q u)) ∧
    (ids ≠ [] → traverse (intersectIds ids) choose group pfuel fuel t = some (t', tr) →
      windingNumber (output tr) q u = one (∀ id ∈ ids, 0 < windingNumber (meshOf S id) q u)) := by
  obtain ⟨l1, l2, l3⟩ := idFilters_lawful ids
  obtain ⟨m1, m2, m3⟩ := idFilters_monotone ids
  have hw : ∀ {v : IsInside}, Lawful v → traverse v choose group pfuel fuel t = some (t', tr) → 
      windingOf ((List.range d.info.length).map fun i => ({ pwn := windingNumber (meshOf S i) q u } : Info)) = fun id => windingNumber (meshOf S id) q u := by
    intro v hv hr
    funext id
    rw [windingOf_table]
    split
    · rfl
    · exact (unknown_winding h (traverse_context h ht hv hg hr).1 hc hG.off hG.transversal (by omega)).symm
  have hz : windingOf ((List.range d.info.length).map fun _ => ({ pwn := 0 } : Info)) = fun _ => 0 := by
    funext id
    rw [windingOf_table _ fun _ => 0]
    split <;> rfl
  have tobit : ∀ (b : Bool) (p : Prop), (b = true ↔ p) → bit ℤ b = one p := by
    intro b p hbp
    unfold bit one
    by_cases hp : p
    · rw [if_pos hp, if_pos (hbp.2 hp)]
    · rw [if_neg hp, if_neg fun h => hp (hbp.1 h)]
  refine ⟨fun hr => ?_, fun hne hr => ?_⟩
  · have := output_exact h ht l1 m1.exact hg hr hc hG
    unfold valueAt at this
    have e1 := C37_union ids ((List.range d.info.length).map fun i => ({ pwn := windingNumber (meshOf S i) q u } : Info))
    have e2 := C37_union ids ((List.range d.info.length).map fun _ => ({ pwn := 0 } : Info))
    rw [hw l1 hr] at e1
    rw [hz] at e2
    rw [tobit _ _ e1, tobit _ _ e2] at this
    simpa [one] using this
  · have := output_exact h ht l2 m2.exact hg hr hc hG
    unfold valueAt at this
    have e1 := C37_intersect ids ((List.range d.info.length).map fun i => ({ pwn := windingNumber (meshOf S i) q u } : Info))
    have e2 := C37_intersect ids ((List.range d.info.length).map fun _ => ({ pwn := 0 } : Info))
    rw [hw l2 hr] at e1
    rw [hz] at e2
    rw [tobit _ _ e1, tobit _ _ e2] at this
    obtain ⟨x, hx⟩ := List.exists_mem_of_ne_nil _ hne
    have hfalse : ¬ ∀ id ∈ ids, (0 : ℤ) < 0 := fun h => lt_irrefl _ (h x hx)
    have hz' : one (∀ id ∈ ids, (0 : ℤ) < 0) = 0 := by unfold one; rw [if_neg hfalse]
    rw [hz', sub_zero] at this
    exact_mod_cast this

/-! ### Examples -/

/-- A tetrahedron inside of the other one that touches two of its facets; inverted. -/
def innerTetra : List (Polygon Unit) :=
  [triangle 2 ⟨1, 0, 0⟩ ⟨3, 0, 0⟩ ⟨1, 2, 0⟩, triangle 1 ⟨1, 0, 0⟩ ⟨1, 0, 2⟩ ⟨3, 0, 0⟩, triangle 0 ⟨1, 0, 0⟩ ⟨1, 2, 0⟩ ⟨1, 0, 2⟩,
    triangle 0 ⟨3, 0, 0⟩ ⟨1, 0, 2⟩ ⟨1, 2, 0⟩]

theorem innerTetra_convex : ∀ P ∈ innerTetra, IsConvexPolygon P := by
  simp only [innerTetra, List.mem_cons, List.not_mem_nil, or_false, forall_eq_or_imp, forall_eq]
  exact ⟨triangle_convex _ _ _ _ (by decide), triangle_convex _ _ _ _ (by decide), triangle_convex _ _ _ _ (by decide),
    triangle_convex _ _ _ _ (by decide)⟩

theorem closed_of_perm {M : List (Polygon Unit)} (h : (meshSides M).Perm ((meshSides M).map Prod.swap)) : Closed M := by
  intro a b
  rw [h.count_eq]
  exact List.count_map_of_injective _ _ Prod.swap_injective (b, a)

theorem meshOf_two {a b : List (Polygon Unit)} (ha : Closed a) (hb : Closed b) (id : ℕ) : Closed (meshOf (a.map (fun P => ⟨0, P⟩) ++ b.map fun P => ⟨1, P⟩) id) := by
  have e : ∀ (k : ℕ) (l : List (Polygon Unit)), meshOf (l.map fun P => ⟨k, P⟩) id = if k = id then l else [] := by
    intro k l
    unfold meshOf
    induction l with
    | nil => simp
    | cons P l ih =>
      rw [List.map_cons, List.filter_cons]
      by_cases hk : k = id
      · subst hk
        simp only [beq_self_eq_true, if_true, List.map_cons] at ih ⊢
        rw [ih]
      · simp only [beq_iff_eq, hk, if_false] at ih ⊢
        exact ih
  have hn : Closed [] := fun _ _ => rfl
  have ea : meshOf (a.map (fun P => ⟨0, P⟩) ++ b.map fun P => ⟨1, P⟩) id = meshOf (a.map fun P => ⟨0, P⟩) id ++ meshOf (b.map fun P => ⟨1, P⟩) id := by
    unfold meshOf; rw [List.filter_append, List.map_append]
  rw [ea, e, e]
  by_cases h0 : 0 = id
  · rw [if_pos h0, if_neg (by omega), List.append_nil]; exact ha
  · rw [if_neg h0, List.nil_append]
    split
    · exact hb
    · exact hn

/-- The tetrahedron minus the inner one. -/
def subFilter : Filter := .sub (.polygon 0) (.inverted 1)

/-- The hypotheses of C71 are met by a subtraction of touching solids: 9 polygons are emitted.
There are rays from a point of the difference and from one of the subtracted solid. -/
example : ∃ d S t' tr, Api false (.leaf d) S ∧ (∀ id, Closed (meshOf S id)) ∧ NoParity subFilter ∧ (∀ id ∈ invertedIds subFilter, ∃ s ∈ S, id ≤ s.id) ∧
    FromContents chooseFirst ∧ Grouping groupByKey ∧ traverse subFilter.eval chooseFirst groupByKey 20 20 (.leaf d) = some (t', tr) ∧ (output tr).length = 9 ∧
    (∃ u, GenericRay t' tr S ![1 / 2, 1 / 2, 1 / 2] u) ∧ ∃ u, GenericRay t' tr S ![5 / 4, 1 / 4, 1 / 4] u := by
  have h : ((twice tetra innerTetra).bind fun t => (traverse subFilter.eval chooseFirst groupByKey 20 20 t).map fun r =>
      ((match t with | .leaf _ => true | .inner .. => false), (output r.2).length,
        r.1.planes.all fun g => g.side ![1 / 2, 1 / 2, 1 / 2] ≠ 0 && g.side ![5 / 4, 1 / 4, 1 / 4] ≠ 0)) = some (true, 9, true) := by decide +kernel
  obtain ⟨t, ht, h'⟩ := Option.bind_eq_some_iff.1 h
  obtain ⟨⟨t', tr⟩, hr, e⟩ := Option.map_eq_some_iff.1 h'
  simp only [Prod.mk.injEq] at e
  cases t with
  | inner => exact absurd e.1 (by simp)
  | leaf d =>
    have ha := twice_api tetra_convex innerTetra_convex ht
    have hq : ∀ g ∈ t'.planes, g.side ![1 / 2, 1 / 2, 1 / 2] ≠ 0 ∧ g.side ![5 / 4, 1 / 4, 1 / 4] ≠ 0 := by
      intro g hg
      have := List.all_eq_true.1 e.2.2 g hg
      simpa using this
    refine ⟨d, _, t', tr, ha, meshOf_two tetra_closed (closed_of_perm (by decide +kernel)), ⟨trivial, trivial⟩, ?_, chooseFirst_from, groupByKey_ok, hr, e.2.1,
      C71_ray ha.spec.1 .leaf (filter_lawful _) groupByKey_ok hr fun g hg => (hq g hg).1,
      C71_ray ha.spec.1 .leaf (filter_lawful _) groupByKey_ok hr fun g hg => (hq g hg).2⟩
    intro id hid
    exact ⟨⟨1, triangle 2 ⟨1, 0, 0⟩ ⟨3, 0, 0⟩ ⟨1, 2, 0⟩⟩, by simp [innerTetra], by simp [subFilter, invertedIds] at hid; simp [hid]⟩

/-! ### Symmetric differences -/

/-- What `hits` depends on. -/
def shape {D : Type} (P : Polygon D) : HS3 × List Q3 := (P.plane, (List.range P.count).map P.pt)

theorem hits_shape {D E : Type} {q u : Q3} {P : Polygon D} {P' : Polygon E} (h : shape P = shape P') : hits q u P = hits q u P' := by
  unfold shape at h
  rw [Prod.mk.injEq] at h
  have hr : P.region = P'.region := by
    have key : ∀ x, (x ∈ (List.range P.count).map P.pt) ↔ x ∈ (List.range P'.count).map P'.pt := fun x => by rw [h.2]
    unfold Polygon.region
    congr 1
    ext x
    have := key x
    simp only [List.mem_map, List.mem_range, eq_comm (b := x)] at this
    exact this
  unfold hits
  rw [h.1, hr]

theorem windingNumber_append {D : Type} (M M' : List (Polygon D)) (q u : Q3) : windingNumber (M ++ M') q u = windingNumber M q u + windingNumber M' q u := by
  unfold windingNumber; rw [List.map_append, List.sum_append]

theorem winding_perm {D : Type} {q u : Q3} {M M' : List (Polygon D)} (h : (M.map shape).Perm (M'.map shape)) : windingNumber M q u = windingNumber M' q u := by
  classical
  let H : HS3 × List Q3 → ℤ := fun s => if h : ∃ P : Polygon D, shape P = s then hits q u h.choose else 0
  have e : hits q u = H ∘ shape (D := D) := by
    funext P
    have hP : ∃ P' : Polygon D, shape P' = shape P := ⟨P, rfl⟩
    show _ = H (shape P)
    simp only [H]
    rw [dif_pos hP]
    exact (hits_shape hP.choose_spec).symm
  unfold windingNumber
  rw [e, ← List.map_map, ← List.map_map]
  exact (h.map H).sum_eq

/-- The winding number of the tetrahedron around a point inside. -/
theorem tetra_winding {u : Q3} (hu : Transversal tetra ![1, 1, 1] u) : windingNumber tetra ![1, 1, 1] u = 1 := by
  have e : meshOf (tetra.map (fun P => ⟨0, P⟩)) 0 = tetra := rfl
  have h : (((Node.leaf {}).addContents false 0 tetra).bind fun t => match t with
      | .leaf d => (splitAll (.leaf d) facetSplits).map fun t => (t.subs []).any isInner
      | _ => none) = some true := by decide +kernel
  obtain ⟨t0, h0, h1⟩ := Option.bind_eq_some_iff.1 h
  cases t0 with
  | inner => exact absurd h1 (by simp)
  | leaf d =>
    obtain ⟨t, h2, h3⟩ := Option.map_eq_some_iff.1 h1
    obtain ⟨⟨anc, s⟩, h4, h5⟩ := List.any_eq_true.1 h3
    cases s with
    | inner => exact absurd h5 (by simp [isInner])
    | leaf l =>
      simp only [isInner, Bool.and_eq_true, beq_iff_eq, List.all_eq_true, List.isEmpty_iff] at h5
      obtain ⟨⟨⟨⟨a1, a2⟩, a3⟩, a4⟩, a5⟩ := h5
      have := C40_winding (Api.empty.add tetra_convex h0).spec.1 (Splits.all _ .leaf h2) h4 (id := 0) (q := ![1, 1, 1]) (v := u) (by exact tetra_closed) (by simp [a2])
        (by
          intro a ha
          have := a1 a ha
          split_ifs at this ⊢ <;> exact of_decide_eq_true this) hu
      rw [a4] at this
      exact this.symm

/-- The symmetric difference. -/
def xorFilter : Filter := .xor (.polygon 0) (.polygon 1)

/-- C71 is false for symmetric differences: polygons where the set is on the outer side are
emitted as they are, and not reversed.  The symmetric difference of a solid with itself is
empty, but the winding number of what is emitted is 2. -/
theorem C71_xor_false : ∃ d S t' tr q u, Api false (.leaf d) S ∧ (∀ id, Closed (meshOf S id)) ∧
    traverse xorFilter.eval chooseFirst groupByKey 20 20 (.leaf d) = some (t', tr) ∧ GenericRay t' tr S q u ∧
    ¬ Inside xorFilter (fun id => windingNumber (meshOf S id) q u) ∧ ¬ Inside xorFilter (fun _ => 0) ∧ windingNumber (output tr) q u = 2 := by
  have h : ((twice tetra tetra).bind fun t => (traverse xorFilter.eval chooseFirst groupByKey 20 20 t).bind fun r =>
      (traverse unionFilter chooseFirst groupByKey 20 20 t).map fun r' =>
      ((match t with | .leaf _ => true | .inner .. => false), decide (((output r.2).map shape).Perm ((output r'.2 ++ output r'.2).map shape)),
        r.1.planes.all (fun g => g.side ![1, 1, 1] ≠ 0) && r'.1.planes.all fun g => g.side ![1, 1, 1] ≠ 0)) = some (true, true, true) := by decide +kernel
  obtain ⟨t, ht, h⟩ := Option.bind_eq_some_iff.1 h
  obtain ⟨⟨t1, tr1⟩, h1, h⟩ := Option.bind_eq_some_iff.1 h
  obtain ⟨⟨t2, tr2⟩, h2, e⟩ := Option.map_eq_some_iff.1 h
  simp only [Prod.mk.injEq, Bool.and_eq_true, decide_eq_true_eq, List.all_eq_true] at e
  cases t with
  | inner => exact absurd e.1 (by simp)
  | leaf d =>
    have ha := twice_api tetra_convex tetra_convex ht
    have hcl := meshOf_two tetra_closed tetra_closed
    have c1 := traverse_context ha.spec.1 .leaf (filter_lawful _) groupByKey_ok h1
    have c2 := traverse_context ha.spec.1 .leaf (filter_lawful _) groupByKey_ok h2
    obtain ⟨η, _, g1, g2⟩ := ev_exists ((ev_genericRay (splits_spec ha.spec.1 c1.1).1 ha.spec.1.leaf_pwn.1 tr1 (q := ![1, 1, 1]) fun g hg => by simpa using e.2.2.1 g hg).and
      (ev_genericRay (splits_spec ha.spec.1 c2.1).1 ha.spec.1.leaf_pwn.1 tr2 (q := ![1, 1, 1]) fun g hg => by simpa using e.2.2.2 g hg))
    have m0 : meshOf (tetra.map (fun P => ⟨0, P⟩) ++ tetra.map fun P => ⟨1, P⟩) 0 = tetra := rfl
    have m1 : meshOf (tetra.map (fun P => ⟨0, P⟩) ++ tetra.map fun P => ⟨1, P⟩) 1 = tetra := rfl
    have w : windingNumber tetra ![1, 1, 1] (dirZ η) = 1 := tetra_winding (by rw [← m0]; exact g1.transversal 0)
    have hu := C71_boolean (f := .union (.polygon 0) (.polygon 1)) ha.spec.1 .leaf ⟨trivial, trivial⟩ (by simp [invertedIds]) groupByKey_ok h2 hcl g2
    refine ⟨d, _, t1, tr1, ![1, 1, 1], dirZ η, ha, hcl, h1, g1, ?_, ?_, ?_⟩
    · simp only [xorFilter, Inside, m0, m1]; simp
    · simp [xorFilter, Inside]
    · rw [winding_perm e.2.1, windingNumber_append, hu]
      simp only [Inside, m0, m1, w, one]
      norm_num

end Walnut.Props
