/-
C41 (the traversal of a binary space partition).

The statements use `traverse` (the model of `BSPTraverser::Run`), the vocabulary of
Bsp/TraverseSpec (`Balanced`, `nodesIn`, `Node.unpruned`, `leafOutput`) and the histories
of Bsp/TreeProof.  `v` is the visitor's filter; `choose` is how split planes are chosen and
`group` the order in which a multimap is iterated, both arbitrary.
-/
import Verif.Bsp.TraverseRun
import Verif.Props.Partition

namespace Walnut.Props
open Walnut.Geom Walnut.Poly Walnut.Bsp

theorem traverse_spec {aabb : Bool} {t : Node} {S : List Source} (h : Reach aabb t S) (hs : Bsp.Settled t) {v : IsInside} (hv : Lawful v) {choose : Choose}
    {group : Group} (hg : Grouping group) {pfuel fuel : Nat} {t' : Node} {tr : List Visit} (ht : traverse v choose group pfuel fuel t = some (t', tr)) :
    RunSpec v group [] t t' tr := run_spec hv hg t AncOK.nil h.spec.1 hs ht

theorem splitSeq_api {aabb : Bool} {S : List Source} {ops : List (List Bool × HS3)} {t t' : Node} (h : Api aabb t S) (hs : splitSeq [] ops t = some t') :
    Api aabb t' S := by
  induction ops generalizing t with
  | nil => rw [← Option.some.inj hs]; exact h
  | cons s ops ih =>
    obtain ⟨t1, h1, h2⟩ := Option.bind_eq_some_iff.1 hs
    exact ih (h.split h1) h2

/-- C41: the traversal changes the tree only by splitting leaves, so everything proved about
the trees of a program still holds afterwards. -/
theorem C41_tree {aabb : Bool} {t : Node} {S : List Source} (h : Api aabb t S) {v : IsInside} (hv : Lawful v) {choose : Choose} {group : Group}
    (hg : Grouping group) {pfuel fuel : Nat} {t' : Node} {tr : List Visit} (ht : traverse v choose group pfuel fuel t = some (t', tr)) : Api aabb t' S := by
  obtain ⟨ops, e⟩ := (traverse_spec h.spec.1 h.spec.2 hv hg ht).seq
  exact splitSeq_api h e

/-- C41: the calls of `EnterInteriorNode` and `LeaveInteriorNode` are properly nested. -/
theorem C41_nested {aabb : Bool} {t : Node} {S : List Source} (h : Api aabb t S) {v : IsInside} (hv : Lawful v) {choose : Choose} {group : Group}
    (hg : Grouping group) {pfuel fuel : Nat} {t' : Node} {tr : List Visit} (ht : traverse v choose group pfuel fuel t = some (t', tr)) : Balanced tr :=
  (traverse_spec h.spec.1 h.spec.2 hv hg ht).bal

/-- Nodes below `path` have paths that extend it. -/
theorem unpruned_prefix {v : IsInside} : ∀ (t : Node) (path : List Bool), ∀ r ∈ t.unpruned v path, path <+: r.path := by
  intro t
  induction t with
  | leaf d => intro path r h; simp [Node.unpruned] at h
  | inner d g n p ihn ihp =>
    intro path r h
    unfold Node.unpruned at h
    split_ifs at h
    · rcases List.mem_cons.1 h with rfl | h
      · exact List.prefix_refl _
      · rcases List.mem_append.1 h with h | h
        · exact (List.prefix_append _ _).trans (ihn _ r h)
        · exact (List.prefix_append _ _).trans (ihp _ r h)
    · simp at h

theorem unpruned_nodup {v : IsInside} : ∀ (t : Node) (path : List Bool), ((t.unpruned v path).map PlaneRef.path).Nodup := by
  intro t
  induction t with
  | leaf d => intro path; simp [Node.unpruned]
  | inner d g n p ihn ihp =>
    intro path
    unfold Node.unpruned
    split_ifs
    · rw [List.map_cons, List.nodup_cons, List.map_append, List.nodup_append]
      have pre : ∀ (b : Bool) (t : Node), ∀ x ∈ (t.unpruned v (path ++ [b])).map PlaneRef.path, ∃ s, x = path ++ b :: s := by
        intro b t x hx
        obtain ⟨r, hr, rfl⟩ := List.mem_map.1 hx
        obtain ⟨s, hs⟩ := unpruned_prefix t _ r hr
        exact ⟨s, by rw [← hs]; simp⟩
      refine ⟨?_, ihn _, ihp _, ?_⟩
      · intro hx
        rcases List.mem_append.1 hx with hx | hx
        · obtain ⟨s, hs⟩ := pre _ _ _ hx; simp at hs
        · obtain ⟨s, hs⟩ := pre _ _ _ hx; simp at hs
      · intro x hx y hy e
        obtain ⟨s, hs⟩ := pre _ _ _ hx
        obtain ⟨s', hs'⟩ := pre _ _ _ hy
        rw [hs, hs'] at e
        simp at e
    · simp

/-- C41: the interior nodes entered are, in depth first order, exactly those of the final
tree where, and above which, the filter says that its value can change; each is entered
once.  The leaves among them have no interior polygons left: all were split. -/
theorem C41_visited {aabb : Bool} {t : Node} {S : List Source} (h : Api aabb t S) {v : IsInside} (hv : Lawful v) {choose : Choose} {group : Group}
    (hg : Grouping group) {pfuel fuel : Nat} {t' : Node} {tr : List Visit} (ht : traverse v choose group pfuel fuel t = some (t', tr)) :
    nodesIn tr = t'.unpruned v [] ∧ ((nodesIn tr).map PlaneRef.path).Nodup ∧ ∀ d ∈ t'.unprunedLeaves v, d.contents = [] := by
  have r := traverse_spec h.spec.1 h.spec.2 hv hg ht
  exact ⟨r.nodes, by rw [r.nodes]; exact unpruned_nodup _ _, r.done⟩

/-- C41: the visitor accepts, at every point not on a plane of the partitioner, exactly the
facets of the leaves where the value of the filter changes, leaf by leaf and face by face
(see C38): the leaves below a pruned node have none.  For meshes that are added before the
first split. -/
theorem C41_output {aabb : Bool} {d : NodeData} {S : List Source} (h : Reach aabb (.leaf d) S) {t : Node} (hsp : Splits d t) {v : IsInside} (hv : Lawful v)
    {choose : Choose} {group : Group} (hg : Grouping group) {pfuel fuel : Nat} {t' : Node} {tr : List Visit}
    (ht : traverse v choose group pfuel fuel t = some (t', tr)) (q : Q3) (hq : ∀ g ∈ cuts tr, g.side q ≠ 0) :
    stackAt q (accepted tr) = (t'.leavesAt []).flatMap (leafOutput v group q) := by
  have key : Reach aabb t S ∧ Nested t ∧ Bsp.Settled t := by
    clear ht
    induction hsp with
    | leaf => exact ⟨h, trivial, trivial⟩
    | split _ ht' ih => exact ⟨ih.1.split ht', (splitAt_nested _ [] _ _ _ ih.1.spec.1 ih.2.1 ht').1, splitAt_settled _ _ _ _ _ ih.2.2 ht'⟩
  exact (traverse_spec key.1 key.2.2 hv hg ht).out key.2.1 q fun g hg h0 => absurd h0 (hq g hg)

/-- C41: the traversal ends and is defined (no assertion fails), if the planes are chosen
among those of the node's polygons and every node knows all ids.  The depth is at most the
number of polygons.  For polygons that do not track their bounding boxes. -/
theorem C41_defined {t : Node} {S : List Source} (h : Api false t S) {L : Nat} (hf : Fits L t) (hS : ∀ s ∈ S, s.id < L) {v : IsInside} (hv : Lawful v)
    {choose : Choose} (hch : FromContents choose) {group : Group} (hg : Grouping group) :
    ∃ N, ∀ pfuel, N ≤ pfuel → ∀ fuel, t.polys.length < fuel → ∃ r, traverse v choose group pfuel fuel t = some r := by
  obtain ⟨h1, l, hl, hc⟩ := h.spec.1.spec
  have := run_defined hv hch hg (L := L) (H := t.polys.map fun x => x.poly.plane) t AncOK.nil h1 h.spec.2 hf (Plain.of (made_plain hl hS) hc)
    fun x hx => List.mem_map_of_mem (f := fun x : BPoly => x.poly.plane) hx
  rw [List.length_map] at this
  exact this

/-! ### Examples -/

theorem chooseFirst_from : FromContents chooseFirst := by
  intro path d hd
  cases hc : d.contents with
  | nil => exact absurd hc hd
  | cons x l => exact ⟨x, by simp, by simp [chooseFirst, hc]⟩

theorem groupFirst_mem : ∀ (n : Nat) (l : List BPoly), ∀ f ∈ groupFirst n l, ∀ x ∈ f, x ∈ l := by
  intro n
  induction n with
  | zero => intro l f hf; simp [groupFirst] at hf
  | succ n ih =>
    intro l f hf x hx
    cases l with
    | nil => simp [groupFirst] at hf
    | cons p l =>
      unfold groupFirst at hf
      rcases List.mem_cons.1 hf with rfl | hf
      · rcases List.mem_cons.1 hx with rfl | hx
        · simp
        · exact List.mem_cons_of_mem _ (List.mem_of_mem_filter hx)
      · exact List.mem_cons_of_mem _ (List.mem_of_mem_filter (ih _ f hf x hx))

theorem groupFirst_ok : ∀ (n : Nat) (l : List BPoly), l.length ≤ n →
    (groupFirst n l).flatten.Perm l ∧ (∀ f ∈ groupFirst n l, f ≠ [] ∧ SameKey f) ∧
    (groupFirst n l).Pairwise fun f g => ∀ x ∈ f, ∀ y ∈ g, x.onNode.split.map PlaneRef.path ≠ y.onNode.split.map PlaneRef.path := by
  intro n
  induction n with
  | zero =>
    intro l hl
    have : l = [] := List.length_eq_zero_iff.1 (by omega)
    subst this
    simp [groupFirst]
  | succ n ih =>
    intro l hl
    cases l with
    | nil => simp [groupFirst]
    | cons p l =>
      have hl' : (l.filter fun x => !sameKey p x).length ≤ n := (List.length_filter_le _ _).trans (by simpa using hl)
      obtain ⟨h1, h2, h3⟩ := ih _ hl'
      unfold groupFirst
      refine ⟨?_, ?_, ?_⟩
      · rw [List.flatten_cons, List.cons_append]
        refine List.Perm.cons _ (List.Perm.trans (List.Perm.append_left _ h1) ?_)
        exact List.filter_append_perm _ _
      · intro f hf
        rcases List.mem_cons.1 hf with rfl | hf
        · refine ⟨by simp, ?_⟩
          have key : ∀ x ∈ p :: l.filter (sameKey p), p.onNode.split.map PlaneRef.path = x.onNode.split.map PlaneRef.path := by
            intro x hx
            rcases List.mem_cons.1 hx with rfl | hx
            · rfl
            · have := (List.mem_filter.1 hx).2
              unfold sameKey at this
              simpa using this
          intro x hx y hy
          rw [← key x hx, key y hy]
        · exact h2 f hf
      · rw [List.pairwise_cons]
        refine ⟨?_, h3⟩
        intro g hg x hx y hy
        have a := (List.mem_filter.1 (groupFirst_mem _ _ g hg y hy)).2
        have a' : p.onNode.split.map PlaneRef.path ≠ y.onNode.split.map PlaneRef.path := by
          unfold sameKey at a; simpa using a
        rcases List.mem_cons.1 hx with rfl | hx
        · exact a'
        · have b := (List.mem_filter.1 hx).2
          have b' : p.onNode.split.map PlaneRef.path = x.onNode.split.map PlaneRef.path := by
            unfold sameKey at b; simpa using b
          rw [← b']; exact a'

theorem groupByKey_ok : Grouping groupByKey :=
  ⟨fun _ l => (groupFirst_ok _ l le_rfl).1, fun _ l => (groupFirst_ok _ l le_rfl).2.1, fun _ l => (groupFirst_ok _ l le_rfl).2.2⟩

/-- The filter of a union. -/
def unionFilter : IsInside := (Filter.union (.polygon 0) (.polygon 1)).eval

/-- The hypotheses of C41 are met by the union of two tetrahedra: 4 nodes are entered and 4
facets accepted. -/
example : ∃ t t' S tr, Api false t S ∧ Fits 2 t ∧ (∀ s ∈ S, s.id < 2) ∧ Lawful unionFilter ∧ FromContents chooseFirst ∧ Grouping groupByKey ∧
    traverse unionFilter chooseFirst groupByKey 4 5 t = some (t', tr) ∧ (nodesIn tr).length = 4 ∧ (accepted tr).length = 4 := by
  have h : ((twice tetra tetra).bind fun t => (traverse unionFilter chooseFirst groupByKey 4 5 t).map fun r =>
      ((match t with | .leaf d => d.info.length | .inner .. => 0), (nodesIn r.2).length, (accepted r.2).length)) = some (2, 4, 4) := by decide +kernel
  obtain ⟨t, ht, h'⟩ := Option.bind_eq_some_iff.1 h
  obtain ⟨r, hr, e⟩ := Option.map_eq_some_iff.1 h'
  simp only [Prod.mk.injEq] at e
  refine ⟨t, r.1, _, r.2, twice_api tetra_convex tetra_convex ht, ?_, ?_, filter_lawful _, chooseFirst_from, groupByKey_ok, hr, e.2.1, e.2.2⟩
  · cases t with
    | leaf d => exact e.1.ge
    | inner d g n p => exact absurd e.1 (by simp)
  · intro s hs
    rcases List.mem_append.1 hs with hs | hs <;> (obtain ⟨P, _, rfl⟩ := List.mem_map.1 hs; simp)

/-- Three faces of a tetrahedron are added, the tree is split along its bottom face and once
more below, and then the bottom face is added to the root. -/
def lateFace : Option Node :=
  ((Node.leaf {}).addRoot false 0 (triangle 1 ⟨0, 0, 0⟩ ⟨4, 0, 0⟩ ⟨0, 0, 4⟩)).bind fun t =>
  (t.addRoot false 0 (triangle 0 ⟨0, 0, 0⟩ ⟨0, 0, 4⟩ ⟨0, 4, 0⟩)).bind fun t =>
  (t.addRoot false 0 (triangle 0 ⟨4, 0, 0⟩ ⟨0, 4, 0⟩ ⟨0, 0, 4⟩)).bind fun t =>
  (t.splitAt [] [] ⟨⟨0, 0, -16⟩, 0⟩).bind fun t =>
  (t.splitAt [] [false] ⟨⟨1, 1, 0⟩, 3⟩).bind fun t => t.addRoot false 0 (triangle 2 ⟨0, 0, 0⟩ ⟨0, 4, 0⟩ ⟨4, 0, 0⟩)

theorem lateFace_reach {t : Node} (h : lateFace = some t) : ∃ S, Reach false t S := by
  obtain ⟨t1, h1, h⟩ := Option.bind_eq_some_iff.1 h
  obtain ⟨t2, h2, h⟩ := Option.bind_eq_some_iff.1 h
  obtain ⟨t3, h3, h⟩ := Option.bind_eq_some_iff.1 h
  obtain ⟨t4, h4, h⟩ := Option.bind_eq_some_iff.1 h
  obtain ⟨t5, h5, h⟩ := Option.bind_eq_some_iff.1 h
  exact ⟨_, (((((Reach.empty.add (triangle_convex _ _ _ _ (by decide)) h1).add (triangle_convex _ _ _ _ (by decide)) h2).add
    (triangle_convex _ _ _ _ (by decide)) h3).split h4).split h5).add (triangle_convex _ _ _ _ (by decide)) h⟩

/-- C41 (disagreement): the traverser moves polygons added to the root of a split tree to its
children, but an interior node that got only border polygons keeps them, and they are never
visited.  The bottom face of a tetrahedron, given to the root by `AddRootContent`, is not
accepted; after `PushContentsToLeaves` both of its parts are. -/
theorem C41_late_border_false : ∃ t t1 S r r1, Reach false t S ∧ t.pushToLeaves [] = some t1 ∧
    traverse (Filter.polygon 0).eval chooseFirst groupByKey 4 5 t = some r ∧ traverse (Filter.polygon 0).eval chooseFirst groupByKey 4 5 t1 = some r1 ∧
    (accepted r.2).countP (fun p => p.poly.plane == ⟨⟨0, 0, -16⟩, 0⟩) = 0 ∧ (accepted r1.2).countP (fun p => p.poly.plane == ⟨⟨0, 0, -16⟩, 0⟩) = 2 := by
  have h : (lateFace.bind fun t => (t.pushToLeaves []).bind fun t1 => (traverse (Filter.polygon 0).eval chooseFirst groupByKey 4 5 t).bind fun r =>
      (traverse (Filter.polygon 0).eval chooseFirst groupByKey 4 5 t1).map fun r1 =>
      ((accepted r.2).countP (fun p => p.poly.plane == ⟨⟨0, 0, -16⟩, 0⟩), (accepted r1.2).countP (fun p => p.poly.plane == ⟨⟨0, 0, -16⟩, 0⟩))) =
      some (0, 2) := by decide +kernel
  obtain ⟨t, ht, h⟩ := Option.bind_eq_some_iff.1 h
  obtain ⟨t1, h1, h⟩ := Option.bind_eq_some_iff.1 h
  obtain ⟨r, hr, h⟩ := Option.bind_eq_some_iff.1 h
  obtain ⟨r1, hr1, h⟩ := Option.map_eq_some_iff.1 h
  simp only [Prod.mk.injEq] at h
  obtain ⟨S, hS⟩ := lateFace_reach ht
  exact ⟨t, t1, S, r, r1, hS, h1, hr, hr1, h.1, h.2⟩

end Walnut.Props
