/-
C82: the default strategy of a traversal, which splits leaves with many polygons along coordinate axes.

The statements use `Strategy.split` (the model of `SplitStrategy::Split`).
-/
import Verif.Bsp.KdFuel
import Verif.Bsp.KdOrder
import Verif.Bsp.SortHeap
import Verif.Props.Boolean
import Verif.Props.LowestCost
import Verif.Props.Pick

namespace Walnut.Props
open Walnut.Geom Walnut.Poly Walnut.Bsp

/-! ### Specification -/

/-- What the C++ standard says about `pop_heap` and `push_heap`, see `HeapOk`. -/
structure MergeOk (o : MergeOps) : Prop where
  pop : ∀ less x l, ByKey less (x :: l) → IsHeap less (x :: l) → ∃ q, o.pop less (x :: l) = q ++ [x] ∧ q.Perm l ∧ IsHeap less q
  push : ∀ less q x, ByKey less (q ++ [x]) → IsHeap less q → (o.push less (q ++ [x])).Perm (q ++ [x]) ∧ IsHeap less (o.push less (q ++ [x]))

/-- The strategy of `BSPTraverser::Run` if the caller does not give a bound. -/
def defaultStrategy : Strategy := ⟨some 6, none⟩

/-! ### Meshes -/

/-- Heap functions that keep the range sorted. -/
def sortMerge : MergeOps where
  pop less l := match l with
    | [] => []
    | x :: l => sortDesc less l ++ [x]
  push := sortDesc

theorem sortMerge_ok : MergeOk sortMerge where
  pop less x l h _ := by
    obtain ⟨key, h⟩ := h
    exact ⟨sortDesc less l, rfl, sortDesc_perm less l, sortDesc_heap ⟨key, fun a ha b hb => h a (by simp [ha]) b (by simp [hb])⟩⟩
  push less q x h _ := ⟨sortDesc_perm less _, sortDesc_heap h⟩

/-- An environment with these functions. -/
def sortEnv : KdEnv := ⟨sortHeap, sortMerge, fun _ d => ((d.contents.head?).map fun x => x.poly.plane).getD ⟨⟨1, 0, 0⟩, 0⟩, ⟨false, false, 0⟩⟩

def axisOf (a b c : V3) : Fin 3 :=
  let n := (HS3.ofPoints a b c).n
  if n.y.natAbs ≤ n.x.natAbs && n.z.natAbs ≤ n.x.natAbs then 0 else if n.z.natAbs ≤ n.y.natAbs then 1 else 2

/-- The facets of a tetrahedron. -/
def fourFaces (a b c d : V3) : List (Polygon Unit) :=
  [triangle (axisOf a b c) a b c, triangle (axisOf a c d) a c d, triangle (axisOf a d b) a d b, triangle (axisOf b d c) b d c]

/-- The tree after adding the meshes with the ids 0, 1, … -/
def treeOf (ms : List (List (Polygon Unit))) : Option Node := (ms.zipIdx).foldlM (fun t m => t.addContents true m.2 m.1) (Node.leaf {})

/-- The sources of the meshes, the ids beginning with `k`. -/
def sourcesOf : Nat → List (List (Polygon Unit)) → List Source
  | _, [] => []
  | k, m :: ms => m.map (fun P => ⟨k, P⟩) ++ sourcesOf (k + 1) ms

theorem treeOf_api_aux : ∀ (ms : List (List (Polygon Unit))) (k : Nat) {t t' : Node} {S : List Source}, Api true t S → (∀ m ∈ ms, ∀ P ∈ m, IsConvexPolygon P) →
    (ms.zipIdx k).foldlM (fun t m => t.addContents true m.2 m.1) t = some t' → Api true t' (S ++ sourcesOf k ms) := by
  intro ms
  induction ms with
  | nil =>
    intro k t t' S h _ ht
    cases ht
    simpa [sourcesOf] using h
  | cons m ms ih =>
    intro k t t' S h hm ht
    rw [List.zipIdx_cons, List.foldlM_cons] at ht
    obtain ⟨t1, h1, h2⟩ := Option.bind_eq_some_iff.1 ht
    have := ih (k + 1) (h.add (hm m (by simp)) h1) (fun m' hm' => hm m' (by simp [hm'])) h2
    rwa [List.append_assoc] at this

theorem treeOf_api {ms : List (List (Polygon Unit))} {t : Node} (hm : ∀ m ∈ ms, ∀ P ∈ m, IsConvexPolygon P) (h : treeOf ms = some t) : Api true t (sourcesOf 0 ms) :=
  treeOf_api_aux ms 0 .empty hm h

theorem closed_append {a b : List (Polygon Unit)} (ha : Closed a) (hb : Closed b) : Closed (a ++ b) := by
  intro x y
  have e : meshSides (a ++ b) = meshSides a ++ meshSides b := by unfold meshSides; exact List.flatMap_append
  rw [e, List.count_append, List.count_append, ha x y, hb x y]

theorem sourcesOf_closed {ms : List (List (Polygon Unit))} (hm : ∀ m ∈ ms, Closed m) (id : Nat) : ∀ k, Closed (meshOf (sourcesOf k ms) id) := by
  induction ms with
  | nil => exact fun _ _ _ => rfl
  | cons m ms ih =>
    intro k
    have e : meshOf (sourcesOf k (m :: ms)) id = (if k = id then m else []) ++ meshOf (sourcesOf (k + 1) ms) id := by
      unfold meshOf
      rw [sourcesOf, List.filter_append, List.map_append]
      congr 1
      clear hm ih
      induction m with
      | nil => simp
      | cons P m ihm =>
        rw [List.map_cons, List.filter_cons]
        by_cases hk : k = id
        · subst hk
          simp only [beq_self_eq_true, if_true, List.map_cons] at ihm ⊢
          rw [ihm]
        · simp only [beq_iff_eq, hk, if_false] at ihm ⊢
          exact ihm
    rw [e]
    refine closed_append ?_ (ih (fun m' hm' => hm m' (by simp [hm'])) _)
    split
    · exact hm m (by simp)
    · exact fun _ _ => rfl

theorem fourFaces_convex {a b c d : V3} (h : [(a, b, c), (a, c, d), (a, d, b), (b, d, c)].all (fun x => decide ((HS3.ofPoints x.1 x.2.1 x.2.2).n.comp (axisOf x.1 x.2.1 x.2.2) ≠ 0)) = true) :
    ∀ P ∈ fourFaces a b c d, IsConvexPolygon P := by
  simp only [List.all_cons, List.all_nil, Bool.and_eq_true, decide_eq_true_eq, and_true] at h
  simp only [fourFaces, List.mem_cons, List.not_mem_nil, or_false, forall_eq_or_imp, forall_eq]
  exact ⟨triangle_convex _ _ _ _ h.1, triangle_convex _ _ _ _ h.2.1, triangle_convex _ _ _ _ h.2.2.1, triangle_convex _ _ _ _ h.2.2.2⟩

/-- Two tetrahedra. -/
def kdMeshes : List (List (Polygon Unit)) :=
  [fourFaces ⟨3, 1, 5⟩ ⟨2, 0, 2⟩ ⟨5, 4, 5⟩ ⟨3, 3, 4⟩, fourFaces ⟨4, 5, 0⟩ ⟨5, 3, 5⟩ ⟨0, 3, 2⟩ ⟨0, 3, 5⟩]

/-- Three tetrahedra. -/
def tiesMeshes : List (List (Polygon Unit)) :=
  [fourFaces ⟨0, 0, 3⟩ ⟨2, 0, 1⟩ ⟨1, 3, 3⟩ ⟨3, 3, 0⟩, fourFaces ⟨3, 2, 3⟩ ⟨1, 2, 3⟩ ⟨1, 1, 3⟩ ⟨1, 2, 0⟩, fourFaces ⟨3, 1, 0⟩ ⟨0, 0, 1⟩ ⟨1, 1, 1⟩ ⟨0, 0, 2⟩]

theorem kdMeshes_ok : ∀ m ∈ kdMeshes, Closed m ∧ ∀ P ∈ m, IsConvexPolygon P := by
  simp only [kdMeshes, List.mem_cons, List.not_mem_nil, or_false, forall_eq_or_imp, forall_eq]
  exact ⟨⟨closed_of_perm (by decide +kernel), fourFaces_convex (by decide)⟩, closed_of_perm (by decide +kernel), fourFaces_convex (by decide)⟩

theorem tiesMeshes_ok : ∀ m ∈ tiesMeshes, Closed m ∧ ∀ P ∈ m, IsConvexPolygon P := by
  simp only [tiesMeshes, List.mem_cons, List.not_mem_nil, or_false, forall_eq_or_imp, forall_eq]
  exact ⟨⟨closed_of_perm (by decide +kernel), fourFaces_convex (by decide)⟩, ⟨closed_of_perm (by decide +kernel), fourFaces_convex (by decide)⟩,
    closed_of_perm (by decide +kernel), fourFaces_convex (by decide)⟩

/-! ### C82 -/

/-- C82 (disagreement): the default strategy cannot split a leaf with the eight facets of two tetrahedra, although the functions of
the standard library behave as specified.  After the split at y = 3 `ApplySecondary` skips the event points of the facet in that
plane.  If one of them is the first at its location, and events of the heap come first, the next iteration starts with the
second event of the location, and an assertion fails. -/
theorem C82_assert_undefined : HeapOk sortEnv.heap ∧ MergeOk sortEnv.merge ∧ ∃ d S, Api true (.leaf d) S ∧ (∀ id, Closed (meshOf S id)) ∧ d.contents.length = 8 ∧
    ∀ fuel, defaultStrategy.split sortEnv fuel [] d = none := by
  refine ⟨sortHeap_ok, sortMerge_ok, ?_⟩
  have h : ((treeOf kdMeshes).map fun t => ((match t with | .leaf d => d.contents.length | .inner .. => 0), defaultStrategy.stuck sortEnv [] t.data 0 20 5)) = some (8, true) := by
    decide +kernel
  obtain ⟨t, ht, e⟩ := Option.map_eq_some_iff.1 h
  rw [Prod.mk.injEq] at e
  cases t with
  | inner => exact absurd e.1 (by simp)
  | leaf d => exact ⟨d, _, treeOf_api (fun m hm => (kdMeshes_ok m hm).2) ht, fun id => sourcesOf_closed (fun m hm => (kdMeshes_ok m hm).1) id 0, e.1, split_stuck e.2⟩

/-- C82 (disagreement): the default strategy splits the twelve facets of three tetrahedra, but cannot split the positive child.
`ApplySecondary` puts the start of a divided polygon before the events of a polygon that is perpendicular to the axis at the same
location.  The latter's plane is chosen for the next split, and the former is counted as if it were in that plane. -/
theorem C82_ties_undefined : HeapOk sortEnv.heap ∧ MergeOk sortEnv.merge ∧ ∃ d S d' g n p s s', Api true (.leaf d) S ∧ (∀ id, Closed (meshOf S id)) ∧
    defaultStrategy.split sortEnv 50 [] d = some (.inner d' g n (.leaf p), s, s') ∧ p.contents.length = 8 ∧
    ∀ fuel, s'.split sortEnv fuel [true] p = none := by
  refine ⟨sortHeap_ok, sortMerge_ok, ?_⟩
  have h : ((treeOf tiesMeshes).map fun t => ((match t with | .leaf _ => true | .inner .. => false), match defaultStrategy.split sortEnv 50 [] t.data with
      | some (.inner _ _ _ (.leaf p), _, s) => (p.contents.length, match s.plan sortEnv p with
        | some (.kd _ dim part ev) =>
          (kdSplit dim part [true] p (ev dim) (List.replicate (part.neg * 2) sortEnv.junk) (List.replicate p.contents.length 0)).isNone
        | _ => false)
      | _ => (0, false))) = some (true, 8, true) := by
    decide +kernel
  obtain ⟨t, ht, e⟩ := Option.map_eq_some_iff.1 h
  rw [Prod.mk.injEq] at e
  cases t with
  | inner => exact absurd e.1 (by simp)
  | leaf d =>
    have e2 := e.2
    split at e2
    · rename_i d' g n p s s' hs
      rw [Prod.mk.injEq] at e2
      refine ⟨d, _, d', g, n, p, s, s', treeOf_api (fun m hm => (tiesMeshes_ok m hm).2) ht, fun id => sourcesOf_closed (fun m hm => (tiesMeshes_ok m hm).1) id 0, hs, e2.1, ?_⟩
      intro fuel
      have e3 := e2.2
      unfold Strategy.split
      split at e3
      · rename_i hp
        simp only [hp]
        rw [Option.isNone_iff_eq_none] at e3
        rw [e3]
      · cases e3
    · cases e2

/-! ### A successful split -/

/-- The event points of the strategy are absent, or they are those of the polygons. -/
def FreshEvents (Z : Strategy) (l : List BPoly) : Prop :=
  ∀ ev, Z.events = some ev → ev 0 = [] ∨ ∀ i xs, extents i l = some xs → ∃ s t loc, EventsOk i xs (ev i) s t loc

theorem three_some {α : Type} {f : Fin 3 → Option α} {r : Fin 3 → α} (h : three f = some r) (i : Fin 3) : f i = some (r i) := by
  unfold three at h
  split at h
  · rename_i a b c ha hb hc
    cases h
    obtain rfl | rfl | rfl := fin3 i
    · exact ha
    · exact hb
    · exact hc
  · cases h

theorem extents_ids {dim : Fin 3} (f : Nat → Bool) : ∀ {l : List BPoly} {xs : List EPoly}, extents dim l = some xs →
    (xs.countP fun q => f q.id) = l.countP fun p => f p.id
  | [], xs, h => by cases h; rfl
  | p :: l, xs, h => by
    unfold extents at h
    rw [List.mapM_cons] at h
    obtain ⟨x, hx, h⟩ := Option.bind_eq_some_iff.1 h
    obtain ⟨y, hy, h⟩ := Option.bind_eq_some_iff.1 h
    cases h
    obtain ⟨T, -, e, -, -⟩ := extent_spec hx
    rw [List.countP_cons, List.countP_cons, extents_ids f hy, e]

theorem extents_ok {anc : Anc} {dim : Fin 3} {l : List BPoly} {xs : List EPoly} (hc : ∀ p ∈ l, ContentOK anc p) (h : extents dim l = some xs) : Extents dim xs := by
  intro x hx
  obtain ⟨j, hj, rfl⟩ := List.getElem_of_mem hx
  have hlen := extents_length h
  have hp : l[j]? = some l[j] := List.getElem?_eq_getElem (by omega)
  obtain ⟨y, y1, y2⟩ := extents_get h hp
  rw [List.getElem?_eq_getElem hj] at y1
  cases y1
  have hco := hc _ (List.mem_of_getElem? hp)
  unfold BPoly.extent at y2
  split at y2
  · cases y2
  · rename_i T hT
    split at y2
    · rename_i a b ha hb
      rw [Option.some.injEq] at y2
      rw [← y2]
      have ht := hco.tracker T hT
      have ea : l[j].poly.vertexD (T.lo dim) = a.vertex := by unfold Polygon.vertexD; simp [ha]
      have eb : l[j].poly.vertexD (T.hi dim) = b.vertex := by unfold Polygon.vertexD; simp [hb]
      refine ⟨?_, ?_, ?_⟩
      · rw [← ea]; exact hco.convex.finite _ (ht.loLt dim)
      · rw [← eb]; exact hco.convex.finite _ (ht.hiLt dim)
      · have := ht.loMin dim _ (ht.hiLt dim)
        unfold Polygon.pt at this
        rw [ea, eb] at this
        exact this
    · cases y2

theorem excluded_count {d : NodeData} (hd : Counted d) {dim : Fin 3} {xs : List EPoly} (h : extents dim d.contents = some xs) :
    (costExclude (d.info.map fun i => i.interior)).2 = xs.countP fun q => decide (some q.id = (costExclude (d.info.map fun i => i.interior)).1) := by
  obtain ⟨h1, h2⟩ := C43_exclude (d.info.map fun i => i.interior)
  by_cases hc : 2 ≤ (d.info.map fun i => i.interior).countP fun c => decide (c ≠ 0)
  · obtain ⟨id, c, e, g, -⟩ := h1 hc
    rw [e]
    simp only [Option.some.injEq]
    rw [extents_ids (fun x => decide (x = id)) h]
    have := (hd id).1
    unfold NodeData.infoFor at this
    rw [List.getElem?_map] at g
    obtain ⟨i, g1, rfl⟩ := Option.map_eq_some_iff.1 g
    rw [List.getD_eq_getElem?_getD, g1, Option.getD_some] at this
    rw [this]
    congr 1
  · rw [h2 (by omega)]
    simp

theorem reorders_refl (t : Node) : t.Reorders t := by
  induction t with
  | leaf d => exact .refl d
  | inner d g n p ihn ihp => exact ⟨.refl d, rfl, ihn, ihp⟩

theorem bestPartition_spec {d : NodeData} {ev : Fin 3 → List EP} {b : EPart × Fin 3} (h : bestPartition d ev = some b) :
    ∃ xs, extents b.2 d.contents = some xs ∧
      lowestCost (costExclude (d.info.map fun i => i.interior)).1 (costExclude (d.info.map fun i => i.interior)).2 xs (ev b.2) = some b.1 := by
  unfold bestPartition at h
  simp only at h
  split at h
  · cases h
  rename_i c hc
  have key : ∀ i, ∃ xs, extents i d.contents = some xs ∧
      lowestCost (costExclude (d.info.map fun i => i.interior)).1 (costExclude (d.info.map fun i => i.interior)).2 xs (ev i) = some (c i) := by
    intro i
    exact Option.bind_eq_some_iff.1 (three_some hc i)
  rw [← Option.some.inj h]
  by_cases h1 : (c 1).cost.toNat < (c 0).cost.toNat
  · rw [if_pos h1]
    by_cases h2 : (c 2).cost.toNat < (c 1).cost.toNat
    · rw [if_pos h2]; exact key 2
    · rw [if_neg h2]; exact key 1
  · rw [if_neg h1]
    by_cases h2 : (c 2).cost.toNat < (c 0).cost.toNat
    · rw [if_pos h2]; exact key 2
    · rw [if_neg h2]; exact key 0

theorem split_same {anc : Anc} {path : List Bool} {d : NodeData} (hc : ∀ p ∈ d.contents, ContentOK anc p) (hcount : Counted d) {E : KdEnv} (hE : HeapOk E.heap) {Z : Strategy}
    (hZ : ∀ bound dim part ev, Z.plan E d = some (.kd bound dim part ev) → d.contents.length < 2 ^ 56 ∧ FreshEvents Z d.contents) {fuel : Nat} {t' : Node} {Z1 Z2 : Strategy}
    (hs : Z.split E fuel path d = some (t', Z1, Z2)) : ∃ g t0, split path d g = some t0 ∧ t'.Reorders t0 := by
  unfold Strategy.split at hs
  split at hs
  · cases hs
  · obtain ⟨t0, e1, e2⟩ := Option.map_eq_some_iff.1 hs
    rw [Prod.mk.injEq] at e2
    exact ⟨_, t0, e1, by rw [e2.1]; exact reorders_refl _⟩
  rename_i bound dim part ev hplan
  obtain ⟨hn, hZ⟩ := hZ _ _ _ _ hplan
  split at hs
  · rename_i d' g n p st hk
    split at hs
    · cases hs
    rw [Option.some.injEq, Prod.mk.injEq] at hs
    rw [← hs.1]
    unfold Strategy.plan at hplan
    split at hplan
    · cases hplan
    split at hplan
    · cases hplan
    rename_i hb
    split at hplan
    · cases hplan
    rename_i ev' hev
    split at hplan
    · rename_i b cutoff hbest _
      split at hplan
      · cases hplan
      rename_i part' hdis
      split_ifs at hplan
      · cases hplan
      rw [Option.some.injEq, Plan.kd.injEq] at hplan
      obtain ⟨rfl, rfl, rfl, rfl⟩ := hplan
      obtain ⟨xs, hx, hlow⟩ := bestPartition_spec hbest
      have hlen := extents_length hx
      have hne : xs ≠ [] := by rintro rfl; simp at hlen; omega
      have hextents := extents_ok hc hx
      have hEv : ∃ s t loc, EventsOk b.2 xs (ev' b.2) s t loc := by
        have init : initEvents E d = some ev' → ∃ s t loc, EventsOk b.2 xs (ev' b.2) s t loc := by
          intro hi
          unfold initEvents at hi
          have := three_some hi b.2
          rw [hx, Option.bind_some] at this
          obtain ⟨ev2, s, t, loc, e1, e2⟩ := C44 hE hextents (mem := List.replicate (d.contents.length * 2) E.junk) (by simp; omega)
          rw [e1] at this
          cases this
          exact ⟨s, t, loc, e2⟩
        split at hev
        · exact init hev
        · rename_i ev3 hz
          split_ifs at hev with he
          · exact init hev
          · cases hev
            rcases hZ _ hz with h0 | h0
            · rw [h0] at he; exact absurd rfl he
            · exact h0 _ _ hx
      obtain ⟨s, t, loc, hEv⟩ := hEv
      obtain ⟨r, r1, r2⟩ := C43 hEv (by omega) hne (excluded_count hcount hx)
      rw [hlow] at r1
      obtain rfl := Option.some.inj r1
      obtain ⟨r', q1, q2, q3⟩ := C43_discount hEv r2
      rw [hlen, hdis] at q1
      obtain rfl := Option.some.inj q1
      have hsp : part'.split = b.1.split := by rw [q3]
      obtain ⟨H, p1, p2⟩ := C43_plane hEv hextents r2
      have hpl : eventPlane b.2 xs (ev' b.2) part' = eventPlane b.2 xs (ev' b.2) b.1 := by unfold eventPlane; rw [hsp]
      obtain ⟨g0, t0, _, g2, g3⟩ := kdSplit_reorders hc hx hEv.toSorted q2 (fun g hg => by
        rw [hpl, p1] at hg
        cases hg
        exact ⟨fun q => (p2 q).1, fun q => (p2 q).2⟩) hk
      exact ⟨g0, t0, g2, g3⟩
    · cases hplan
  · cases hs

/-- **C82**, as far as it holds: if the strategy of a traversal splits a leaf, then the children have the same polygons and
information as those of the ordinary split at some plane, but the order of the polygons may be different.  The event points of
the strategy must be absent, as in the first split of a traversal, or be those of the leaf's polygons.  Missing: the event points
that `ApplySecondary` gives to the children need not be such, see `C82_ties_undefined`. -/
theorem C82_same_partial {aabb : Bool} {t : Node} {S : List Source} (h : Reach aabb t S) {path : List Bool} {d : NodeData} (hl : t.leafAt path = some d)
    (hn : d.contents.length < 2 ^ 56) {E : KdEnv} (hE : HeapOk E.heap) {Z : Strategy} (hZ : FreshEvents Z d.contents) {fuel : Nat} {t' : Node} {Z1 Z2 : Strategy}
    (hs : Z.split E fuel path d = some (t', Z1, Z2)) : ∃ g t0, split path d g = some t0 ∧ t'.Reorders t0 := by
  obtain ⟨anc, hd, -⟩ := leaf_ok h hl
  obtain ⟨hc, -, hcount⟩ := hd
  exact split_same hc hcount hE (fun _ _ _ _ _ => ⟨hn, hZ⟩) hs

/-- The hypotheses hold for the leaf of `C82_ties_undefined`, which the default strategy divides along an axis. -/
example : ∃ t S d t' Z1 Z2, Reach true t S ∧ t.leafAt [] = some d ∧ d.contents.length = 12 ∧ HeapOk sortEnv.heap ∧ FreshEvents defaultStrategy d.contents ∧
    defaultStrategy.split sortEnv 50 [] d = some (t', Z1, Z2) ∧ ∃ bound dim part ev, defaultStrategy.plan sortEnv d = some (.kd bound dim part ev) := by
  have h : ((treeOf tiesMeshes).map fun t => ((match t with | .leaf d => d.contents.length | .inner .. => 0), (defaultStrategy.split sortEnv 50 [] t.data).isSome,
      match defaultStrategy.plan sortEnv t.data with | some (.kd ..) => true | _ => false)) = some (12, true, true) := by
    decide +kernel
  obtain ⟨t, ht, e⟩ := Option.map_eq_some_iff.1 h
  rw [Prod.mk.injEq, Prod.mk.injEq] at e
  cases t with
  | inner => exact absurd e.1 (by simp)
  | leaf d =>
    obtain ⟨⟨t', Z1, Z2⟩, hs⟩ := Option.isSome_iff_exists.1 e.2.1
    refine ⟨_, _, d, t', Z1, Z2, (treeOf_api (fun m hm => (tiesMeshes_ok m hm).2) ht).spec.1, rfl, e.1, sortHeap_ok, fun ev h => (by cases h), hs, ?_⟩
    have e3 := e.2.2
    split at e3
    · rename_i bound dim part ev hp; exact ⟨bound, dim, part, ev, hp⟩
    · cases e3

end Walnut.Props
