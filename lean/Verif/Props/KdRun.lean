/-
C82: traversals with the default strategy.

`kdTraverse` is the model of `BSPTraverser::Run` with its split strategy, `traverse` the one with ordinary splits at
arbitrary planes, for which the results of traversals are proved (C41, C71 to C80).
-/
import Verif.Bsp.KdSim
import Verif.Props.Vtk

namespace Walnut.Props
open Walnut.Geom Walnut.Poly Walnut.Bsp Walnut.Util Walnut.Vtk
open Walnut.Conn (SortOk SortFn HeapFns EntrySort EntrySortOk visitCalls facets edgeNum Mesh)

/-- **C82**, as far as it holds: a traversal with the k-d strategy makes exactly the calls of some traversal that only uses
ordinary splits, and its final tree is the same up to the order of the polygons.  All results about traversals therefore hold
for the k-d strategy.

Partial: the event points of the k-d splits must be those of the node's polygons.  This is always so for the first split
of a leaf, but `ApplySecondary` does not ensure it for the next ones, see `C82_ties_undefined`. -/
theorem C82_traverse_partial {aabb : Bool} {t : Node} {S : List Source} (h : Reach aabb t S) (hs : Bsp.Settled t) {v : IsInside} {E : KdEnv} (hE : Bsp.HeapOk E.heap)
    {group : Group} (hg : Grouping group) {pfuel kfuel fuel : Nat} {bound : Option Nat} (hev : EventsRight v E kfuel fuel ⟨bound, none⟩ t []) {t' : Node} {tr : List Visit}
    (hr : kdTraverse v E group pfuel kfuel fuel bound t = some (t', tr)) :
    ∃ choose group' t0, Grouping group' ∧ Bsp.traverse v choose group' pfuel fuel t = some (t0, tr) ∧ t'.Reorders t0 := by
  obtain ⟨t0, h1, h2⟩ := kdRun_sim (anc := []) (T := t') hE t h.spec.1 hs hev hr (by simp [Node.subAt])
  exact ⟨_, _, t0, ordersOf_ok _ hg, h1, h2⟩

/-- C82: no split of a leaf with at most as many polygons as the bound, and of its descendants, uses event points. -/
theorem C82_small {v : IsInside} {E : KdEnv} {kfuel fuel : Nat} {d : NodeData} {b : Nat} (h : d.contents.length ≤ b) (events : Option (Fin 3 → List EP)) (path : List Bool) :
    LeafRight v E kfuel fuel ⟨some b, events⟩ path d ∧ LeafRight v E kfuel fuel ⟨none, events⟩ path d := by
  have none_right : ∀ fuel events path d, LeafRight v E kfuel fuel ⟨none, events⟩ path d := by
    intro fuel
    induction fuel with
    | zero => intros; exact trivial
    | succ fuel ih =>
      intro events path d _ _
      refine ⟨fun bound dim part ev h => ?_, fun d' g n p Zn Zp h => ?_⟩
      · cases h
      · unfold Strategy.split at h
        rw [show Strategy.plan E ⟨none, events⟩ d = some .plain from rfl] at h
        obtain ⟨t, _, e⟩ := Option.map_eq_some_iff.1 h
        cases e
        exact ⟨ih _ _ _, ih _ _ _⟩
  refine ⟨?_, none_right _ _ _ _⟩
  cases fuel with
  | zero => exact trivial
  | succ fuel =>
    intro _ _
    have hp : Strategy.plan E ⟨some b, events⟩ d = some .plain := by
      unfold Strategy.plan
      exact if_pos h
    refine ⟨fun bound dim part ev h => ?_, fun d' g n p Zn Zp h => ?_⟩
    · rw [hp] at h; cases h
    · unfold Strategy.split at h
      rw [hp] at h
      obtain ⟨t, _, e⟩ := Option.map_eq_some_iff.1 h
      cases e
      exact ⟨none_right _ _ _ _, none_right _ _ _ _⟩

/-- C82: what a boolean operation returns if it is evaluated with the k-d strategy: a closed mesh of convex polygons that
bounds the set of the filter.

Partial: as `C82_traverse_partial` and `C80_result_partial`. -/
theorem C82_result_partial {aabb : Bool} {d : NodeData} {S : List Source} (h : Reach aabb (.leaf d) S) {t : Node} (ht : Splits d t) {f : Filter} (hf : NoParity f)
    (hk : ∀ id ∈ invertedIds f, id < d.info.length) {E : KdEnv} (hE : Bsp.HeapOk E.heap) {group : Group} (hg : Grouping group) {pfuel kfuel fuel : Nat} {bound : Option Nat}
    (hev : EventsRight f.eval E kfuel fuel ⟨bound, none⟩ t []) {t' : Node} {tr : List Visit}
    (hr : kdTraverse f.eval E group pfuel kfuel fuel bound t = some (t', tr)) (hc : ∀ id, Closed (meshOf S id)) (hord : ∀ Q ∈ output tr, Ordinary Q.plane.n)
    (hmin : ∀ Q ∈ output tr, ∀ e ∈ Q.edges, NoMin3 e.line.d) {T : SortFn} {o : HeapFns} {D : EntrySort} (hT : SortOk T) (ho : Conn.HeapOk o) (hD : EntrySortOk D) :
    ∃ s M, connRun tr {} = some s ∧ visitCalls T o D (edgeNum (output tr)) s.calls (facets (output tr)) = some (M, 0) ∧
      (∀ P ∈ M.remaining.map plain, IsConvexPolygon P) ∧ Closed (M.remaining.map plain) ∧
      ∀ q : Q3, (∀ s ∈ S, q ∉ s.poly.region) → (∀ P ∈ M.remaining.map plain, q ∉ P.region) → ∀ u, Transversal (M.remaining.map plain) q u →
        ∀ u' : ℕ → Q3, (∀ id, Transversal (meshOf S id) q (u' id)) →
          windingNumber (M.remaining.map plain) q u = one (Inside f fun id => windingNumber (meshOf S id) q (u' id)) - one (Inside f fun _ => 0) := by
  obtain ⟨h1, -, h3, -⟩ := splits_spec h ht
  obtain ⟨choose, group', t0, hg', hr', -⟩ := C82_traverse_partial h1 h3 hE hg hev hr
  exact C80_result_partial h ht hf hk hg' hr' hc hord hmin hT ho hD

/-- C83: the VTK filter, which uses the k-d strategy with the bound 6 on polygons that track their bounding boxes.

Partial: as `C83_filter_partial` and `C82_traverse_partial`. -/
theorem C83_kd_partial {minExponent : Int} {op : Operation} {inputs : List PolyData} {Ts : List (List Cell)}
    (hT : List.Forall₂ (CellData minExponent) inputs Ts) (hcl : ∀ T ∈ Ts, ClosedInput T) (hne : inputs ≠ []) (hdiff : op = .difference → ∀ T ∈ Ts, T ≠ [])
    {t : Node} (hadd : AddInputs true minExponent op 0 inputs (.leaf {}) t) {E : KdEnv} (hE : Bsp.HeapOk E.heap) {group : Group} (hg : Grouping group) {pfuel kfuel fuel : Nat}
    (hev : EventsRight (selectFilter op inputs.length) E kfuel fuel ⟨some 6, none⟩ t []) {t' : Node} {tr : List Visit}
    (hr : kdTraverse (selectFilter op inputs.length) E group pfuel kfuel fuel (some 6) t = some (t', tr)) (hord : ∀ Q ∈ output tr, Ordinary Q.plane.n)
    (hmin : ∀ Q ∈ output tr, ∀ e ∈ Q.edges, NoMin3 e.line.d) {T : SortFn} {o : HeapFns} {D : EntrySort} (hT' : SortOk T) (ho : Conn.HeapOk o) (hD : EntrySortOk D) :
    ∃ s M, connRun tr {} = some s ∧ visitCalls T o D (edgeNum (output tr)) s.calls (facets (output tr)) = some (M, 0) ∧
      Poly.Linked M.world ∧ NoOpenEdge M.world ∧ (∀ p, M.size ≤ p → (M.world.polys p).edges = []) ∧ (∀ P ∈ M.remaining.map plain, IsConvexPolygon P) ∧ Closed (M.remaining.map plain) ∧
      ∀ q : Q3, (∀ T ∈ Ts, ∀ t ∈ T, q ∉ t.region) → (∀ P ∈ M.remaining.map plain, q ∉ P.region) → ∀ u, Transversal (M.remaining.map plain) q u →
        ∀ u' : ℕ → Q3, (∀ i T, Ts[i]? = some T → Generic T q (u' i)) →
          windingNumber (M.remaining.map plain) q u = one (InResult op inputs.length fun i => 0 < cellWinding (Ts.getD i []) q (u' i)) := by
  obtain ⟨d, S, rfl, hR, -, -, -⟩ := inputs_spec hT hadd .empty (by simp)
  obtain ⟨choose, group', t0, hg', hr', -⟩ := C82_traverse_partial hR trivial hE hg hev hr
  exact C83_filter_partial hT hcl hne hdiff hg' ⟨_, hadd, hr'⟩ hord hmin hT' ho hD

/-- The first split of a leaf uses its own event points; if it leaves few polygons in the children, no later split uses
event points. -/
theorem right_of_first {v : IsInside} {E : KdEnv} {kfuel fuel : Nat} {d : NodeData} (hn : d.contents.length < 2 ^ 56)
    (h : (match defaultStrategy.split E kfuel [] d with
      | some (.inner _ _ (.leaf n) (.leaf p), Zn, Zp) => decide (n.contents.length ≤ 6 ∧ p.contents.length ≤ 6 ∧ Zn.bound = some 6 ∧ Zp.bound = some 6)
      | _ => false) = true) : EventsRight v E kfuel fuel ⟨some 6, none⟩ (.leaf d) [] := by
  show LeafRight v E kfuel fuel ⟨some 6, none⟩ [] d
  cases fuel with
  | zero => exact trivial
  | succ fuel =>
    intro _ _
    refine ⟨fun _ _ _ _ _ => ⟨hn, fun ev h => (by cases h)⟩, fun d' g n p Zn Zp hs => ?_⟩
    rw [show defaultStrategy.split E kfuel [] d = _ from hs] at h
    obtain ⟨h1, h2, h3, h4⟩ := of_decide_eq_true h
    obtain ⟨bn, en⟩ := Zn
    obtain ⟨bp, ep⟩ := Zp
    simp only at h3 h4
    subst h3 h4
    exact ⟨(C82_small h1 _ _).1, (C82_small h2 _ _).1⟩

set_option synthInstance.maxSize 1000 in
set_option synthInstance.maxHeartbeats 200000 in
/-- The hypotheses of `C83_kd_partial` are met by the difference of two tetrahedra.  The first split divides their eight facets
along an axis. -/
theorem kd_example : ∃ t t' tr, List.Forall₂ (CellData 0) [vtkTetra, vtkMoved] [cornerTris 0, cornerTris 1] ∧
    AddInputs true 0 .difference 0 [vtkTetra, vtkMoved] (.leaf {}) t ∧ Bsp.HeapOk sortEnv.heap ∧ EventsRight (selectFilter .difference 2) sortEnv 50 30 ⟨some 6, none⟩ t [] ∧
    kdTraverse (selectFilter .difference 2) sortEnv groupByKey 20 50 30 (some 6) t = some (t', tr) ∧ (∀ Q ∈ output tr, Ordinary Q.plane.n) ∧
    (∀ Q ∈ output tr, ∀ e ∈ Q.edges, NoMin3 e.line.d) ∧ output tr ≠ [] ∧
    ∃ bound dim part ev, defaultStrategy.plan sortEnv t.data = some (.kd bound dim part ev) := by
  have h : ((runInputs true 20 0 .difference 0 [vtkTetra, vtkMoved] (.leaf {})).bind fun t => (kdTraverse (selectFilter .difference 2) sortEnv groupByKey 20 50 30 (some 6) t).map fun r =>
      ((output r.2).all (fun Q => [0, 1, 2].all fun i => Q.plane.n.comp i ≠ 2 ^ 63 ∧ Q.plane.n.comp i ≠ -2 ^ 63),
        (output r.2).all (fun Q => Q.edges.all fun e => e.line.d.x ≠ -2 ^ 63 ∧ e.line.d.y ≠ -2 ^ 63 ∧ e.line.d.z ≠ -2 ^ 63),
        (output r.2).isEmpty, (match t with | .leaf d => d.contents.length | .inner .. => 0),
        (match defaultStrategy.plan sortEnv t.data with | some (.kd ..) => true | _ => false),
        match defaultStrategy.split sortEnv 50 [] t.data with
          | some (.inner _ _ (.leaf n) (.leaf p), Zn, Zp) => decide (n.contents.length ≤ 6 ∧ p.contents.length ≤ 6 ∧ Zn.bound = some 6 ∧ Zp.bound = some 6)
          | _ => false)) = some (true, true, false, 8, true, true) := by decide +kernel
  obtain ⟨t, ht, h'⟩ := Option.bind_eq_some_iff.1 h
  obtain ⟨⟨t', tr⟩, hr, e⟩ := Option.map_eq_some_iff.1 h'
  simp only [Prod.mk.injEq] at e
  obtain ⟨e2, e3, e4, e5, e6, e7⟩ := e
  cases t with
  | inner => cases e5
  | leaf d =>
    refine ⟨_, t', tr, .cons vtkTetra_data (.cons vtkMoved_data .nil), runInputs_sound _ ht, sortHeap_ok, right_of_first (by simp only at e5; omega) e7, hr, ?_, ?_, ?_, ?_⟩
    · intro Q hQ i
      have := List.all_eq_true.1 e2 Q hQ
      have := List.all_eq_true.1 this i (by fin_cases i <;> simp)
      exact of_decide_eq_true this
    · intro Q hQ e he
      have h3 : e.line.d.x ≠ -2 ^ 63 ∧ e.line.d.y ≠ -2 ^ 63 ∧ e.line.d.z ≠ -2 ^ 63 := of_decide_eq_true (List.all_eq_true.1 (List.all_eq_true.1 e3 Q hQ) e he)
      exact h3
    · intro e
      rw [e] at e4
      cases e4
    · split at e6
      · rename_i bound dim part ev hp; exact ⟨bound, dim, part, ev, hp⟩
      · cases e6

/-- Two tetrahedra that overlap. -/
def cornerMeshes : List (List (Polygon Unit)) :=
  [fourFaces ⟨0, 0, 0⟩ ⟨4, 0, 0⟩ ⟨0, 0, 4⟩ ⟨0, 4, 0⟩, fourFaces ⟨1, 0, 0⟩ ⟨5, 0, 0⟩ ⟨1, 0, 4⟩ ⟨1, 4, 0⟩]

theorem cornerMeshes_ok : ∀ m ∈ cornerMeshes, Closed m ∧ ∀ P ∈ m, IsConvexPolygon P := by
  simp only [cornerMeshes, List.mem_cons, List.not_mem_nil, or_false, forall_eq_or_imp, forall_eq]
  exact ⟨⟨closed_of_perm (by decide +kernel), fourFaces_convex (by decide)⟩, closed_of_perm (by decide +kernel), fourFaces_convex (by decide)⟩

set_option synthInstance.maxSize 1000 in
set_option synthInstance.maxHeartbeats 200000 in
/-- The hypotheses of `C82_traverse_partial` and `C82_result_partial` are met by the difference of these tetrahedra. -/
example : ∃ d S t' tr, Reach true (.leaf d) S ∧ (∀ id, Closed (meshOf S id)) ∧ Splits d (.leaf d) ∧ Bsp.Settled (.leaf d) ∧ NoParity subFilter ∧
    (∀ id ∈ invertedIds subFilter, id < d.info.length) ∧ Bsp.HeapOk sortEnv.heap ∧ Grouping groupByKey ∧
    EventsRight subFilter.eval sortEnv 50 30 ⟨some 6, none⟩ (.leaf d) [] ∧
    kdTraverse subFilter.eval sortEnv groupByKey 20 50 30 (some 6) (.leaf d) = some (t', tr) ∧ (∀ Q ∈ output tr, Ordinary Q.plane.n) ∧
    (∀ Q ∈ output tr, ∀ e ∈ Q.edges, NoMin3 e.line.d) ∧ output tr ≠ [] := by
  have h : ((treeOf cornerMeshes).bind fun t => (kdTraverse subFilter.eval sortEnv groupByKey 20 50 30 (some 6) t).map fun r =>
      ((output r.2).all (fun Q => [0, 1, 2].all fun i => Q.plane.n.comp i ≠ 2 ^ 63 ∧ Q.plane.n.comp i ≠ -2 ^ 63),
        (output r.2).all (fun Q => Q.edges.all fun e => e.line.d.x ≠ -2 ^ 63 ∧ e.line.d.y ≠ -2 ^ 63 ∧ e.line.d.z ≠ -2 ^ 63),
        (output r.2).isEmpty, (match t with | .leaf d => (d.contents.length, d.info.length) | .inner .. => (0, 0)),
        match defaultStrategy.split sortEnv 50 [] t.data with
          | some (.inner _ _ (.leaf n) (.leaf p), Zn, Zp) => decide (n.contents.length ≤ 6 ∧ p.contents.length ≤ 6 ∧ Zn.bound = some 6 ∧ Zp.bound = some 6)
          | _ => false)) = some (true, true, false, (8, 2), true) := by decide +kernel
  obtain ⟨t, ht, h'⟩ := Option.bind_eq_some_iff.1 h
  obtain ⟨⟨t', tr⟩, hr, e⟩ := Option.map_eq_some_iff.1 h'
  simp only [Prod.mk.injEq] at e
  obtain ⟨e2, e3, e4, e5, e7⟩ := e
  cases t with
  | inner => cases e5
  | leaf d =>
    obtain ⟨e5, e6⟩ := Prod.mk.inj e5
    refine ⟨d, _, t', tr, (treeOf_api (fun m hm => (cornerMeshes_ok m hm).2) ht).spec.1, fun id => sourcesOf_closed (fun m hm => (cornerMeshes_ok m hm).1) id 0, .leaf, trivial,
      ⟨trivial, trivial⟩, by rw [e6]; decide, sortHeap_ok, groupByKey_ok, right_of_first (by omega) e7, hr, ?_, ?_, ?_⟩
    · intro Q hQ i
      have := List.all_eq_true.1 e2 Q hQ
      have := List.all_eq_true.1 this i (by fin_cases i <;> simp)
      exact of_decide_eq_true this
    · intro Q hQ e he
      have h3 : e.line.d.x ≠ -2 ^ 63 ∧ e.line.d.y ≠ -2 ^ 63 ∧ e.line.d.z ≠ -2 ^ 63 := of_decide_eq_true (List.all_eq_true.1 (List.all_eq_true.1 e3 Q hQ) e he)
      exact h3
    · intro e
      rw [e] at e4
      cases e4

end Walnut.Props
