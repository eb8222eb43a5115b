/-
C79: the facets that a boolean operation on closed meshes produces are connected without errors.
-/
import Verif.Conn.CallsRun

namespace Walnut.Props
open Walnut.Geom Walnut.Poly Walnut.Bsp
open Walnut.Conn (Net SortOk HeapOk SortFn HeapFns connectCall connectCalls edgeIds edgeNum netOf insertionSort sortHeap insertionSort_ok sortHeap_ok)

/-- C79: a boolean operation on closed meshes.  The connector calls made during the traversal are
all defined and report no error; afterwards every half-edge of every facet has a partner, which
is another half-edge between the same two points in the opposite direction.  The facets are those
that the traversal emits, with more vertices strictly inside their edges.

Partial: the merging of facets between the calls (connecting_visitor.h 194-214) is left out, and
no normal has a component `2^63` or `-2^63`. -/
theorem C79_connected_partial {aabb : Bool} {d : NodeData} {S : List Source} (h : Reach aabb (.leaf d) S) {t : Node} (ht : Splits d t) {f : Filter} (hf : NoParity f)
    (hk : ∀ id ∈ invertedIds f, id < d.info.length) {choose : Choose} {group : Group} (hg : Grouping group) {pfuel fuel : Nat} {t' : Node} {tr : List Visit}
    (hr : traverse f.eval choose group pfuel fuel t = some (t', tr)) (hc : ∀ id, Closed (meshOf S id)) (hord : ∀ Q ∈ output tr, Ordinary Q.plane.n)
    {T : SortFn} {o : HeapFns} (hT : SortOk T) (ho : HeapOk o) :
    ∃ s N', connRun tr {} = some s ∧ connectCalls T o (edgeNum (output tr)) s.calls (netOf (output tr)) = some (N', 0) ∧
      Refines (netOf (output tr)) N' ∧ ∀ e < N'.count, ∃ f, Paired N' e f := by
  obtain ⟨a1, a2, a3, a4⟩ := splits_spec h ht
  obtain ⟨_, s, hs', _, _⟩ := conn_final a1 a3 hg hr
  have hs := hs'.run
  have hcv := output_convex h ht hg hr
  obtain ⟨hnd, hall⟩ := edges_once a1 a3 hg hr hs
  have mem : ∀ j i, (j, i) ∈ edgeIds (output tr) ↔ ∃ c ∈ s.calls, ∃ z ∈ c.2, (z.poly, z.edge) = (j, i) := by
    intro j i
    rw [Conn.mem_edgeIds]
    have := hall j i
    rw [List.mem_flatMap] at this
    simp only [List.mem_map] at this
    rw [this]
    constructor
    · rintro ⟨P, hP, hi⟩
      unfold output at hP
      rw [List.getElem?_map] at hP
      obtain ⟨p, hp, rfl⟩ := Option.map_eq_some_iff.1 hP
      exact ⟨p, hp, hi⟩
    · rintro ⟨p, hp, hi⟩
      exact ⟨p.poly, output_get hp, hi⟩
  obtain ⟨N', run, _, href, hp⟩ := calls_run h ht hf hk hg hr hc hord hs hT ho (num := edgeNum (output tr)) (N0 := netOf (output tr))
    (fun c hc z hz c' hc' z' hz' e => Conn.edgeNum_inj ((mem _ _).2 ⟨c, hc, z, hz, rfl⟩) ((mem _ _).2 ⟨c', hc', z', hz', rfl⟩) e)
    s.calls (List.Sublist.refl _) (netOf (output tr)) (Conn.netOf_ok hcv)
    ⟨le_rfl, rfl, fun _ => List.Sublist.refl _, fun _ _ => ⟨rfl, rfl, rfl⟩, fun e g1 g2 => by omega⟩
    (by
      intro c hc z hz
      obtain ⟨P, hP, hi⟩ := Conn.mem_edgeIds.1 ((mem z.poly z.edge).2 ⟨c, hc, z, hz, rfl⟩)
      obtain ⟨e1, e2, e3, e4⟩ := Conn.netOf_edge hP hi
      refine ⟨⟨?_, e4, ?_, rfl⟩, e4, rfl⟩
      · have hP' := hP
        unfold output at hP'
        rw [List.getElem?_map] at hP'
        obtain ⟨p, hp, rfl⟩ := Option.map_eq_some_iff.1 hP'
        refine ⟨p, hp, hi, e1, Conn.netOf_target hP hi, e2, ?_⟩
        rw [e3]
        simp only [netOf, hP]
      · rw [e3, Conn.netOf_cycle hP, List.length_map, List.length_range]
        exact (hcv P (List.mem_of_getElem? hP)).three)
    (by
      intro e he
      right
      obtain ⟨j, i, hm, rfl⟩ := Conn.edgeNum_surj he
      obtain ⟨c, hc, z, hz, e⟩ := (mem j i).1 hm
      obtain ⟨rfl, rfl⟩ := Prod.mk.inj e
      exact ⟨c, hc, z, hz, rfl⟩)
  exact ⟨s, N', hs, run, href, hp⟩

set_option synthInstance.maxSize 1000 in
set_option synthInstance.maxHeartbeats 200000 in
/-- The hypotheses of C79 are met by a subtraction of touching solids, where connecting has to
add vertices to edges. -/
example : ∃ d S t' tr s N', Reach false (.leaf d) S ∧ Splits d (.leaf d) ∧ NoParity subFilter ∧ (∀ id ∈ invertedIds subFilter, id < d.info.length) ∧ Grouping groupByKey ∧
    traverse subFilter.eval chooseFirst groupByKey 20 20 (.leaf d) = some (t', tr) ∧ (∀ id, Closed (meshOf S id)) ∧ (∀ Q ∈ output tr, Ordinary Q.plane.n) ∧
    SortOk insertionSort ∧ HeapOk sortHeap ∧ connRun tr {} = some s ∧
    connectCalls insertionSort sortHeap (edgeNum (output tr)) s.calls (netOf (output tr)) = some (N', 0) ∧ (netOf (output tr)).count < N'.count := by
  have h : ((twice tetra innerTetra).bind fun t => (traverse subFilter.eval chooseFirst groupByKey 20 20 t).bind fun r => (connRun r.2 {}).bind fun s =>
      (connectCalls insertionSort sortHeap (edgeNum (output r.2)) s.calls (netOf (output r.2))).map fun N' =>
      ((match t with | .leaf d => (invertedIds subFilter).all fun id => id < d.info.length | .inner .. => false),
        (output r.2).all (fun Q => [0, 1, 2].all fun i => Q.plane.n.comp i ≠ 2 ^ 63 ∧ Q.plane.n.comp i ≠ -2 ^ 63),
        decide ((netOf (output r.2)).count < N'.1.count), N'.2)) = some (true, true, true, 0) := by decide +kernel
  obtain ⟨t, ht, h'⟩ := Option.bind_eq_some_iff.1 h
  obtain ⟨⟨t', tr⟩, hr, h'⟩ := Option.bind_eq_some_iff.1 h'
  obtain ⟨s, hs, h'⟩ := Option.bind_eq_some_iff.1 h'
  obtain ⟨⟨N', n⟩, hN, e⟩ := Option.map_eq_some_iff.1 h'
  simp only [Prod.mk.injEq] at e
  obtain ⟨e1, e2, e3, rfl⟩ := e
  cases t with
  | inner => exact absurd e1 (by simp)
  | leaf d =>
    have ha := twice_api tetra_convex innerTetra_convex ht
    refine ⟨d, _, t', tr, s, N', ha.spec.1, .leaf, ⟨trivial, trivial⟩, fun id hid => by simpa using List.all_eq_true.1 e1 id hid, groupByKey_ok, hr,
      meshOf_two tetra_closed (closed_of_perm (by decide +kernel)), ?_, insertionSort_ok, sortHeap_ok, hs, hN, of_decide_eq_true e3⟩
    intro Q hQ i
    have := List.all_eq_true.1 e2 Q hQ
    have := List.all_eq_true.1 this i (by fin_cases i <;> simp)
    exact of_decide_eq_true this

end Walnut.Props
