/-
C79: the facets that a boolean operation on closed meshes produces are connected and merged
without errors.
-/
import Verif.Conn.MeshStart
import Verif.Props.ConnectedOutput

namespace Walnut.Props
open Walnut.Geom Walnut.Poly Walnut.Bsp
open Walnut.Conn (Net SortOk HeapOk SortFn HeapFns EntrySort EntrySortOk visitCalls facets edgeIds edgeNum netOf Mesh Fit Round planOf insertionSort sortHeap entrySort insertionSort_ok sortHeap_ok entrySort_ok)

section
variable {aabb : Bool} {d : NodeData} {S : List Source} (h : Reach aabb (.leaf d) S) {t : Node} (ht : Splits d t) {f : Filter} (hf : NoParity f)
  (hk : ∀ id ∈ invertedIds f, id < d.info.length) {choose : Choose} {group : Group} (hg : Grouping group) {pfuel fuel : Nat} {t' : Node} {tr : List Visit}
  (hr : traverse f.eval choose group pfuel fuel t = some (t', tr)) (hc : ∀ id, Closed (meshOf S id)) (hord : ∀ Q ∈ output tr, Ordinary Q.plane.n)
  (hmin : ∀ Q ∈ output tr, ∀ e ∈ Q.edges, NoMin3 e.line.d) {s : ConnState} (hs : connRun tr {} = some s)
include h ht hf hk hg hr hc hord hmin hs

/-- The calls as rounds. -/
theorem rounds_of_calls : ∃ call under, (planOf (output tr) call under).Good ∧ Fit (output tr) ∧
    (∀ i c, s.calls[i]? = some c → Round (planOf (output tr) call under) (netOf (output tr)) (edgeNum (output tr)) c i) ∧
    ∀ z < (netOf (output tr)).count, call z < s.calls.length := by
  classical
  obtain ⟨a1, a2, a3, a4⟩ := splits_spec h ht
  obtain ⟨_, s', hs', _, _⟩ := conn_final a1 a3 hg hr
  have : s' = s := by have := hs'.run; rw [hs] at this; exact (Option.some.inj this).symm
  subst this
  have hcv := output_convex h ht hg hr
  have hfit : Fit (output tr) := ⟨hcv, hord, hmin⟩
  obtain ⟨hnd, hall⟩ := edges_once a1 a3 hg hr hs
  obtain ⟨sp, hsp⟩ := calls_spans a1 a3 hg hr hs
  have mem : ∀ j i, (j, i) ∈ edgeIds (output tr) ↔ ∃ c ∈ s'.calls, ∃ z ∈ c.2, (z.poly, z.edge) = (j, i) := by
    intro j i
    rw [Conn.mem_edgeIds]
    have := hall j i
    rw [List.mem_flatMap] at this
    simp only [List.mem_map] at this
    rw [this]
    constructor
    · rintro ⟨P, hP, hi⟩
      unfold output at hP
      rw [List.getElem?_map] at hP
      obtain ⟨p, hp, rfl⟩ := Option.map_eq_some_iff.1 hP
      exact ⟨p, hp, hi⟩
    · rintro ⟨p, hp, hi⟩
      exact ⟨p.poly, output_get hp, hi⟩
  let In : Nat → Nat → Prop := fun k z => ∃ c, s'.calls[k]? = some c ∧ ∃ w ∈ c.2, edgeNum (output tr) w.poly w.edge = z
  have inj : ∀ {c c' : PlaneRef × List Entry} {w w' : Entry}, c ∈ s'.calls → w ∈ c.2 → c' ∈ s'.calls → w' ∈ c'.2 →
      edgeNum (output tr) w.poly w.edge = edgeNum (output tr) w'.poly w'.edge → w.poly = w'.poly ∧ w.edge = w'.edge := by
    intro c c' w w' h1 h2 h3 h4 e
    exact Conn.edgeNum_inj ((mem _ _).2 ⟨c, h1, w, h2, rfl⟩) ((mem _ _).2 ⟨c', h3, w', h4, rfl⟩) e
  have uniq : ∀ k k' z, In k z → In k' z → k = k' := by
    rintro k k' z ⟨c, h1, w, h2, h3⟩ ⟨c', h1', w', h2', h3'⟩
    obtain ⟨q1, q2⟩ := inj (List.mem_of_getElem? h1) h2 (List.mem_of_getElem? h1') h2' (h3.trans h3'.symm)
    have hp := List.pairwise_iff_getElem.1 (List.nodup_flatMap.1 hnd).2
    have key : ∀ {k k' : Nat} {c c' : PlaneRef × List Entry} {w w' : Entry}, s'.calls[k]? = some c → s'.calls[k']? = some c' → w ∈ c.2 → w' ∈ c'.2 →
        w.poly = w'.poly → w.edge = w'.edge → ¬ k < k' := by
      intro k k' c c' w w' h1 h1' h2 h2' q1 q2 hlt
      obtain ⟨l1, e1⟩ := List.getElem?_eq_some_iff.1 h1
      obtain ⟨l2, e2⟩ := List.getElem?_eq_some_iff.1 h1'
      have := hp k k' l1 l2 hlt
      simp only [Function.onFun, e1, e2] at this
      exact this (List.mem_map_of_mem (f := fun z : Entry => (z.poly, z.edge)) h2) (by
        rw [q1, q2]
        exact List.mem_map_of_mem (f := fun z : Entry => (z.poly, z.edge)) h2')
    have n1 := key h1 h1' h2 h2' q1 q2
    have n2 := key h1' h1 h2' h2 q1.symm q2.symm
    omega
  have exist : ∀ z, ∃ k, z < (netOf (output tr)).count → In k z := by
    intro z
    by_cases hz : z < (netOf (output tr)).count
    · obtain ⟨j, i, hm, rfl⟩ := Conn.edgeNum_surj hz
      obtain ⟨c, hc, w, hw, e⟩ := (mem j i).1 hm
      obtain ⟨rfl, rfl⟩ := Prod.mk.inj e
      obtain ⟨k, hk⟩ := List.mem_iff_getElem?.1 hc
      exact ⟨k, fun _ => ⟨c, hk, w, hw, rfl⟩⟩
    · exact ⟨0, fun h => absurd h hz⟩
  choose call hcall using exist
  -- the entries as half-edges
  have entry : ∀ {k : Nat} {c : PlaneRef × List Entry} {w : Entry}, s'.calls[k]? = some c → w ∈ c.2 → ∃ p : BPoly, (accepted tr)[w.poly]? = some p ∧ (output tr)[w.poly]? = some p.poly ∧ w.edge < p.poly.count ∧
      edgeNum (output tr) w.poly w.edge < (netOf (output tr)).count ∧ (netOf (output tr)).poly (edgeNum (output tr) w.poly w.edge) = w.poly ∧
      ((netOf (output tr)).vertex (edgeNum (output tr) w.poly w.edge)).pt = p.poly.pt w.edge ∧
      ((netOf (output tr)).target (edgeNum (output tr) w.poly w.edge)).pt = p.poly.pt ((w.edge + 1) % p.poly.count) := by
    intro k c w h1 h2
    obtain ⟨P, hP, hi⟩ := Conn.mem_edgeIds.1 ((mem w.poly w.edge).2 ⟨c, List.mem_of_getElem? h1, w, h2, rfl⟩)
    obtain ⟨e1, e2, e3, e4⟩ := Conn.netOf_edge hP hi
    have hP' := hP
    unfold output at hP'
    rw [List.getElem?_map] at hP'
    obtain ⟨p, hp, rfl⟩ := Option.map_eq_some_iff.1 hP'
    exact ⟨p, hp, hP, hi, e4, e3, by rw [e1]; rfl, by rw [Conn.netOf_target hP hi]; rfl⟩
  have inPlane : ∀ {k : Nat} {c : PlaneRef × List Entry}, s'.calls[k]? = some c → ∀ z < (netOf (output tr)).count, call z = k →
      c.1.plane.side ((netOf (output tr)).vertex z).pt = 0 ∧ c.1.plane.side ((netOf (output tr)).target z).pt = 0 := by
    intro k c hkc z hz hzk
    obtain ⟨c', h1, w, h2, rfl⟩ := hcall z hz
    rw [hzk, hkc] at h1
    obtain rfl := Option.some.inj h1
    obtain ⟨p, p1, -, p2, -, -, p3, p4⟩ := entry hkc h2
    rw [p3, p4]
    exact call_plane a1 a3 hg hr hs c (List.mem_of_getElem? hkc) w h2 _ ⟨p, p1, p2, rfl⟩
  refine ⟨call, fun k i => ∃ q, sp[k]? = some q ∧ q.1 ≤ i ∧ i < q.2, ⟨?_, ?_, ?_⟩, hfit, ?_, ?_⟩
  -- inside
  · intro z hz
    obtain ⟨c, h1, w, h2, rfl⟩ := hcall z hz
    obtain ⟨p, p1, -, p2, p3, p4, -⟩ := entry h1 h2
    have hlt : call (edgeNum (output tr) w.poly w.edge) < sp.length := by rw [hsp.length]; exact (List.getElem?_eq_some_iff.1 h1).1
    have hq := List.getElem?_eq_getElem hlt
    refine ⟨_, hq, ?_⟩
    show _ ≤ (netOf (output tr)).poly _ ∧ (netOf (output tr)).poly _ < _
    rw [p4]
    exact hsp.inside _ c _ h1 hq w h2
  -- nested
  · rintro k k' i j hkk ⟨q, hq, i1, i2⟩ ⟨q', hq', i1', i2'⟩ ⟨q2, hq2, j1, j2⟩
    rw [hq] at hq2
    obtain rfl := Option.some.inj hq2
    rcases hkk.lt_or_eq with hlt | rfl
    · obtain ⟨l1, e1⟩ := List.getElem?_eq_some_iff.1 hq
      obtain ⟨l2, e2⟩ := List.getElem?_eq_some_iff.1 hq'
      have := List.pairwise_iff_getElem.1 hsp.nested k k' l1 l2 hlt
      rw [e1, e2] at this
      refine ⟨q', hq', ?_⟩
      omega
    · exact ⟨q, hq, j1, j2⟩
  -- last
  · rintro z hz z' hz' ⟨q, hq, i1, i2⟩ hal
    obtain ⟨c, h1, w, h2, e⟩ := hcall z hz
    obtain ⟨c', h1', w', h2', rfl⟩ := hcall z' hz'
    obtain ⟨p, p1, -, p2, p3, p4, p5, p6⟩ := entry h1' h2'
    obtain ⟨x, hx, hxe, -⟩ := hs'.planes c' (List.mem_of_getElem? h1') w' h2'
    obtain ⟨j, m1, m2, -⟩ := mem_tags hx
    have hxp : x.p = p := by
      have m2' : x.entry.poly = j := by rw [m2]; show 0 + j = j; omega
      rw [← m2', hxe, p1] at m1
      exact (Option.some.inj m1).symm
    have i1' : q.1 ≤ (netOf (output tr)).poly (edgeNum (output tr) w'.poly w'.edge) := i1
    have i2' : (netOf (output tr)).poly (edgeNum (output tr) w'.poly w'.edge) < q.2 := i2
    rw [p4] at i1' i2'
    refine hsp.last _ c q h1 hq x hx (by rw [hxe]; exact i1') (by rw [hxe]; exact i2') ?_ _ c' h1' (by rw [hxe]; exact h2')
    obtain ⟨s1, s2⟩ := inPlane h1 z hz rfl
    obtain ⟨_, _, _, _, _, _, _, _, _, _, _, g5, g6⟩ := Conn.planOf_edge hfit hz
    obtain ⟨_, _, _, _, _, _, _, _, _, _, _, g5', g6'⟩ := Conn.planOf_edge hfit hz'
    have hal' : Aligned ((netOf (output tr)).line z) ((netOf (output tr)).line (edgeNum (output tr) w'.poly w'.edge)) := hal
    have onp : ∀ A, OnLine ((netOf (output tr)).line z) A → c.1.plane.side A = 0 := by
      intro A hA
      unfold HS3.side dotQ at s1 s2 ⊢
      have := Conn.on_plane (n := c.1.plane.n) (c := c.1.plane.d) g5 g6 (by linarith) (by linarith) hA
      linarith
    unfold AtEdge
    rw [hxe, hxp, ← p5, ← p6]
    exact ⟨onp _ ((hal'.onLine _).2 g5'.onLine.1), onp _ ((hal'.onLine _).2 g5'.onLine.2)⟩
  -- rounds
  · intro k c hkc
    have hcm := List.mem_of_getElem? hkc
    have labels : ∀ x, (∃ z ∈ c.2, edgeNum (output tr) z.poly z.edge = x) ↔ x < (netOf (output tr)).count ∧ call x = k := by
      intro x
      constructor
      · rintro ⟨z, hz, rfl⟩
        obtain ⟨p, p1, -, p2, p3, -⟩ := entry hkc hz
        exact ⟨p3, uniq _ _ _ (hcall _ p3) ⟨c, hkc, z, hz, rfl⟩⟩
      · rintro ⟨h1, rfl⟩
        obtain ⟨c', e1, w, e2, e3⟩ := hcall x h1
        rw [hkc] at e1
        obtain rfl := Option.some.inj e1
        exact ⟨w, e2, e3⟩
    refine ⟨⟨?_, ?_⟩, labels, ?_, fun hne => call_normal a1 a3 hg hr hs c hcm hne, ?_⟩
    · intro z z1 z2
      have := (inPlane hkc z z1 z2).1
      unfold HS3.side dotQ at this
      show c.1.plane.n.q 0 * ((netOf (output tr)).vertex z).pt 0 + _ + _ = _
      unfold planOf
      dsimp only
      linarith
    · intro z z1 z2
      have := (inPlane hkc z z1 z2).2
      unfold HS3.side dotQ at this
      unfold planOf
      dsimp only
      linarith
    · have ndc : (c.2.map fun z => (z.poly, z.edge)).Nodup := (List.nodup_flatMap.1 hnd).1 c hcm
      refine List.Nodup.map_on ?_ (List.Nodup.of_map _ ndc)
      intro x hx y hy exy
      obtain ⟨q1, q2⟩ := inj hcm hx hcm hy exy
      exact List.inj_on_of_nodup_map ndc hx hy (by rw [q1, q2])
    · intro drop hdrop
      obtain ⟨R, Ord, hcl⟩ := call_closed h ht hf hk hg hr hc hord hs hcm (N := netOf (output tr)) (num := edgeNum (output tr)) (by
          intro z hz
          obtain ⟨p, p1, p1', p2, p3, p4, -⟩ := entry hkc hz
          obtain ⟨e1, e2, e3, e4⟩ := Conn.netOf_edge p1' p2
          refine ⟨⟨p, p1, p2, e1, Conn.netOf_target p1' p2, e2, ?_⟩, p3, ?_, rfl⟩
          · rw [e3]; simp only [netOf, p1']
          · rw [e3, Conn.netOf_cycle p1', List.length_map, List.length_range]
            exact (hcv _ (List.mem_of_getElem? p1')).three)
        (fun z hz z' hz' e => inj hcm hz hcm hz' e) (Conn.netOf_ok hcv) hdrop (List.Perm.refl _)
      have hm : ∀ x, some x ∈ c.2.map (fun z => some (edgeNum (output tr) z.poly z.edge)) ↔ x < (netOf (output tr)).count ∧ call x = k := by
        intro x
        rw [← labels x, List.mem_map]
        simp only [Option.some.injEq]
      refine ⟨R, Ord, fun e e1 e2 => ?_⟩
      obtain ⟨r1, r2⟩ := hcl e ((hm e).2 ⟨e1, e2⟩)
      exact ⟨fun x => by rw [r1 x, hm x]; rfl, r2⟩
  · intro z hz
    obtain ⟨c, h1, -⟩ := hcall z hz
    exact (List.getElem?_eq_some_iff.1 h1).1
end

/-- C79: a boolean operation on closed meshes, with the merging of facets.  The calls made during
the traversal, which connect half-edges and merge facets, are all defined and report no error.
Afterwards the facets are convex polygons linked to each other: every half-edge has a partner, which
is a half-edge that runs between the same two points in the opposite direction and has the first
one as its partner.  Each facet covers what those of the emitted polygons that became
part of it covered, and faces in the same direction as these; each emitted polygon became part of
a facet.  What remains after the polygons without edges are removed is convex, and covers what the
emitted polygons covered.

Partial: no normal has a component `2^63` or `-2^63`, and the direction of no edge has a component `-2^63`. -/
theorem C79_merged_partial {aabb : Bool} {d : NodeData} {S : List Source} (h : Reach aabb (.leaf d) S) {t : Node} (ht : Splits d t) {f : Filter} (hf : NoParity f)
    (hk : ∀ id ∈ invertedIds f, id < d.info.length) {choose : Choose} {group : Group} (hg : Grouping group) {pfuel fuel : Nat} {t' : Node} {tr : List Visit}
    (hr : traverse f.eval choose group pfuel fuel t = some (t', tr)) (hc : ∀ id, Closed (meshOf S id)) (hord : ∀ Q ∈ output tr, Ordinary Q.plane.n)
    (hmin : ∀ Q ∈ output tr, ∀ e ∈ Q.edges, NoMin3 e.line.d) {T : SortFn} {o : HeapFns} {D : EntrySort} (hT : SortOk T) (ho : HeapOk o) (hD : EntrySortOk D) :
    ∃ s M', ∃ g : Nat → Nat, connRun tr {} = some s ∧ visitCalls T o D (edgeNum (output tr)) s.calls (facets (output tr)) = some (M', 0) ∧
      Linked M'.world ∧ NoOpenEdge M'.world ∧ M'.size = (output tr).length ∧ (∀ p, M'.size ≤ p → (M'.world.polys p).edges = []) ∧
      (∀ p, (M'.world.polys p).region = ⋃ j : Nat, ⋃ P ∈ {P : Polygon EdgeInfo | (output tr)[j]? = some P ∧ g j = p}, P.region) ∧
      (∀ (j : Nat) P, (output tr)[j]? = some P → SameDir3 (M'.world.polys (g j)).plane.n P.plane.n) ∧
      (∀ P ∈ M'.remaining, IsConvexPolygon P) ∧ (⋃ P ∈ M'.remaining, P.region) = ⋃ P ∈ output tr, P.region := by
  obtain ⟨a1, a2, a3, a4⟩ := splits_spec h ht
  obtain ⟨_, s, hs', _, _⟩ := conn_final a1 a3 hg hr
  have hs := hs'.run
  obtain ⟨call, under, hX, hfit, hround, hlt⟩ := rounds_of_calls h ht hf hk hg hr hc hord hmin hs
  obtain ⟨M', run, good, size, G, org, lab, hI⟩ := Conn.visit_rounds (T := T) (o := o) (D := D) (m := 0) hX (Conn.planOf_origin hfit call under) hT ho hD s.calls
    (fun i c hc => by rw [Nat.zero_add]; exact hround i c hc) (Conn.planOf_inv hfit call under) (Conn.facets_good hfit) le_rfl
  have hreg : ∀ p, (M'.world.polys p).region = ⋃ j : Nat, ⋃ P ∈ {P : Polygon EdgeInfo | (output tr)[j]? = some P ∧ G j = p}, P.region := by
    intro p
    rw [hI.groups.regions p]
    ext z
    simp only [Set.mem_iUnion, Set.mem_setOf_eq, exists_prop]
    constructor
    · rintro ⟨q, hq, hz⟩
      by_cases hl : q < (output tr).length
      · refine ⟨q, (output tr)[q], ⟨List.getElem?_eq_getElem hl, hq⟩, ?_⟩
        rwa [Conn.facets_region (List.getElem?_eq_getElem hl)] at hz
      · rw [Conn.facets_none (not_lt.1 hl), region_empty rfl] at hz
        cases hz
    · rintro ⟨j, P, ⟨hP, hj⟩, hz⟩
      exact ⟨j, hj, by rw [Conn.facets_region hP]; exact hz⟩
  have hrem : ∀ P, P ∈ M'.remaining ↔ ∃ p, M'.world.polys p = P ∧ P.edges ≠ [] := by
    intro P
    unfold Mesh.remaining Polygon.count
    simp only [List.mem_filter, List.mem_map, List.mem_range, ne_eq, List.length_eq_zero_iff, decide_eq_true_eq]
    constructor
    · rintro ⟨⟨p, -, hp⟩, hne⟩; exact ⟨p, hp, hne⟩
    · rintro ⟨p, hp, hne⟩
      refine ⟨⟨p, ?_, hp⟩, hne⟩
      by_contra hlt
      rw [← hp] at hne
      exact hne (good.empty p (not_lt.1 hlt))
  refine ⟨s, M', G, hs, run, hI.linked, ?_, size, good.empty, hreg, ?_, ?_, ?_⟩
  · intro p x A B hx hn
    obtain ⟨e, he, rfl, -⟩ := Plan.edge_of_half hx
    obtain ⟨o1, -, -, o4, -⟩ := hI.orgs p e he
    have h1 := o4.1 hn
    have h2 : call (org e.data) < s.calls.length := hlt _ o1
    have h3 : 0 + s.calls.length ≤ call (org e.data) := h1
    omega
  · intro j P hP
    have := hI.groups.normals j
    rwa [Conn.facets_poly hP] at this
  · intro P hP
    obtain ⟨p, rfl, hne⟩ := (hrem P).1 hP
    exact (hI.linked.convex p).resolve_left hne
  · ext z
    simp only [Set.mem_iUnion, exists_prop]
    constructor
    · rintro ⟨P, hP, hz⟩
      obtain ⟨p, rfl, -⟩ := (hrem P).1 hP
      rw [hreg] at hz
      simp only [Set.mem_iUnion, Set.mem_setOf_eq, exists_prop] at hz
      obtain ⟨j, P, ⟨hj, -⟩, hz⟩ := hz
      exact ⟨P, List.mem_of_getElem? hj, hz⟩
    · rintro ⟨P, hP, hz⟩
      obtain ⟨j, hj⟩ := List.mem_iff_getElem?.1 hP
      have hz' : z ∈ (M'.world.polys (G j)).region := by
        rw [hreg]
        simp only [Set.mem_iUnion, Set.mem_setOf_eq, exists_prop]
        exact ⟨j, P, ⟨hj, rfl⟩, hz⟩
      refine ⟨_, (hrem _).2 ⟨G j, rfl, ?_⟩, hz'⟩
      intro h0
      rw [region_empty h0] at hz'
      cases hz'

set_option synthInstance.maxSize 1000 in
set_option synthInstance.maxHeartbeats 200000 in
/-- The hypotheses of `C79_merged_partial` are met by a subtraction of touching solids. -/
theorem merged_example : ∃ d S t' tr, Reach false (.leaf d) S ∧ Splits d (.leaf d) ∧ NoParity subFilter ∧ (∀ id ∈ invertedIds subFilter, id < d.info.length) ∧ Grouping groupByKey ∧
    traverse subFilter.eval chooseFirst groupByKey 20 20 (.leaf d) = some (t', tr) ∧ (∀ id, Closed (meshOf S id)) ∧ (∀ Q ∈ output tr, Ordinary Q.plane.n) ∧
    (∀ Q ∈ output tr, ∀ e ∈ Q.edges, NoMin3 e.line.d) ∧ SortOk insertionSort ∧ HeapOk sortHeap ∧ EntrySortOk entrySort ∧ (output tr).length = 9 := by
  have h : ((twice tetra innerTetra).bind fun t => (traverse subFilter.eval chooseFirst groupByKey 20 20 t).map fun r =>
      ((match t with | .leaf d => (invertedIds subFilter).all fun id => id < d.info.length | .inner .. => false),
        (output r.2).all (fun Q => [0, 1, 2].all fun i => Q.plane.n.comp i ≠ 2 ^ 63 ∧ Q.plane.n.comp i ≠ -2 ^ 63),
        (output r.2).all (fun Q => Q.edges.all fun e => e.line.d.x ≠ -2 ^ 63 ∧ e.line.d.y ≠ -2 ^ 63 ∧ e.line.d.z ≠ -2 ^ 63),
        (output r.2).length)) = some (true, true, true, 9) := by decide +kernel
  obtain ⟨t, ht, h'⟩ := Option.bind_eq_some_iff.1 h
  obtain ⟨⟨t', tr⟩, hr, e⟩ := Option.map_eq_some_iff.1 h'
  simp only [Prod.mk.injEq] at e
  obtain ⟨e1, e2, e3, e4⟩ := e
  cases t with
  | inner => exact absurd e1 (by simp)
  | leaf d =>
    have ha := twice_api tetra_convex innerTetra_convex ht
    refine ⟨d, _, t', tr, ha.spec.1, .leaf, ⟨trivial, trivial⟩, fun id hid => by simpa using List.all_eq_true.1 e1 id hid, groupByKey_ok, hr,
      meshOf_two tetra_closed (closed_of_perm (by decide +kernel)), ?_, ?_, insertionSort_ok, sortHeap_ok, entrySort_ok, e4⟩
    · intro Q hQ i
      have := List.all_eq_true.1 e2 Q hQ
      have := List.all_eq_true.1 this i (by fin_cases i <;> simp)
      exact of_decide_eq_true this
    · intro Q hQ e he
      have h3 : e.line.d.x ≠ -2 ^ 63 ∧ e.line.d.y ≠ -2 ^ 63 ∧ e.line.d.z ≠ -2 ^ 63 := of_decide_eq_true (List.all_eq_true.1 (List.all_eq_true.1 e3 Q hQ) e he)
      exact h3

end Walnut.Props
