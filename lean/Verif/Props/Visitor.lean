/-
C73: which edges a `ConnectingVisitor` hands to the edge connector.
C74: the polygons that a `CollectorVisitor` collects.

The statements use `traverse` (the model of `BSPTraverser::Run`), `connRun` and `collRun` (the
models of the visitors, which receive the calls of the traversal) and the following
specification.
-/
import Verif.Props.ClosedOutput
import Verif.Bsp.CollectorProof

namespace Walnut.Props
open Walnut.Geom Walnut.Poly Walnut.Bsp

/-! ### Specification -/

/-- The polygon number `z.poly` among the accepted ones has an edge number `z.edge`, and its
ends are `e`. -/
def EndsOf (tr : List Visit) (z : Entry) (e : Q3 × Q3) : Prop :=
  ∃ p, (accepted tr)[z.poly]? = some p ∧ z.edge < p.poly.count ∧ e = (p.poly.pt z.edge, p.poly.pt ((z.edge + 1) % p.poly.count))

open Classical in
/-- The number of edges in a call of the connector that run through the point `x` in direction
`D`. -/
noncomputable def runsIn (tr : List Visit) (l : List Entry) (x D : Q3) : ℕ := l.countP fun z => decide (∃ e, EndsOf tr z e ∧ RunsThrough x D e)

/-- The polygon `p'` is `p` except for the pointers in its edges. -/
def SameShape (p p' : BPoly) : Prop :=
  p'.poly.plane = p.poly.plane ∧ p'.id = p.id ∧ List.Forall₂ (fun e e' : Edge EdgeInfo => e'.vertex = e.vertex ∧ e'.line = e.line) p.poly.edges p'.poly.edges

/-! ### Lemmas -/

theorem edgeTags_pairs (p : BPoly) (n : Nat) (l : List (Edge EdgeInfo)) : ∀ i, (edgeTags p n i l).map (fun x => (x.entry.poly, x.entry.edge)) = (List.range' i l.length).map fun k => (n, k) := by
  induction l with
  | nil => intro i; rfl
  | cons e l ih => intro i; rw [edgeTags, List.map_cons, ih, List.length_cons, List.range'_succ, List.map_cons]

theorem tags_nodup (l : List BPoly) : ∀ n, ((tags n l).map fun x => (x.entry.poly, x.entry.edge)).Nodup := by
  induction l with
  | nil => intro n; exact List.nodup_nil
  | cons p l ih =>
    intro n
    rw [tags, List.map_append, List.nodup_append]
    refine ⟨?_, ih (n + 1), ?_⟩
    · rw [edgeTags_pairs]
      exact (List.nodup_range').map fun a b e => (Prod.mk.inj e).2
    · intro a ha b hb e
      obtain ⟨x, hx, rfl⟩ := List.mem_map.1 ha
      obtain ⟨y, hy, rfl⟩ := List.mem_map.1 hb
      obtain ⟨_, h1, _⟩ := mem_edgeTags hx
      obtain ⟨j, _, h2, _⟩ := mem_tags hy
      have := (Prod.mk.inj e).1
      omega

theorem edgeTags_sides (p : BPoly) (n : Nat) (l : List (Edge EdgeInfo)) : ∀ i, (edgeTags p n i l).map (fun x => (x.a, x.b)) =
    (List.range' i l.length).map fun k => (p.poly.pt k, p.poly.pt ((k + 1) % p.poly.count)) := by
  induction l with
  | nil => intro i; rfl
  | cons e l ih => intro i; rw [edgeTags, List.map_cons, ih, List.length_cons, List.range'_succ, List.map_cons]; rfl

theorem tags_sides (l : List BPoly) : ∀ n, (tags n l).map (fun x => (x.a, x.b)) = sidesOf (l.map BPoly.poly) := by
  induction l with
  | nil => intro n; rfl
  | cons p l ih =>
    intro n
    rw [tags, List.map_append, ih, edgeTags_sides, List.map_cons]
    unfold sidesOf
    rw [List.flatMap_cons, List.range_eq_range']
    rfl

theorem tag_ends {tr : List Visit} {x : Tag} (h : x ∈ tags 0 (accepted tr)) (e : Q3 × Q3) : EndsOf tr x.entry e ↔ e = (x.a, x.b) := by
  obtain ⟨j, h1, h2, h3⟩ := mem_tags h
  rw [zero_add] at h2
  unfold EndsOf
  rw [h2, h1]
  constructor
  · rintro ⟨p, hp, _, rfl⟩
    rw [← Option.some.inj hp]; rfl
  · rintro rfl
    exact ⟨x.p, rfl, (List.getElem?_eq_some_iff.1 h3).1, rfl⟩

/-- The state of the visitor at the end. -/
theorem conn_final {aabb : Bool} {t : Node} {S : List Source} (h : Reach aabb t S) (hs : Bsp.Settled t) {v : IsInside} {choose : Choose} {group : Group}
    (hg : Grouping group) {pfuel fuel : Nat} {t' : Node} {tr : List Visit} (ht : traverse v choose group pfuel fuel t = some (t', tr)) :
    Placed [] tr ∧ ∃ s, RunOf [] tr {} s s.calls ∧ Together [] (tags 0 (accepted tr)) s.calls ∧ (s.calls.flatMap Prod.snd).Perm ((tags 0 (accepted tr)).map Tag.entry) := by
  have hp : Placed [] tr := run_placed hg t AncOK.nil h.spec.1 hs ht
  refine ⟨hp, ?_⟩
  obtain ⟨s, nc, h1, h2⟩ := placed_run hp (fl := []) rfl (by intro i x hx; simp at hx) {} ⟨rfl, rfl⟩
  have e : s.calls = nc := by have := h1.calls; simpa using this
  subst e
  refine ⟨s, h1, h2, ?_⟩
  have := h1.all
  unfold notOpen at this
  rw [List.filter_eq_self.2 (by intro x _; simp)] at this
  exact this

theorem edges_once {aabb : Bool} {t : Node} {S : List Source} (h : Reach aabb t S) (hset : Bsp.Settled t) {v : IsInside} {choose : Choose} {group : Group}
    (hg : Grouping group) {pfuel fuel : Nat} {t' : Node} {tr : List Visit} (ht : traverse v choose group pfuel fuel t = some (t', tr))
    {s : ConnState} (hs : connRun tr {} = some s) :
    ((s.calls.flatMap fun c => c.2.map fun z => (z.poly, z.edge)).Nodup) ∧
    ∀ j i, (j, i) ∈ (s.calls.flatMap fun c => c.2.map fun z => (z.poly, z.edge)) ↔ ∃ p, (accepted tr)[j]? = some p ∧ i < p.poly.count := by
  obtain ⟨_, s', h1, _, h2⟩ := conn_final h hset hg ht
  have : s' = s := by have := h1.run; rw [hs] at this; exact (Option.some.inj this).symm
  subst this
  have e : (s'.calls.flatMap fun c => c.2.map fun z => (z.poly, z.edge)) = (s'.calls.flatMap Prod.snd).map fun z => (z.poly, z.edge) := by
    rw [List.map_flatMap]
  rw [e]
  have hp := h2.map fun z => (z.poly, z.edge)
  rw [List.map_map] at hp
  refine ⟨hp.nodup_iff.2 (tags_nodup _ 0), fun j i => ?_⟩
  rw [hp.mem_iff, List.mem_map]
  constructor
  · rintro ⟨x, hx, e⟩
    obtain ⟨k, k1, k2, k3⟩ := mem_tags hx
    simp only [Function.comp, Prod.mk.injEq] at e
    rw [zero_add] at k2
    rw [← e.1, k2, ← e.2]
    exact ⟨x.p, k1, (List.getElem?_eq_some_iff.1 k3).1⟩
  · rintro ⟨p, hp, hi⟩
    have := tags_mem (n := 0) hp (List.getElem?_eq_getElem (show i < p.poly.edges.length from hi))
    exact ⟨_, this, by simp⟩

theorem same_call {aabb : Bool} {t : Node} {S : List Source} (h : Reach aabb t S) (hset : Bsp.Settled t) {v : IsInside} {choose : Choose} {group : Group}
    (hg : Grouping group) {pfuel fuel : Nat} {t' : Node} {tr : List Visit} (ht : traverse v choose group pfuel fuel t = some (t', tr))
    {s : ConnState} (hs : connRun tr {} = some s) {x D : Q3} {c c' : PlaneRef × List Entry} (hc : c ∈ s.calls) (hc' : c' ∈ s.calls) {z z' : Entry} (hz : z ∈ c.2)
    (hz' : z' ∈ c'.2) {e e' : Q3 × Q3} (he : EndsOf tr z e) (he' : EndsOf tr z' e') (hr : RunsThrough x D e) (hr' : RunsThrough x D e' ∨ RunsThrough x (-D) e') :
    ∃ c'' ∈ s.calls, z ∈ c''.2 ∧ z' ∈ c''.2 := by
  obtain ⟨hp, s', h1, h3, h2⟩ := conn_final h hset hg ht
  have : s' = s := by have := h1.run; rw [hs] at this; exact (Option.some.inj this).symm
  subst this
  obtain ⟨y, hy, rfl, _⟩ := h1.planes c hc z hz
  obtain ⟨y', hy', rfl, _⟩ := h1.planes c' hc' z' hz'
  have e1 := (tag_ends hy e).1 he
  have e2 := (tag_ends hy' e').1 he'
  subst e1 e2
  have ho : Overlap y y' := by
    obtain ⟨b1, k, k0, hk⟩ := hr
    rcases hr' with ⟨b2, k', k0', hk'⟩ | ⟨b2, k', k0', hk'⟩
    · exact ⟨x, D, k, k', b1, b2, k0.ne', k0'.ne', hk, hk'⟩
    · exact ⟨x, D, k, -k', b1, b2, k0.ne', neg_ne_zero.2 k0'.ne', hk, by rw [hk', smul_neg, neg_smul]⟩
  rcases h3 y hy y' hy' ho with ⟨a, ha, _⟩ | h
  · simp at ha
  · exact h

/-! ### C73 -/

/-- C73: no assertion of the visitor fails during a traversal, and when the traversal is
over no node is open.  The visitor keeps the accepted polygons; it changes only pointers. -/
theorem C73_defined {aabb : Bool} {t : Node} {S : List Source} (h : Api aabb t S) {v : IsInside} {choose : Choose} {group : Group}
    (hg : Grouping group) {pfuel fuel : Nat} {t' : Node} {tr : List Visit} (ht : traverse v choose group pfuel fuel t = some (t', tr)) :
    ∃ s, connRun tr {} = some s ∧ s.nodes = [] ∧ s.depths = [(none, 0)] ∧ List.Forall₂ SameShape (accepted tr) s.polygons := by
  obtain ⟨_, s, h1, _⟩ := conn_final h.spec.1 h.spec.2 hg ht
  refine ⟨s, h1.run, ?_, h1.at'.depths, ?_⟩
  · have := h1.at'.nodes
    simpa [skeleton, keysOf] using this
  · obtain ⟨l, e, hl⟩ := h1.polygons
    have e' : s.polygons = l := by simpa using e
    rw [e']
    exact hl.imp fun p p' h => ⟨h.plane, h.id, h.edges.imp fun _ _ h => ⟨h.vertex, h.line⟩⟩

/-- C73: every edge of every accepted polygon is handed to the connector, in exactly one
call, and nothing else is. -/
theorem C73_edges {aabb : Bool} {t : Node} {S : List Source} (h : Api aabb t S) {v : IsInside} {choose : Choose} {group : Group}
    (hg : Grouping group) {pfuel fuel : Nat} {t' : Node} {tr : List Visit} (ht : traverse v choose group pfuel fuel t = some (t', tr))
    {s : ConnState} (hs : connRun tr {} = some s) :
    ((s.calls.flatMap fun c => c.2.map fun z => (z.poly, z.edge)).Nodup) ∧
    ∀ j i, (j, i) ∈ (s.calls.flatMap fun c => c.2.map fun z => (z.poly, z.edge)) ↔ ∃ p, (accepted tr)[j]? = some p ∧ i < p.poly.count :=
  edges_once h.spec.1 h.spec.2 hg ht hs

/-- C73: the edges of a call lie in the plane of the node.  The depth that is noted is that of
the node whose plane made the edge, and 0 if the edge is part of an edge of an input
polygon. -/
theorem C73_plane {aabb : Bool} {t : Node} {S : List Source} (h : Api aabb t S) {v : IsInside} {choose : Choose} {group : Group}
    (hg : Grouping group) {pfuel fuel : Nat} {t' : Node} {tr : List Visit} (ht : traverse v choose group pfuel fuel t = some (t', tr))
    {s : ConnState} (hs : connRun tr {} = some s) : ∀ c ∈ s.calls, ∀ z ∈ c.2,
      (∀ e, EndsOf tr z e → c.1.plane.side e.1 = 0 ∧ c.1.plane.side e.2 = 0) ∧
      ∀ p e, (accepted tr)[z.poly]? = some p → p.poly.edges[z.edge]? = some e → z.depth = (e.data.createdBy.split.map fun r => r.path.length + 1).getD 0 := by
  obtain ⟨hp, s', h1, _, h2⟩ := conn_final h.spec.1 h.spec.2 hg ht
  have : s' = s := by have := h1.run; rw [hs] at this; exact (Option.some.inj this).symm
  subst this
  intro c hc z hz
  obtain ⟨x, hx, rfl, hf⟩ := h1.planes c hc z hz
  obtain ⟨j, k1, k2, k3⟩ := mem_tags hx
  obtain ⟨m, hb, _⟩ := hp.accepted_ok x.p (List.mem_of_getElem? k1)
  constructor
  · intro e he
    rw [(tag_ends hx e).1 he]
    have hi := (hb.edges _ _ k3).2.2.1
    rcases hi with ⟨h0, _⟩ | ⟨l, a, r, _, hC, _, e⟩
    · rw [hf] at h0; simp at h0
    · rw [e] at hf
      rw [← Option.some.inj hf]
      exact hC
  · intro p e hp he
    have hd : x.entry.depth = keyDepth x.e.data.createdBy.ptr := by
      have : ∀ (l : List BPoly) (n : Nat), x ∈ tags n l → x.entry.depth = keyDepth x.e.data.createdBy.ptr := by
        have ed : ∀ (p : BPoly) (l : List (Edge EdgeInfo)) (n i : Nat), x ∈ edgeTags p n i l → x.entry.depth = keyDepth x.e.data.createdBy.ptr := by
          intro p l
          induction l with
          | nil => intro n i h; simp [edgeTags] at h
          | cons e l ih =>
            intro n i h
            rcases List.mem_cons.1 h with rfl | h
            · rfl
            · exact ih n _ h
        intro l
        induction l with
        | nil => intro n h; simp [tags] at h
        | cons p l ih =>
          intro n h
          rcases List.mem_append.1 h with h | h
          · exact ed _ _ _ _ h
          · exact ih _ h
      exact this _ _ hx
    have k2 : x.entry.poly = j := by simpa using k2
    rw [k2, k1] at hp
    rw [← Option.some.inj hp, k3] at he
    rw [← Option.some.inj he, hd]
    unfold SplitSide.ptr
    cases x.e.data.createdBy.split <;> rfl

/-- C73: edges of accepted polygons that lie on a common line and have a common inner point
are handed to the connector in the same call. -/
theorem C73_same_call {aabb : Bool} {t : Node} {S : List Source} (h : Api aabb t S) {v : IsInside} {choose : Choose} {group : Group}
    (hg : Grouping group) {pfuel fuel : Nat} {t' : Node} {tr : List Visit} (ht : traverse v choose group pfuel fuel t = some (t', tr))
    {s : ConnState} (hs : connRun tr {} = some s) {x D : Q3} {c c' : PlaneRef × List Entry} (hc : c ∈ s.calls) (hc' : c' ∈ s.calls) {z z' : Entry} (hz : z ∈ c.2)
    (hz' : z' ∈ c'.2) {e e' : Q3 × Q3} (he : EndsOf tr z e) (he' : EndsOf tr z' e') (hr : RunsThrough x D e) (hr' : RunsThrough x D e' ∨ RunsThrough x (-D) e') :
    ∃ c'' ∈ s.calls, z ∈ c''.2 ∧ z' ∈ c''.2 :=
  same_call h.spec.1 h.spec.2 hg ht hs hc hc' hz hz' he he' hr hr'

theorem call_balance {aabb : Bool} {t : Node} {S : List Source} (h : Reach aabb t S) (hset : Bsp.Settled t) {v : IsInside} {choose : Choose} {group : Group}
    (hg : Grouping group) {pfuel fuel : Nat} {t' : Node} {tr : List Visit} (ht : traverse v choose group pfuel fuel t = some (t', tr))
    {s : ConnState} (hs : connRun tr {} = some s) {x D : Q3} (hb : edgesThrough (output tr) x D = edgesThrough (output tr) x (-D)) :
    ∀ c ∈ s.calls, runsIn tr c.2 x D = runsIn tr c.2 x (-D) := by
  classical
  obtain ⟨hp, s', h1, h3, h2⟩ := conn_final h hset hg ht
  have : s' = s := by have := h1.run; rw [hs] at this; exact (Option.some.inj this).symm
  subst this
  intro c hc
  have hnd : (s'.calls.flatMap Prod.snd).Nodup := by
    rw [h2.nodup_iff]
    exact List.Nodup.of_map (fun z : Entry => (z.poly, z.edge)) (by rw [List.map_map]; exact tags_nodup _ 0)
  have total : ∀ E, runsIn tr (s'.calls.flatMap Prod.snd) x E = edgesThrough (output tr) x E := by
    intro E
    unfold runsIn edgesThrough output
    rw [h2.countP_eq, ← tags_sides _ 0, List.countP_map, List.countP_map]
    refine List.countP_congr fun y hy => ?_
    simp only [Function.comp, decide_eq_true_eq]
    constructor
    · rintro ⟨e, he, hr⟩
      rw [(tag_ends hy e).1 he] at hr; exact hr
    · intro hr
      exact ⟨_, (tag_ends hy _).2 rfl, hr⟩
  by_cases hex : ∃ z ∈ c.2, ∃ e, EndsOf tr z e ∧ (RunsThrough x D e ∨ RunsThrough x (-D) e)
  · obtain ⟨z, hz, e, he, hr⟩ := hex
    obtain ⟨L, R, hLR⟩ := List.append_of_mem hc
    have hflat : s'.calls.flatMap Prod.snd = L.flatMap Prod.snd ++ (c.2 ++ R.flatMap Prod.snd) := by rw [hLR, List.flatMap_append, List.flatMap_cons]
    rw [hflat] at hnd
    have hd1 := (List.nodup_append.1 hnd)
    have hd2 := (List.nodup_append.1 hd1.2.1)
    have only : ∀ E, (E = D ∨ E = -D) → ∀ c' ∈ s'.calls, ∀ z' ∈ c'.2, (∃ e', EndsOf tr z' e' ∧ RunsThrough x E e') → z' ∈ c.2 := by
      rintro E hE c' hc' z' hz' ⟨e', he', hr'⟩
      have hcall : ∃ c'' ∈ s'.calls, z ∈ c''.2 ∧ z' ∈ c''.2 := by
        obtain ⟨y, hy, rfl, _⟩ := h1.planes c hc z hz
        obtain ⟨y', hy', rfl, _⟩ := h1.planes c' hc' z' hz'
        have e1 := (tag_ends hy e).1 he
        have e2 := (tag_ends hy' e').1 he'
        subst e1 e2
        have ho : Overlap y y' := by
          have a1 : Between y.a y.b x ∧ ∃ k : ℚ, k ≠ 0 ∧ y.b - y.a = k • D := by
            rcases hr with ⟨b1, k, k0, hk⟩ | ⟨b1, k, k0, hk⟩
            · exact ⟨b1, k, k0.ne', hk⟩
            · refine ⟨b1, -k, neg_ne_zero.2 k0.ne', ?_⟩
              rw [neg_smul, ← smul_neg]; exact hk
          have a2 : Between y'.a y'.b x ∧ ∃ k : ℚ, k ≠ 0 ∧ y'.b - y'.a = k • D := by
            obtain ⟨b1, k, k0, hk⟩ := hr'
            rcases hE with rfl | rfl
            · exact ⟨b1, k, k0.ne', hk⟩
            · refine ⟨b1, -k, neg_ne_zero.2 k0.ne', ?_⟩
              rw [neg_smul, ← smul_neg]; exact hk
          obtain ⟨b1, k, k0, hk⟩ := a1
          obtain ⟨b2, k', k0', hk'⟩ := a2
          exact ⟨x, D, k, k', b1, b2, k0, k0', hk, hk'⟩
        rcases h3 y hy y' hy' ho with ⟨a, ha, _⟩ | h
        · simp at ha
        · exact h
      obtain ⟨c'', hc'', z1, z2⟩ := hcall
      rw [hLR] at hc''
      rcases List.mem_append.1 hc'' with hm | hm
      · exact absurd rfl (hd1.2.2 z (List.mem_flatMap.2 ⟨c'', hm, z1⟩) z (List.mem_append_left _ hz))
      · rcases List.mem_cons.1 hm with rfl | hm
        · exact z2
        · exact absurd rfl (hd2.2.2 z hz z (List.mem_flatMap.2 ⟨c'', hm, z1⟩))
    have part : ∀ E, (E = D ∨ E = -D) → runsIn tr c.2 x E = edgesThrough (output tr) x E := by
      intro E hE
      rw [← total E, hflat]
      unfold runsIn
      rw [List.countP_append, List.countP_append]
      have z1 : (L.flatMap Prod.snd).countP (fun z => decide (∃ e, EndsOf tr z e ∧ RunsThrough x E e)) = 0 := by
        rw [List.countP_eq_zero]
        intro z' hz' hd
        obtain ⟨c', hc', hz''⟩ := List.mem_flatMap.1 hz'
        have := only E hE c' (by rw [hLR]; exact List.mem_append_left _ hc') z' hz'' (of_decide_eq_true hd)
        exact hd1.2.2 z' hz' z' (List.mem_append_left _ this) rfl
      have z2 : (R.flatMap Prod.snd).countP (fun z => decide (∃ e, EndsOf tr z e ∧ RunsThrough x E e)) = 0 := by
        rw [List.countP_eq_zero]
        intro z' hz' hd
        obtain ⟨c', hc', hz''⟩ := List.mem_flatMap.1 hz'
        have := only E hE c' (by rw [hLR]; exact List.mem_append_right _ (List.mem_cons_of_mem _ hc')) z' hz'' (of_decide_eq_true hd)
        exact hd2.2.2 z' this z' hz' rfl
      rw [z1, z2]; omega
    rw [part D (Or.inl rfl), part (-D) (Or.inr rfl), hb]
  · have zero : ∀ E, (E = D ∨ E = -D) → runsIn tr c.2 x E = 0 := by
      intro E hE
      unfold runsIn
      rw [List.countP_eq_zero]
      intro z hz hd
      obtain ⟨e, he, hr⟩ := of_decide_eq_true hd
      exact hex ⟨z, hz, e, he, by rcases hE with rfl | rfl <;> simp [hr]⟩
    rw [zero D (Or.inl rfl), zero (-D) (Or.inr rfl)]

/-- C73: boolean operations on closed meshes.  In every call of the connector, as many of the
edges run through a point in a direction as in the opposite direction: the edges can be
matched with partners, within the call.  The point is not a vertex. -/
theorem C73_balance {aabb : Bool} {d : NodeData} {S : List Source} (h : Reach aabb (.leaf d) S) {t : Node} (hsp : Splits d t) {f : Filter} (hf : NoParity f)
    {choose : Choose} {group : Group} (hg : Grouping group) {pfuel fuel : Nat} {t' : Node} {tr : List Visit}
    (ht : traverse f.eval choose group pfuel fuel t = some (t', tr)) (hc : ∀ id, Closed (meshOf S id)) {s : ConnState} (hs : connRun tr {} = some s)
    {x : Q3} (hx : ∀ e ∈ sidesOf (output tr), e.1 ≠ x) (D : Q3) : ∀ c ∈ s.calls, runsIn tr c.2 x D = runsIn tr c.2 x (-D) := by
  obtain ⟨h1, _, h3, _⟩ := splits_spec h hsp
  exact call_balance h1 h3 hg ht hs (C72_closed h hsp hf hg ht hc hx D)

/-- The pointer is null or points to a node of the tree. -/
def ToTree (v : IsInside) (t : Node) (s : SplitSide) : Prop := s.split = none ∨ ∃ r ∈ t.unpruned v [], s.split = some r

/-- C73: when the traversal is over, `edge_first_coincident`, `vertex_last_coincident` and
`edge_last_coincident` of the polygons are null or point to nodes of the tree.  (The planes of
the partitioner do not exist any more.)

Partial: this is false for `edge_created_by`, see `C73_created_by_false`. -/
theorem C73_pointers_partial {aabb : Bool} {t : Node} {S : List Source} (h : Api aabb t S) {v : IsInside} (hv : Lawful v) {choose : Choose} {group : Group}
    (hg : Grouping group) {pfuel fuel : Nat} {t' : Node} {tr : List Visit} (ht : traverse v choose group pfuel fuel t = some (t', tr))
    {s : ConnState} (hs : connRun tr {} = some s) : ∀ p ∈ s.polygons, ∀ e ∈ p.poly.edges,
      ToTree v t' e.data.first ∧ ToTree v t' e.data.vertexLast ∧ ToTree v t' e.data.edgeLast := by
  obtain ⟨_, s', h1, _, h2⟩ := conn_final h.spec.1 h.spec.2 hg ht
  have : s' = s := by have := h1.run; rw [hs] at this; exact (Option.some.inj this).symm
  subst this
  obtain ⟨l, e, hl⟩ := h1.polygons
  have e' : s'.polygons = l := by simpa using e
  rw [e']
  have hn := (C41_visited h hv hg ht).1
  rw [hn] at hl
  have kept : ∀ {a b : SplitSide}, Kept (keptRefs [] ++ t'.unpruned v []) a b → ToTree v t' b := by
    rintro a b (hk | ⟨rfl, r, hr, e⟩)
    · exact Or.inl hk
    · exact Or.inr ⟨r, by simpa [keptRefs] using hr, e⟩
  intro p hp e he
  obtain ⟨i, hi, rfl⟩ := List.mem_iff_getElem.1 hp
  have hpk := (List.forall₂_iff_get.1 hl).2 i (by rw [hl.length_eq]; exact hi) hi
  obtain ⟨k, hk, rfl⟩ := List.mem_iff_getElem.1 he
  have hek := (List.forall₂_iff_get.1 hpk.edges).2 k (by rw [hpk.edges.length_eq]; exact hk) hk
  exact ⟨kept hek.first, kept hek.vertexLast, kept hek.edgeLast⟩

/-! ### C74 -/

/-- The pointer of a collected polygon is the one that the edge had, to a node of the tree, or
it points to an equal plane that the collector keeps. -/
def Retained (v : IsInside) (t : Node) (planes : List HS3) (s : SplitSide) (o : Option OutPtr) : Prop :=
  ∃ r, s.split = some r ∧ ((r ∈ t.unpruned v [] ∧ o = some (.node r)) ∨ ∃ k, o = some (.copy k) ∧ planes[k]? = some r.plane)

/-- C74: no assertion of `CollectorVisitor` fails; it collects exactly the accepted polygons, in
order, and `edge_first_coincident`, `vertex_last_coincident` and `edge_last_coincident` point to
nodes of the tree or to planes of the collector that are equal to the plane that they pointed
to.

Partial: this is false for `edge_created_by`, see `C74_created_by_false`. -/
theorem C74_collected_partial {aabb : Bool} {t : Node} {S : List Source} (h : Api aabb t S) {v : IsInside} (hv : Lawful v) {choose : Choose} {group : Group}
    (hg : Grouping group) {pfuel fuel : Nat} {t' : Node} {tr : List Visit} (ht : traverse v choose group pfuel fuel t = some (t', tr)) :
    ∃ s, collRun tr {} = some s ∧ s.map = [] ∧ s.polygons.map Prod.fst = accepted tr ∧ ∀ x ∈ s.polygons, List.Forall₂ (fun (e : Edge EdgeInfo) o =>
      Retained v t' s.planes e.data.first o.first ∧ Retained v t' s.planes e.data.vertexLast o.vertexLast ∧ Retained v t' s.planes e.data.edgeLast o.edgeLast) x.1.poly.edges x.2 := by
  have hp : Placed [] tr := run_placed hg t AncOK.nil h.spec.1.spec.1 h.spec.2 ht
  obtain ⟨s, h1⟩ := placed_coll hp (fl := []) rfl (by intro i x hx; simp at hx) {} ⟨by simp, by simp, by simp⟩
  obtain ⟨l, e, f, g⟩ := h1.polygons
  have e' : s.polygons = l := by simpa using e
  refine ⟨s, h1.run, h1.map, by rw [e', f], ?_⟩
  rw [e']
  intro x hx
  refine (g x hx).imp fun a b hab => ?_
  have hn := (C41_visited h hv hg ht).1
  have conv : ∀ {p : SplitSide} {o : Option OutPtr}, Redirected (keptRefs [] ++ nodesIn tr) s.planes p o → Retained v t' s.planes p o := by
    rintro p o ⟨r, h1, h2⟩
    refine ⟨r, h1, h2.imp_left fun ⟨a, b⟩ => ⟨?_, b⟩⟩
    rw [← hn]; simpa [keptRefs] using a
  exact ⟨conv hab.first, conv hab.vertexLast, conv hab.edgeLast⟩

/-! ### Disagreements and examples -/

/-- A triangle inside of a face of `tetra`. -/
def patch : List (Polygon Unit) := [triangle 2 ⟨1, 1, 0⟩ ⟨1, 2, 0⟩ ⟨2, 1, 0⟩]

theorem patch_convex : ∀ P ∈ patch, IsConvexPolygon P := by
  simp only [patch, List.mem_cons, List.not_mem_nil, or_false, forall_eq]
  exact triangle_convex _ _ _ _ (by decide)

/-- C73 (disagreement): `Accept` does not clear `edge_created_by`.  Here it points to a plane of
the partitioner in a polygon of the output, although the traversal is over: the node has been
left, and no node of the tree has this plane. -/
theorem C73_created_by_false : ∃ t S t' tr s p e r, Api false t S ∧ traverse (Filter.polygon 0).eval chooseFirst groupByKey 20 20 t = some (t', tr) ∧
    connRun tr {} = some s ∧ p ∈ s.polygons ∧ e ∈ p.poly.edges ∧ e.data.createdBy.split = some r ∧ Visit.leave true r ∈ tr ∧
    ∀ r' ∈ t'.unpruned (Filter.polygon 0).eval [], r'.path ≠ r.path := by
  have h : ((twice tetra patch).bind fun t => (traverse (Filter.polygon 0).eval chooseFirst groupByKey 20 20 t).bind fun r => (connRun r.2 {}).map fun s =>
      s.polygons.any fun p => p.poly.edges.any fun e => match e.data.createdBy.split with
        | none => false
        | some q => (r.2.any fun v => match v with | .leave true q' => decide (q'.path = q.path ∧ q'.plane = q.plane) | _ => false) &&
            (r.1.unpruned (Filter.polygon 0).eval []).all fun r' => decide (r'.path ≠ q.path)) = some true := by decide +kernel
  obtain ⟨t, ht, h⟩ := Option.bind_eq_some_iff.1 h
  obtain ⟨⟨t', tr⟩, hr, h⟩ := Option.bind_eq_some_iff.1 h
  obtain ⟨s, hs, h⟩ := Option.map_eq_some_iff.1 h
  obtain ⟨p, hp, h⟩ := List.any_eq_true.1 h
  obtain ⟨e, he, h⟩ := List.any_eq_true.1 h
  cases hc : e.data.createdBy.split with
  | none => rw [hc] at h; simp at h
  | some q =>
    rw [hc] at h
    simp only [Bool.and_eq_true, List.any_eq_true, List.all_eq_true, decide_eq_true_eq] at h
    obtain ⟨⟨v, hv, hvq⟩, hn⟩ := h
    refine ⟨t, _, t', tr, s, p, e, q, twice_api tetra_convex patch_convex ht, hr, hs, hp, he, hc, ?_, hn⟩
    split at hvq
    · rename_i q'
      obtain ⟨a, b⟩ := of_decide_eq_true hvq
      rw [show q = q' by cases q; cases q'; simp only at a b; rw [a, b]]; exact hv
    · simp at hvq

/-- C74 (disagreement): `CollectorVisitor` does not redirect `edge_created_by` either. -/
theorem C74_created_by_false : ∃ t S t' tr s x o r, Api false t S ∧ traverse (Filter.polygon 0).eval chooseFirst groupByKey 20 20 t = some (t', tr) ∧
    collRun tr {} = some s ∧ x ∈ s.polygons ∧ o ∈ x.2 ∧ o.createdBy = some r ∧ Visit.leave true r ∈ tr ∧
    ∀ r' ∈ t'.unpruned (Filter.polygon 0).eval [], r'.path ≠ r.path := by
  have h : ((twice tetra patch).bind fun t => (traverse (Filter.polygon 0).eval chooseFirst groupByKey 20 20 t).bind fun r => (collRun r.2 {}).map fun s =>
      s.polygons.any fun p => p.2.any fun e => match e.createdBy with
        | none => false
        | some q => (r.2.any fun v => match v with | .leave true q' => decide (q'.path = q.path ∧ q'.plane = q.plane) | _ => false) &&
            (r.1.unpruned (Filter.polygon 0).eval []).all fun r' => decide (r'.path ≠ q.path)) = some true := by decide +kernel
  obtain ⟨t, ht, h⟩ := Option.bind_eq_some_iff.1 h
  obtain ⟨⟨t', tr⟩, hr, h⟩ := Option.bind_eq_some_iff.1 h
  obtain ⟨s, hs, h⟩ := Option.map_eq_some_iff.1 h
  obtain ⟨p, hp, h⟩ := List.any_eq_true.1 h
  obtain ⟨e, he, h⟩ := List.any_eq_true.1 h
  cases hc : e.createdBy with
  | none => rw [hc] at h; simp at h
  | some q =>
    rw [hc] at h
    simp only [Bool.and_eq_true, List.any_eq_true, List.all_eq_true, decide_eq_true_eq] at h
    obtain ⟨⟨v, hv, hvq⟩, hn⟩ := h
    refine ⟨t, _, t', tr, s, p, e, q, twice_api tetra_convex patch_convex ht, hr, hs, hp, he, hc, ?_, hn⟩
    split at hvq
    · rename_i q'
      obtain ⟨a, b⟩ := of_decide_eq_true hvq
      rw [show q = q' by cases q; cases q'; simp only at a b; rw [a, b]]; exact hv
    · simp at hvq

theorem any_some {α : Type} {o : Option α} {f : α → Bool} (h : o.any f = true) : ∃ x, o = some x ∧ f x = true := by
  cases o with
  | none => simp at h
  | some x => exact ⟨x, rfl, h⟩

/-- The hypotheses of C73 are met by a subtraction of touching solids.  An edge of a facet is
handed to the connector together with the shorter edge of the neighbour, in opposite
direction, and an edge was created by a node at a positive depth. -/
example : ∃ d S t' tr s c z z', Api false (.leaf d) S ∧ (∀ id, Closed (meshOf S id)) ∧ NoParity subFilter ∧ Lawful subFilter.eval ∧ Grouping groupByKey ∧
    traverse subFilter.eval chooseFirst groupByKey 20 20 (.leaf d) = some (t', tr) ∧ connRun tr {} = some s ∧ (∀ e ∈ sidesOf (output tr), e.1 ≠ ![1, 0, 5 / 2]) ∧
    c ∈ s.calls ∧ z ∈ c.2 ∧ z' ∈ c.2 ∧ EndsOf tr z (![1, 0, 0], ![1, 0, 3]) ∧ RunsThrough ![1, 0, 5 / 2] ![0, 0, 1] (![1, 0, 0], ![1, 0, 3]) ∧
    EndsOf tr z' (![1, 0, 3], ![1, 0, 2]) ∧ RunsThrough ![1, 0, 5 / 2] (-![0, 0, 1]) (![1, 0, 3], ![1, 0, 2]) ∧ 0 < z'.depth := by
  have h : ((twice tetra innerTetra).bind fun t => (traverse subFilter.eval chooseFirst groupByKey 20 20 t).bind fun r => (connRun r.2 {}).map fun s =>
      ((match t with | .leaf _ => true | .inner .. => false), (sidesOf (output r.2)).all fun e => e.1 ≠ ![1, 0, 5 / 2],
        s.calls.any fun c => (c.2.any fun z => ((accepted r.2)[z.poly]?).any fun p => decide (z.edge < p.poly.count) &&
            decide ((p.poly.pt z.edge, p.poly.pt ((z.edge + 1) % p.poly.count)) = (![1, 0, 0], ![1, 0, 3]))) &&
          c.2.any fun z => ((accepted r.2)[z.poly]?).any fun p => decide (z.edge < p.poly.count) &&
            (decide ((p.poly.pt z.edge, p.poly.pt ((z.edge + 1) % p.poly.count)) = (![1, 0, 3], ![1, 0, 2])) && decide (0 < z.depth)))) = some (true, true, true) := by decide +kernel
  obtain ⟨t, ht, h'⟩ := Option.bind_eq_some_iff.1 h
  obtain ⟨⟨t', tr⟩, hr, h'⟩ := Option.bind_eq_some_iff.1 h'
  obtain ⟨s, hs, e⟩ := Option.map_eq_some_iff.1 h'
  simp only [Prod.mk.injEq] at e
  obtain ⟨e1, e2, e3⟩ := e
  cases t with
  | inner => exact absurd e1 (by simp)
  | leaf d =>
    have ha := twice_api tetra_convex innerTetra_convex ht
    obtain ⟨c, hc, h⟩ := List.any_eq_true.1 e3
    rw [Bool.and_eq_true] at h
    obtain ⟨z, hz, a⟩ := List.any_eq_true.1 h.1
    obtain ⟨z', hz', b⟩ := List.any_eq_true.1 h.2
    obtain ⟨p, p1, p2⟩ := any_some a
    obtain ⟨p', p1', p2'⟩ := any_some b
    simp only [Bool.and_eq_true, decide_eq_true_eq] at p2 p2'
    refine ⟨d, _, t', tr, s, c, z, z', ha, meshOf_two tetra_closed (closed_of_perm (by decide +kernel)), ⟨trivial, trivial⟩, filter_lawful _, groupByKey_ok, hr, hs, ?_, hc, hz, hz',
      ⟨p, p1, p2.1, by rw [p2.2.1, p2.2.2]⟩, ?_, ⟨p', p1', p2'.1, by rw [p2'.2.1.1, p2'.2.1.2]⟩, ?_, p2'.2.2⟩
    · intro x hx
      have := List.all_eq_true.1 e2 x hx
      simpa using this
    · refine ⟨⟨5 / 6, by norm_num, by norm_num, ?_⟩, 3, by norm_num, ?_⟩ <;> funext i <;> fin_cases i <;> norm_num
    · refine ⟨⟨1 / 2, by norm_num, by norm_num, ?_⟩, 1, by norm_num, ?_⟩ <;> funext i <;> fin_cases i <;> norm_num

/-- The hypotheses of C74 are met by a traversal where the collector has to keep planes of the
partitioner. -/
example : ∃ t S t' tr s, Api false t S ∧ Lawful (Filter.polygon 0).eval ∧ Grouping groupByKey ∧
    traverse (Filter.polygon 0).eval chooseFirst groupByKey 20 20 t = some (t', tr) ∧ collRun tr {} = some s ∧ s.planes.length = 3 ∧ s.polygons.length = 7 ∧
    ∃ x ∈ s.polygons, ∃ o ∈ x.2, ∃ k, o.edgeLast = some (.copy k) := by
  have h : ((twice tetra patch).bind fun t => (traverse (Filter.polygon 0).eval chooseFirst groupByKey 20 20 t).bind fun r => (collRun r.2 {}).map fun s =>
      (s.planes.length, s.polygons.length, s.polygons.any fun p => p.2.any fun e => match e.edgeLast with | some (.copy _) => true | _ => false)) = some (3, 7, true) := by decide +kernel
  obtain ⟨t, ht, h⟩ := Option.bind_eq_some_iff.1 h
  obtain ⟨⟨t', tr⟩, hr, h⟩ := Option.bind_eq_some_iff.1 h
  obtain ⟨s, hs, h⟩ := Option.map_eq_some_iff.1 h
  simp only [Prod.mk.injEq] at h
  obtain ⟨x, hx, h1⟩ := List.any_eq_true.1 h.2.2
  obtain ⟨o, ho, h2⟩ := List.any_eq_true.1 h1
  refine ⟨t, _, t', tr, s, twice_api tetra_convex patch_convex ht, filter_lawful _, groupByKey_ok, hr, hs, h.1, h.2.1, x, hx, o, ho, ?_⟩
  split at h2
  · exact ⟨_, by assumption⟩
  · simp at h2

end Walnut.Props
