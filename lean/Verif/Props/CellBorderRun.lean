/-
C89: the polygons that the visitor of `GetNodeBorder` accepts.
-/
import Verif.Bsp.CellBorderRun
import Verif.Props.CellBorder
import Verif.Props.Traverse
import Verif.Bsp.BoolLeaf

namespace Walnut.Props
open Walnut.Geom Walnut.Poly Walnut.Bsp

theorem cellFilter_prune (c : List Info) : (cellFilter.eval c).2 = true ↔ holds c 0 ∨ holds c 1 := by
  have key : ∀ id, ((Filter.odd id).eval c).2 = true ↔ holds c id := by
    intro id
    unfold Filter.eval holds
    by_cases h : id < c.length
    · simp [h, hasPolygons_iff]
    · simp [h]
  unfold cellFilter
  rw [show (Filter.eval (.xor (.odd 0) (.odd 1)) c).2 = (((Filter.odd 0).eval c).2 || ((Filter.odd 1).eval c).2) from rfl, Bool.or_eq_true, key, key]

theorem windingOf_range (n : Nat) (w : Nat → Int) (id : Nat) :
    windingOf ((List.range n).map fun i => ({ pwn := w i } : Info)) id = if id < n then w id else 0 := by
  unfold windingOf
  by_cases h : id < n <;> simp [h]

/-- Each facet is where the value of the filter changes. -/
theorem cellFilter_flip {n : Nat} {w : Nat → Int} {x : Bsp.Facet} (hx : x.1 < n) (h01 : x.1 = 0 ∨ x.1 = 1) :
    valueAt cellFilter.eval n w ≠ valueAt cellFilter.eval n (beyond (fun _ => -1) w x) := by
  have key : ∀ w, valueAt cellFilter.eval n w = true ↔ ¬ ((if 0 < n then w 0 else 0) % 2 = 1 ↔ (if 1 < n then w 1 else 0) % 2 = 1) := by
    intro w
    unfold valueAt
    rw [C35_filter_partial cellFilter _ (by intro id hid; simp [cellFilter, invertedIds] at hid)]
    simp only [cellFilter, Inside, windingOf_range]
  intro e
  have := key w
  rw [e, key] at this
  unfold beyond at this
  rcases h01 with h | h <;> rw [h] at this hx
  · simp only [Function.update_self, Function.update_of_ne (show (1 : ℕ) ≠ 0 by decide), if_pos hx] at this
    by_cases a : w 0 % 2 = 1
    · have a' : ¬ (w 0 + -1) % 2 = 1 := by omega
      simp only [a, a'] at this; tauto
    · have a' : (w 0 + -1) % 2 = 1 := by omega
      simp only [a, a'] at this; tauto
  · simp only [Function.update_self, Function.update_of_ne (show (0 : ℕ) ≠ 1 by decide), if_pos hx] at this
    by_cases a : w 1 % 2 = 1
    · have a' : ¬ (w 1 + -1) % 2 = 1 := by omega
      simp only [a, a'] at this; tauto
    · have a' : (w 1 + -1) % 2 = 1 := by omega
      simp only [a, a'] at this; tauto

theorem changing_all {inside : (Nat → Int) → Bool} {step : HS3 → Int} : ∀ {s : List Bsp.Facet} {w : Nat → Int},
    (∀ w, ∀ x ∈ s, inside w ≠ inside (beyond step w x)) → changing inside step w s = s := by
  intro s
  induction s with
  | nil => intro w _; rfl
  | cons x s ih =>
    intro w h
    unfold changing
    rw [if_neg (h w x (by simp)), ih fun w y hy => h w y (List.mem_cons_of_mem _ hy)]

theorem mem_stackAt {q : Q3} {l : List BPoly} {f : Bsp.Facet} : f ∈ stackAt q l ↔ ∃ p ∈ l, Covers f.1 f.2 q p := by
  unfold stackAt Covers
  simp only [List.mem_map, List.mem_filter, decide_eq_true_eq]
  constructor
  · rintro ⟨p, ⟨h1, h2⟩, rfl⟩; exact ⟨p, h1, rfl, rfl, h2⟩
  · rintro ⟨p, h1, h2, h3, h4⟩; exact ⟨p, ⟨h1, h4⟩, Prod.ext h2 h3⟩

theorem splitSeq_cover {ops : List (List Bool × HS3)} {anc : Anc} {t t' : Node} (ht : TreeOK anc t) (hs : Bsp.Settled t)
    (h : splitSeq (anc.map Prod.snd) ops t = some t') :
    Bsp.Settled t' ∧ (∀ id pl q, (∃ p ∈ t.polys, Covers id pl q p) ↔ ∃ p ∈ t'.polys, Covers id pl q p) ∧ ∀ x ∈ t'.polys, ∃ p ∈ t.polys, x.id = p.id := by
  induction ops generalizing t with
  | nil => rw [← Option.some.inj h]; exact ⟨hs, fun _ _ _ => Iff.rfl, fun x hx => ⟨x, hx, rfl⟩⟩
  | cons s ops ih =>
    obtain ⟨t1, h1, h2⟩ := Option.bind_eq_some_iff.1 h
    obtain ⟨a1, a2, _⟩ := splitAt_ok t anc _ _ _ ht h1
    obtain ⟨b1, b2, b3⟩ := ih a1 (splitAt_settled _ _ _ _ _ hs h1) h2
    refine ⟨b1, fun id pl q => (a2.cover id pl q).trans (b2 id pl q), fun x hx => ?_⟩
    obtain ⟨p, hp, e⟩ := b3 x hx
    obtain ⟨p', hp', e', -⟩ := a2.back p hp
    exact ⟨p', hp', e.trans e'⟩

theorem leavesAt_leaves : ∀ (t : Node) (path : List Bool), (t.leavesAt path).map Prod.snd = t.leaves := by
  intro t
  induction t with
  | leaf d => intro path; rfl
  | inner d g n p ihn ihp => intro path; simp [Node.leavesAt, Node.leaves, ihn, ihp]

theorem below_data {t : Node} (h : Nested t) {d : NodeData} (hd : d ∈ t.leaves) : Below t.data.info d.info := by
  rw [← leavesAt_leaves t (([] : Anc).map Prod.snd)] at hd
  obtain ⟨L, hL, rfl⟩ := List.mem_map.1 hd
  obtain ⟨anc, -, hs⟩ := leavesAt_subs hL
  exact (h.below [] _ hs).1

theorem unpruned_of {v : IsInside} (hm : ∀ a b, Below a b → (v b).2 = true → (v a).2 = true) : ∀ {t : Node}, Nested t → ∀ {d : NodeData}, d ∈ t.leaves →
    (v d.info).2 = true → d ∈ t.unprunedLeaves v := by
  intro t
  induction t with
  | leaf d0 =>
    intro _ d hd hv
    obtain rfl := List.mem_singleton.1 hd
    simp [Node.unprunedLeaves, hv]
  | inner d0 g n p ihn ihp =>
    intro h d hd hv
    have := hm _ _ (below_data h hd) hv
    unfold Node.unprunedLeaves
    rw [if_pos (show (v d0.info).2 = true from this)]
    rcases List.mem_append.1 hd with hd | hd
    · exact List.mem_append_left _ (ihn h.2.2.1 hd hv)
    · exact List.mem_append_right _ (ihp h.2.2.2 hd hv)

theorem counted_known {d : NodeData} (h : Counted d) {x : BPoly} (hx : x ∈ d.border ++ d.contents) : holds d.info x.id := by
  have key : 0 < (d.infoFor x.id).interior ∨ 0 < (d.infoFor x.id).border := by
    rw [(h x.id).1, (h x.id).2, List.countP_pos_iff, List.countP_pos_iff]
    rcases List.mem_append.1 hx with hx | hx
    · exact Or.inr ⟨x, hx, by simp⟩
    · exact Or.inl ⟨x, hx, by simp⟩
  unfold NodeData.infoFor at key
  by_cases hl : x.id < d.info.length
  · refine ⟨hl, ?_⟩
    simpa [List.getD_eq_getElem?_getD, hl] using key
  · simp [List.getD_eq_getElem?_getD, hl] at key

theorem cell_ids {aabb : Bool} {t : Node} {path : List Bool} {b : AABB} (hb : SolidBox b) {d : NodeData} (h : mappedCell aabb t path b = some d) :
    ∀ x ∈ d.border ++ d.contents, x.id = 0 ∨ x.id = 1 := by
  obtain ⟨l, -, hs⟩ := C89_sound hb h
  intro x hx
  obtain ⟨-, -, e | e⟩ := hs x hx
  · exact Or.inl e.1
  · exact Or.inr e.1

theorem cell_ok {aabb : Bool} {t : Node} {path : List Bool} {b : AABB} (hb : SolidBox b) {d : NodeData} (h : mappedCell aabb t path b = some d) :
    ∃ anc, anc.map Prod.snd = path ∧ AncOK anc ∧ TreeOK anc (.leaf d) := by
  obtain ⟨l, S, m, h1, hp, c1, r1, r2, r3, h4, -⟩ := mappedCell_inv h (solid_walls hb) fun l _ a _ => solid_cut hb a
  obtain ⟨d', anc, e1, e2, e3, e4⟩ := r3.leaf []
  rw [hp, h4, Option.some.injEq, Node.leaf.injEq] at e1
  subst e1
  rw [List.nil_append] at e2
  refine ⟨anc, ?_, AncOK.sub r1.spec.1 AncOK.nil _ e2, r1.spec.1.sub _ e2⟩
  rw [← hp, ← e3, List.map_map]
  rfl

theorem accepted_append (a b : List Visit) : accepted (a ++ b) = accepted a ++ accepted b := by
  induction a with
  | nil => rfl
  | cons x a ih => cases x <;> simp [accepted, ih]

theorem accepted_enter (l : List PlaneRef) : accepted (l.map (.enter false)) = [] := by
  induction l with
  | nil => rfl
  | cons x l ih => exact ih

theorem accepted_leave (l : List PlaneRef) : accepted (l.map (.leave false)) = [] := by
  induction l with
  | nil => rfl
  | cons x l ih => exact ih

theorem cuts_append (a b : List Visit) : cuts (a ++ b) = cuts a ++ cuts b := by
  induction a with
  | nil => rfl
  | cons x a ih =>
    cases x with
    | enter c r => cases c <;> simp [cuts, ih]
    | leave c r => simp [cuts, ih]
    | leaf => simp [cuts, ih]
    | accept p => simp [cuts, ih]

/-- C89: at every point not on a plane of the partitioner, the visitor accepts exactly the
facets of the polygons of the mapped node (see `C89_sound`, `C89_cover_walls` and
`C89_cover_splits`), whatever planes the traversal chooses. -/
theorem C89_output {aabb : Bool} {t : Node} {path : List Bool} {b : AABB} (hb : SolidBox b) {d : NodeData} (h : mappedCell aabb t path b = some d)
    (he : returnsEarly d = false) {choose : Choose} {group : Group} (hg : Grouping group) {pfuel fuel : Nat} {tr : List Visit}
    (ht : nodeBorderVisits choose group pfuel fuel aabb t path b = some tr) {q : Q3} (hq : ∀ g ∈ cuts tr, g.side q ≠ 0) (id : Nat) (pl : HS3) :
    (∃ p ∈ accepted tr, p.id = id ∧ p.poly.plane = pl ∧ q ∈ p.poly.region) ↔
      ∃ x ∈ d.border ++ d.contents, x.id = id ∧ x.poly.plane = pl ∧ q ∈ x.poly.region := by
  unfold nodeBorderVisits at ht
  obtain ⟨l, -, ht⟩ := Option.bind_eq_some_iff.1 ht
  rw [h, Option.bind_some, he, if_neg (by decide)] at ht
  obtain ⟨⟨t', tr'⟩, hr, rfl⟩ := Option.map_eq_some_iff.1 ht
  rw [accepted_append, accepted_append, accepted_enter, accepted_leave, List.nil_append, List.append_nil]
  have hq' : ∀ g ∈ cuts tr', g.side q ≠ 0 := fun g hg => hq g (by rw [cuts_append, cuts_append]; simp [hg])
  obtain ⟨anc, rfl, hanc, hok⟩ := cell_ok hb h
  have ids := cell_ids hb h
  have r := run_spec (filter_lawful cellFilter) hg (.leaf d) hanc hok trivial hr
  obtain ⟨ops, hops⟩ := r.seq
  obtain ⟨o1, o2, -⟩ := splitSeq_ok hok hops
  obtain ⟨p1, p2, p3⟩ := splitSeq_cover hok trivial hops
  have nst := o2 trivial
  have out := r.out trivial q fun g hg h0 => absurd h0 (hq' g hg)
  have lf : ∀ L ∈ t'.leavesAt (anc.map Prod.snd), ∀ x ∈ L.2.border ++ L.2.contents, holds L.2.info x.id ∧ (x.id = 0 ∨ x.id = 1) ∧ L.2.contents = [] := by
    intro L hL x hx
    obtain ⟨a, -, ha⟩ := leavesAt_subs (anc := anc) hL
    have hk := counted_known (o1.sub _ ha).2.2 hx
    have hmem : L.2 ∈ t'.leaves := by rw [← leavesAt_leaves t' (anc.map Prod.snd)]; exact List.mem_map_of_mem hL
    have hid : x.id = 0 ∨ x.id = 1 := by
      obtain ⟨p, hp, e⟩ := p3 x (by
        rw [polys_leaves p1]
        exact List.mem_flatMap.2 ⟨L.2, hmem, by rw [List.mem_append] at hx ⊢; tauto⟩)
      rw [e]
      refine ids p ?_
      simp only [Node.polys, List.mem_append] at hp ⊢
      tauto
    refine ⟨hk, hid, r.done _ (unpruned_of ?_ nst hmem ?_)⟩
    · intro a b hab hv
      rw [cellFilter_prune] at hv ⊢
      by_contra hn
      push Not at hn
      rcases hv with hv | hv
      · exact (hab.2 0 hn.1).2 hv
      · exact (hab.2 1 hn.2).2 hv
    · rw [cellFilter_prune]
      rcases hid with e | e <;> rw [e] at hk
      · exact Or.inl hk
      · exact Or.inr hk
  have lo : ∀ L ∈ t'.leavesAt (anc.map Prod.snd), leafOutput cellFilter.eval group q L = stackAt q (group L.1 L.2.border).flatten := by
    intro L hL
    unfold leafOutput
    rw [stackAt_flatten]
    refine List.flatMap_congr fun f hf => changing_all fun w x hx => ?_
    obtain ⟨p, hp, rfl⟩ := stackAt_mem hx
    have hp' : p ∈ L.2.border := (hg.perm L.1 L.2.border).mem_iff.1 (List.mem_flatten.2 ⟨f, hf, hp⟩)
    obtain ⟨k1, k2, -⟩ := lf L hL p (List.mem_append_left _ hp')
    exact cellFilter_flip k1.1 k2
  have e1 : (∃ p ∈ accepted tr', Covers id pl q p) ↔ ∃ p ∈ t'.polys, Covers id pl q p := by
    rw [← mem_stackAt (f := (id, pl)), out, List.mem_flatMap, polys_leaves p1, ← leavesAt_leaves t' (anc.map Prod.snd)]
    constructor
    · rintro ⟨L, hL, hf⟩
      rw [lo L hL, mem_stackAt] at hf
      obtain ⟨p, hp, hc⟩ := hf
      exact ⟨p, List.mem_flatMap.2 ⟨L.2, List.mem_map_of_mem hL, List.mem_append_right _ ((hg.perm L.1 L.2.border).mem_iff.1 hp)⟩, hc⟩
    · rintro ⟨p, hp, hc⟩
      obtain ⟨dl, hdl, hp⟩ := List.mem_flatMap.1 hp
      obtain ⟨L, hL, rfl⟩ := List.mem_map.1 hdl
      refine ⟨L, hL, ?_⟩
      rw [lo L hL, mem_stackAt]
      have hce := (lf L hL p (by rw [List.mem_append] at hp ⊢; tauto)).2.2
      rw [hce, List.nil_append] at hp
      exact ⟨p, (hg.perm L.1 L.2.border).mem_iff.2 hp, hc⟩
  refine e1.trans ((p2 id pl q).symm.trans ?_)
  simp only [Node.polys, List.mem_append, Covers]
  constructor <;> rintro ⟨p, hp, hc⟩ <;> exact ⟨p, hp.symm, hc⟩

theorem balanced_wrap {x : List Visit} (h : Balanced x) : ∀ (l : List PlaneRef), Balanced (l.map (.enter false) ++ (x ++ l.reverse.map (.leave false))) := by
  intro l
  induction l with
  | nil => simpa using h
  | cons r l ih =>
    have := Balanced.node (b := false) (r := r) ih .nil
    simpa using this

/-- C89: the calls that the visitor receives are properly nested. -/
theorem C89_nested {aabb : Bool} {t : Node} {path : List Bool} {b : AABB} (hb : SolidBox b) {choose : Choose} {group : Group} (hg : Grouping group)
    {pfuel fuel : Nat} {tr : List Visit} (ht : nodeBorderVisits choose group pfuel fuel aabb t path b = some tr) : Balanced tr := by
  unfold nodeBorderVisits at ht
  obtain ⟨l, -, ht⟩ := Option.bind_eq_some_iff.1 ht
  obtain ⟨d, h, ht⟩ := Option.bind_eq_some_iff.1 ht
  split_ifs at ht
  · rw [← Option.some.inj ht]
    exact .nil
  · obtain ⟨r, hr, rfl⟩ := Option.map_eq_some_iff.1 ht
    obtain ⟨anc, rfl, hanc, hok⟩ := cell_ok hb h
    exact balanced_wrap (run_spec (filter_lawful cellFilter) hg (.leaf d) hanc hok trivial hr).bal _

theorem nodesIn_append (a b : List Visit) : nodesIn (a ++ b) = nodesIn a ++ nodesIn b := by
  induction a with
  | nil => rfl
  | cons x a ih =>
    cases x with
    | enter c r => cases c <;> simp [nodesIn, ih]
    | leave c r => simp [nodesIn, ih]
    | leaf => simp [nodesIn, ih]
    | accept p => simp [nodesIn, ih]

theorem nodesIn_enter (l : List PlaneRef) : nodesIn (l.map (.enter false)) = l := by
  induction l with
  | nil => rfl
  | cons x l ih => rw [List.map_cons, nodesIn, ih]

theorem pathRefs_get : ∀ {l : List (HS3 × Bool)} {done : List Bool} {i : Nat} {a : HS3 × Bool}, l[i]? = some a →
    (pathRefs done l)[i]? = some ⟨done ++ (l.map Prod.snd).take i, a.1⟩ := by
  intro l
  induction l with
  | nil => intro done i a h; simp at h
  | cons c l ih =>
    intro done i a h
    unfold pathRefs
    cases i with
    | zero =>
      rw [List.getElem?_cons_zero, Option.some.injEq] at h
      subst h
      simp
    | succ i =>
      rw [List.getElem?_cons_succ] at h ⊢
      rw [ih h]
      simp

/-- C89: the nodes above the node are entered first, from the root downwards. -/
theorem C89_entered {aabb : Bool} {t : Node} {path : List Bool} {b : AABB} {choose : Choose} {group : Group}
    {pfuel fuel : Nat} {tr : List Visit} (ht : nodeBorderVisits choose group pfuel fuel aabb t path b = some tr) (hne : tr ≠ [])
    {l : List (HS3 × Bool)} (hl : pathPlanes t path = some l) {i : Nat} {a : HS3 × Bool} (hi : l[i]? = some a) :
    (nodesIn tr)[i]? = some ⟨path.take i, a.1⟩ := by
  unfold nodeBorderVisits at ht
  rw [hl, Option.bind_some] at ht
  obtain ⟨d, h, ht⟩ := Option.bind_eq_some_iff.1 ht
  split_ifs at ht
  · exact absurd (Option.some.inj ht).symm hne
  · obtain ⟨r, hr, rfl⟩ := Option.map_eq_some_iff.1 ht
    have := pathRefs_get (done := []) hi
    rw [pathPlanes_snd hl, List.nil_append] at this
    rw [nodesIn_append, nodesIn_enter, List.getElem?_append_left, this]
    by_contra hlt
    rw [List.getElem?_eq_none (not_lt.1 hlt)] at this
    cases this

/-- C89: the traversal ends and is defined, if the polygons of the mapped node are found and
the planes are chosen among those of the node's polygons.  For polygons that do not track
their bounding boxes. -/
theorem C89_visits_defined {t : Node} {path : List Bool} {b : AABB} (hb : SolidBox b) {d : NodeData} (h : mappedCell false t path b = some d)
    {choose : Choose} (hch : FromContents choose) {group : Group} (hg : Grouping group) :
    ∃ N, ∀ pfuel, N ≤ pfuel → ∀ fuel, (d.border ++ d.contents).length < fuel → ∃ tr, nodeBorderVisits choose group pfuel fuel false t path b = some tr := by
  obtain ⟨l, S, m, h1, hp, c1, r1, r2, r3, h4, -⟩ := mappedCell_inv h (solid_walls hb) fun l _ a _ => solid_cut hb a
  obtain ⟨d', anc', e1, e2, e3, e4⟩ := r3.leaf []
  rw [hp, h4, Option.some.injEq, Node.leaf.injEq] at e1
  subst e1
  obtain ⟨anc, ha, hanc, hok⟩ := cell_ok hb h
  have hplain : Plain d.info.length (Node.leaf d).polys := by
    obtain ⟨-, k, hk, hc⟩ := r1.spec
    intro x hx
    have hx' : x ∈ d.border ++ d.contents := by
      simp only [Node.polys, List.mem_append] at hx ⊢
      tauto
    obtain ⟨L, hL⟩ : ∃ L, ∀ s ∈ (walls () b).map (fun P => (⟨0, P⟩ : Source)) ++ S, s.id < L :=
      ⟨_, fun s hs => Nat.lt_succ_of_le (List.le_max?_getD_of_mem (k := 0) (List.mem_map_of_mem (f := Source.id) hs))⟩
    exact ⟨((made_plain hk hL).of hc x (e4.subset hx')).1, (counted_known hok.2.2 hx').1⟩
  obtain ⟨N, hN⟩ := run_defined (filter_lawful cellFilter) hch hg (L := d.info.length) (H := (Node.leaf d).polys.map fun x => x.poly.plane) (.leaf d) hanc hok
    trivial (show d.info.length ≤ d.info.length from le_rfl) hplain fun x hx => List.mem_map_of_mem (f := fun x : BPoly => x.poly.plane) hx
  refine ⟨N, fun pfuel hpf fuel hf => ?_⟩
  unfold nodeBorderVisits
  rw [h1, Option.bind_some, h, Option.bind_some]
  split_ifs
  · exact ⟨_, rfl⟩
  · obtain ⟨r, hr⟩ := hN pfuel hpf fuel (by
      rw [List.length_map]
      simp only [Node.polys, List.length_append] at hf ⊢
      omega)
    rw [ha] at hr
    rw [show run cellFilter.eval choose group pfuel fuel (.leaf d) path d = some r from hr]
    exact ⟨_, rfl⟩

/-- C89: an accepted polygon contains, apart from points on planes of the partitioner, only
points of the border of the box, or of split planes above the node, that are in the box and in
the closed cell of the node. -/
theorem C89_output_sound {aabb : Bool} {t : Node} {path : List Bool} {b : AABB} (hb : SolidBox b) {l : List (HS3 × Bool)} (hl : pathPlanes t path = some l)
    {choose : Choose} {group : Group} (hg : Grouping group) {pfuel fuel : Nat} {tr : List Visit}
    (ht : nodeBorderVisits choose group pfuel fuel aabb t path b = some tr) {q : Q3} (hq : ∀ g ∈ cuts tr, g.side q ≠ 0)
    {p : BPoly} (hp : p ∈ accepted tr) (hqp : q ∈ p.poly.region) :
    InBox b q ∧ (∀ a ∈ l, onSide a.1 a.2 q) ∧ ((∃ i up, q ∈ Facet b i up) ∨ ∃ a ∈ l, p.poly.plane = if a.2 then a.1.neg else a.1) := by
  have ht0 := ht
  unfold nodeBorderVisits at ht0
  rw [hl, Option.bind_some] at ht0
  obtain ⟨d, h, ht0⟩ := Option.bind_eq_some_iff.1 ht0
  cases he : returnsEarly d with
  | true =>
    rw [he, if_pos rfl, Option.some.injEq] at ht0
    subst ht0
    exact absurd hp List.not_mem_nil
  | false =>
    obtain ⟨x, hx, x1, x2, x3⟩ := (C89_output hb h he hg ht hq p.id p.poly.plane).1 ⟨p, hp, rfl, rfl, hqp⟩
    obtain ⟨l', hl', hs⟩ := C89_sound hb h
    rw [hl, Option.some.injEq] at hl'
    subst hl'
    obtain ⟨-, s2, s3⟩ := hs x hx
    refine ⟨(s2 q x3).1, (s2 q x3).2, ?_⟩
    rcases s3 with s3 | s3
    · exact Or.inl (s3.2.2 q x3)
    · exact Or.inr (by rw [← x2]; exact s3.2)

/-- C89: a point of a facet of the box that is strictly on the node's side of all the split
planes above the node, and not on a plane of the partitioner, is in an accepted polygon that
has the whole box behind it. -/
theorem C89_output_walls {aabb : Bool} {t : Node} {path : List Bool} {b : AABB} (hb : SolidBox b) {l : List (HS3 × Bool)} (hl : pathPlanes t path = some l)
    {choose : Choose} {group : Group} (hg : Grouping group) {pfuel fuel : Nat} {tr : List Visit}
    (ht : nodeBorderVisits choose group pfuel fuel aabb t path b = some tr) {i : Fin 3} {up : Bool} {q : Q3} (hq : ∀ g ∈ cuts tr, g.side q ≠ 0)
    (hf : q ∈ Facet b i up) (hs : ∀ c ∈ l, if c.2 then 0 < c.1.side q else c.1.side q < 0) :
    ∃ p ∈ accepted tr, q ∈ p.poly.region ∧ (∀ z, InBox b z → p.poly.plane.side z ≤ 0) ∧ ∀ z ∈ Facet b i up, p.poly.plane.side z = 0 := by
  have ht0 := ht
  unfold nodeBorderVisits at ht0
  rw [hl, Option.bind_some] at ht0
  obtain ⟨d, h, ht0⟩ := Option.bind_eq_some_iff.1 ht0
  obtain ⟨x, hx, x1, x2, x3, x4⟩ := C89_cover_walls hb h hl hf hs
  have he : returnsEarly d = false := by
    unfold returnsEarly
    rw [(cell_winding hb h hl).1.2 ⟨x, hx, x1⟩]
    simp
  obtain ⟨p, hp, p1, p2, p3⟩ := (C89_output hb h he hg ht hq x.id x.poly.plane).2 ⟨x, hx, rfl, rfl, x2⟩
  exact ⟨p, hp, p3, by rw [p2]; exact x3, by rw [p2]; exact x4⟩

/-- C89: if the box and the cell of the node have an inner point in common, then a point of the
box that lies in one of the split planes above the node, strictly on the node's side of all the
others and not on a plane of the partitioner, is in an accepted polygon that lies in that split
plane and faces away from the node. -/
theorem C89_output_splits {aabb : Bool} {t : Node} {path : List Bool} {b : AABB} (hb : SolidBox b) {l1 l2 : List (HS3 × Bool)} {a : HS3 × Bool}
    (hl : pathPlanes t path = some (l1 ++ a :: l2)) (hn : a.1.n ≠ ⟨0, 0, 0⟩)
    {z : Q3} (hz : ∀ i, (b.lo.comp i / b.den : ℚ) < z i ∧ z i < b.hi.comp i / b.den) (hzl : ∀ c ∈ l1 ++ a :: l2, if c.2 then 0 < c.1.side z else c.1.side z < 0)
    {choose : Choose} {group : Group} (hg : Grouping group) {pfuel fuel : Nat} {tr : List Visit}
    (ht : nodeBorderVisits choose group pfuel fuel aabb t path b = some tr) {q : Q3} (hq : ∀ g ∈ cuts tr, g.side q ≠ 0)
    (hqb : InBox b q) (ha : a.1.side q = 0) (hs : ∀ c ∈ l1 ++ l2, if c.2 then 0 < c.1.side q else c.1.side q < 0) :
    ∃ p ∈ accepted tr, q ∈ p.poly.region ∧ (∀ z, p.poly.plane.side z = 0 → a.1.side z = 0) ∧
      if a.2 then dotQ p.poly.plane.n.q a.1.n.q < 0 else 0 < dotQ p.poly.plane.n.q a.1.n.q := by
  have ht0 := ht
  unfold nodeBorderVisits at ht0
  rw [hl, Option.bind_some] at ht0
  obtain ⟨d, h, ht0⟩ := Option.bind_eq_some_iff.1 ht0
  obtain ⟨x, hx, x1, x2, x3⟩ := C89_cover_splits hb h hl hn hqb ha hs
  have he : returnsEarly d = false := by
    rw [Bool.eq_false_iff]
    intro e
    exact C89_early hb h hl e hz hzl
  obtain ⟨p, hp, p1, p2, p3⟩ := (C89_output hb h he hg ht hq x.id x.poly.plane).2 ⟨x, hx, rfl, rfl, x1⟩
  exact ⟨p, hp, p3, by rw [p2]; exact x2, by rw [p2]; exact x3⟩

/-! ### Examples -/

/-- The ids, normals and vertex counts of the polygons accepted for the cell with 1 ≤ x and y ≤ 1: a box.  The partitioner has no work. -/
example : (nodeBorderVisits chooseFirst groupByKey 10 20 false crossTree [true, false] boxOfTwo).map (fun tr =>
    ((accepted tr).map fun p => (p.id, p.poly.plane.n, p.poly.count), (cuts tr).length)) =
    some ([(0, ⟨0, 0, 1⟩, 4), (0, ⟨1, 0, 0⟩, 4), (0, ⟨0, -1, 0⟩, 4), (0, ⟨0, 0, -1⟩, 4), (1, ⟨0, 1, 0⟩, 4), (1, ⟨-1, 0, 0⟩, 4)], 0) := by decide +kernel

/-- The nodes above are entered first, as in `C89_entered`. -/
example : (nodeBorderVisits chooseFirst groupByKey 10 20 false crossTree [true, false] boxOfTwo).map (fun tr => ((nodesIn tr).map PlaneRef.path).take 2) =
    some [[], [true]] := by decide +kernel

theorem crossTree_visits : ∃ tr, nodeBorderVisits chooseFirst groupByKey 10 20 false crossTree [true, false] boxOfTwo = some tr ∧ cuts tr = [] := by
  have : (nodeBorderVisits chooseFirst groupByKey 10 20 false crossTree [true, false] boxOfTwo).map (fun tr => (cuts tr).length) = some 0 := by decide +kernel
  obtain ⟨tr, h1, h2⟩ := Option.map_eq_some_iff.1 this
  exact ⟨tr, h1, List.length_eq_zero_iff.1 h2⟩

/-- The hypotheses of `C89_visits_defined` hold for it. -/
example : ∃ N, ∀ pfuel, N ≤ pfuel → ∃ fuel tr, nodeBorderVisits chooseFirst groupByKey pfuel fuel false crossTree [true, false] boxOfTwo = some tr := by
  obtain ⟨d, hd⟩ := crossTree_cell
  obtain ⟨N, hN⟩ := C89_visits_defined boxOfTwo_solid hd chooseFirst_from groupByKey_ok
  exact ⟨N, fun pfuel h => ⟨_, hN pfuel h _ (Nat.lt_succ_self _)⟩⟩

/-- The hypotheses of `C89_output_walls` hold for the point (2, 1/2, 1) of the wall x = 2, and those of `C89_output_sound` for what it gives. -/
example : ∃ tr, nodeBorderVisits chooseFirst groupByKey 10 20 false crossTree [true, false] boxOfTwo = some tr ∧
    ∃ p ∈ accepted tr, ![2, 1/2, 1] ∈ p.poly.region ∧ InBox boxOfTwo ![2, 1/2, 1] := by
  obtain ⟨tr, h1, h2⟩ := crossTree_visits
  have hq : ∀ g ∈ cuts tr, g.side ![2, 1/2, 1] ≠ 0 := by rw [h2]; simp
  obtain ⟨p, p1, p2, -⟩ := C89_output_walls (i := 0) (up := true) (q := ![2, 1/2, 1]) boxOfTwo_solid
    (l := [(⟨⟨1, 0, 0⟩, 1⟩, true), (⟨⟨0, 1, 0⟩, 1⟩, false)]) rfl groupByKey_ok h1 hq ⟨inBoxOfTwo (by norm_num), by norm_num [boxOfTwo, V3.comp]⟩ (by
      intro c hc
      simp only [List.mem_cons, List.not_mem_nil, or_false] at hc
      rcases hc with rfl | rfl <;> norm_num [HS3.side, dotQ, V3.q, V3.comp])
  exact ⟨tr, h1, p, p1, p2, (C89_output_sound boxOfTwo_solid rfl groupByKey_ok h1 hq p1 p2).1⟩

/-- The hypotheses of `C89_output_splits` hold for the point (1, 1/2, 1) of the first split plane and the inner point (3/2, 1/2, 1). -/
example : ∃ tr, nodeBorderVisits chooseFirst groupByKey 10 20 false crossTree [true, false] boxOfTwo = some tr ∧
    ∃ p ∈ accepted tr, ![1, 1/2, 1] ∈ p.poly.region := by
  obtain ⟨tr, h1, h2⟩ := crossTree_visits
  obtain ⟨p, p1, p2, -⟩ := C89_output_splits (q := ![1, 1/2, 1]) (z := ![3/2, 1/2, 1]) boxOfTwo_solid (l1 := []) (a := (⟨⟨1, 0, 0⟩, 1⟩, true))
    (l2 := [(⟨⟨0, 1, 0⟩, 1⟩, false)]) rfl (by decide) (by
      intro i
      fin_cases i <;> norm_num [boxOfTwo, V3.comp]) (by
      intro c hc
      simp only [List.nil_append, List.mem_cons, List.not_mem_nil, or_false] at hc
      rcases hc with rfl | rfl <;> norm_num [HS3.side, dotQ, V3.q, V3.comp]) groupByKey_ok h1 (by rw [h2]; simp) (inBoxOfTwo (by norm_num))
    (by norm_num [HS3.side, dotQ, V3.q, V3.comp]) (by
      intro c hc
      simp only [List.nil_append, List.mem_cons, List.not_mem_nil, or_false] at hc
      subst hc
      norm_num [HS3.side, dotQ, V3.q, V3.comp])
  exact ⟨tr, h1, p, p1, p2⟩

end Walnut.Props
