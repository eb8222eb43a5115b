/-
What the visitors do with the calls of a traversal.
-/
import Verif.Bsp.Visitor
import Verif.Bsp.Placed

namespace Walnut.Bsp
open Walnut.Geom Walnut.Poly Walnut.Props

/-! ### Maps -/

/-- The nodes that have been entered and not left, with the flag of the call. -/
abbrev Open := List (PlaneRef × Bool)

/-- The depth of a node. -/
def keyDepth : Option (List Bool) → Nat
  | none => 0
  | some p => p.length + 1

/-- The nodes of the map with their flags. -/
def skeleton (m : NodeMap) : List (Option (List Bool) × Bool) := m.map fun e => (e.1, e.2.temporary)

/-- The edges collected for a node. -/
def pending (m : NodeMap) (k : Option (List Bool)) : List Entry := ((m.lookup k).map NodeInfo.edges).getD []

theorem lookup_skeleton (m : NodeMap) (k : Option (List Bool)) : (skeleton m).lookup k = (m.lookup k).map NodeInfo.temporary := by
  induction m with
  | nil => rfl
  | cons e m ih =>
    obtain ⟨k', n⟩ := e
    unfold skeleton at ih ⊢
    simp only [List.map_cons, List.lookup_cons]
    by_cases h : k == k'
    · simp [h]
    · simp only [h]; exact ih

theorem lookup_addEntry (k k' : Option (List Bool)) (x : Entry) (m : NodeMap) :
    (addEntry k x m).lookup k' = (m.lookup k').map fun n => if k' = k then { n with edges := n.edges ++ [x] } else n := by
  induction m with
  | nil => rfl
  | cons e m ih =>
    obtain ⟨k'', n⟩ := e
    unfold addEntry at ih ⊢
    rw [List.map_cons]
    by_cases h1 : k'' = k
    · simp only [h1, if_true, List.lookup_cons]
      by_cases h2 : k' = k
      · simp [h2]
      · have : (k' == k) = false := by simpa using h2
        rw [this, ih]
    · simp only [h1, if_false, List.lookup_cons]
      by_cases h2 : k' = k''
      · have h3 : ¬ k' = k := by rw [h2]; exact h1
        simp [h2, h1]
      · have : (k' == k'') = false := by simpa using h2
        rw [this, ih]

theorem skeleton_addEntry (k : Option (List Bool)) (x : Entry) (m : NodeMap) : skeleton (addEntry k x m) = skeleton m := by
  unfold skeleton addEntry
  rw [List.map_map]
  refine List.map_congr_left fun e _ => ?_
  simp only [Function.comp]
  split_ifs <;> rfl

theorem lookup_mem {α β : Type} [BEq α] [LawfulBEq α] {l : List (α × β)} {k : α} {b : β} (h : l.lookup k = some b) : (k, b) ∈ l := by
  induction l with
  | nil => simp at h
  | cons e l ih =>
    obtain ⟨k', b'⟩ := e
    rw [List.lookup_cons] at h
    by_cases hk : k == k'
    · simp only [hk] at h
      rw [← Option.some.inj h, eq_of_beq hk]; simp
    · simp only [hk] at h
      exact List.mem_cons_of_mem _ (ih h)

theorem lookup_of_mem {α β : Type} [BEq α] [LawfulBEq α] {l : List (α × β)} {k : α} (h : k ∈ l.map Prod.fst) : ∃ b, l.lookup k = some b := by
  induction l with
  | nil => simp at h
  | cons e l ih =>
    obtain ⟨k', b'⟩ := e
    rw [List.lookup_cons]
    by_cases hk : k == k'
    · exact ⟨b', by simp [hk]⟩
    · simp only [hk]
      simp only [List.map_cons, List.mem_cons] at h
      exact ih (h.resolve_left fun e => hk (by simp [e]))

theorem lookup_none {α β : Type} [BEq α] [LawfulBEq α] {l : List (α × β)} {k : α} (h : k ∉ l.map Prod.fst) : l.lookup k = none := by
  cases hl : l.lookup k with
  | none => rfl
  | some b => exact absurd (List.mem_map_of_mem (f := Prod.fst) (lookup_mem hl)) h

/-! ### One polygon -/

/-- An edge of an accepted polygon, with what the visitor notes about it. -/
structure Tag where
  p : BPoly
  e : Edge EdgeInfo
  entry : Entry

/-- The node where the edge is collected. -/
def Tag.key (t : Tag) : Option (List Bool) := t.e.data.first.ptr

/-- The edges of a polygon. -/
def edgeTags (p : BPoly) (n : Nat) : Nat → List (Edge EdgeInfo) → List Tag
  | _, [] => []
  | i, e :: l => ⟨p, e, ⟨keyDepth e.data.createdBy.ptr, n, i⟩⟩ :: edgeTags p n (i + 1) l

/-- The edges that go to a node. -/
def forKey (k : Option (List Bool)) (l : List Tag) : List Entry := (l.filter fun x => x.key = k).map Tag.entry

theorem forKey_append (k : Option (List Bool)) (a b : List Tag) : forKey k (a ++ b) = forKey k a ++ forKey k b := by
  unfold forKey; rw [List.filter_append, List.map_append]

theorem mem_forKey {k : Option (List Bool)} {l : List Tag} {z : Entry} : z ∈ forKey k l ↔ ∃ x ∈ l, x.key = k ∧ x.entry = z := by
  unfold forKey
  simp only [List.mem_map, List.mem_filter, decide_eq_true_eq]
  constructor
  · rintro ⟨x, ⟨h1, h2⟩, h3⟩; exact ⟨x, h1, h2, h3⟩
  · rintro ⟨x, h1, h2, h3⟩; exact ⟨x, ⟨h1, h2⟩, h3⟩

/-- The pointer is cleared, or it points to one of the nodes. -/
def Kept (A : List PlaneRef) (s s' : SplitSide) : Prop := (s'.split = none) ∨ (s' = s ∧ ∃ r ∈ A, s.split = some r)

/-- The edge, with cleared pointers. -/
structure EdgeKept (A : List PlaneRef) (e e' : Edge EdgeInfo) : Prop where
  vertex : e'.vertex = e.vertex
  line : e'.line = e.line
  createdBy : e'.data.createdBy = e.data.createdBy
  first : Kept A e.data.first e'.data.first
  vertexLast : Kept A e.data.vertexLast e'.data.vertexLast
  edgeLast : Kept A e.data.edgeLast e'.data.edgeLast

/-- The polygon, with cleared pointers. -/
structure PolyKept (A : List PlaneRef) (p p' : BPoly) : Prop where
  plane : p'.poly.plane = p.poly.plane
  id : p'.id = p.id
  onNode : p'.onNode = p.onNode
  edges : List.Forall₂ (EdgeKept A) p.poly.edges p'.poly.edges

theorem Kept.mono {A B : List PlaneRef} (h : A ⊆ B) {s s' : SplitSide} (hk : Kept A s s') : Kept B s s' :=
  hk.imp_right fun ⟨e, r, hr, hs⟩ => ⟨e, r, h hr, hs⟩

theorem PolyKept.mono {A B : List PlaneRef} (h : A ⊆ B) {p p' : BPoly} (hk : PolyKept A p p') : PolyKept B p p' :=
  ⟨hk.plane, hk.id, hk.onNode, hk.edges.imp fun _ _ e => ⟨e.vertex, e.line, e.createdBy, e.first.mono h, e.vertexLast.mono h, e.edgeLast.mono h⟩⟩

/-- The pointers of the edge point to open nodes. -/
structure EdgePtr (fl : Open) (e : Edge EdgeInfo) : Prop where
  first : ∃ x ∈ fl, e.data.first.split = some x.1
  vertexLast : ∃ x ∈ fl, e.data.vertexLast.split = some x.1
  edgeLast : ∃ x ∈ fl, e.data.edgeLast.split = some x.1
  createdBy : e.data.createdBy.split = none ∨ ∃ x ∈ fl, e.data.createdBy.split = some x.1

/-- The nodes that remain after the traversal. -/
def keptRefs (fl : Open) : List PlaneRef := (fl.filter fun x => !x.2).map Prod.fst

/-- The entries of the maps for the open nodes, the last one first. -/
def keysOf (fl : Open) : List (Option (List Bool) × Bool) := (fl.map fun x => (some x.1.path, x.2)).reverse

def depthsOf (fl : Open) : List (Option (List Bool) × Nat) := (fl.map fun x => (some x.1.path, keyDepth (some x.1.path))).reverse ++ [(none, 0)]

theorem depths_lookup {fl : Open} {k : Option (List Bool)} (h : k = none ∨ ∃ x ∈ fl, k = some x.1.path) : (depthsOf fl).lookup k = some (keyDepth k) := by
  have : k ∈ (depthsOf fl).map Prod.fst := by
    unfold depthsOf
    rcases h with rfl | ⟨x, hx, rfl⟩
    · simp
    · simp only [List.map_append, List.map_reverse, List.map_map, List.mem_append, List.mem_reverse, List.mem_map]
      exact Or.inl ⟨x, hx, rfl⟩
  obtain ⟨b, hb⟩ := lookup_of_mem this
  have hm := lookup_mem hb
  unfold depthsOf at hm
  rcases List.mem_append.1 hm with hm | hm
  · obtain ⟨x, _, e⟩ := List.mem_map.1 (List.mem_reverse.1 hm)
    rw [hb]
    simp only [Prod.mk.injEq] at e
    rw [← e.2, e.1]
  · simp only [List.mem_singleton, Prod.mk.injEq] at hm
    rw [hb, hm.1, hm.2]; rfl

theorem clear_kept {fl : Open} (hnd : (fl.map fun x => x.1.path).Nodup) {m : NodeMap} (hm : skeleton m = keysOf fl) {s : SplitSide} {x : PlaneRef × Bool} (hx : x ∈ fl)
    (hs : s.split = some x.1) : ∃ n, m.lookup s.ptr = some n ∧ Kept (keptRefs fl) s (clearSplit n.temporary s) := by
  have hp : s.ptr = some x.1.path := by unfold SplitSide.ptr; rw [hs]; rfl
  have : s.ptr ∈ (skeleton m).map Prod.fst := by
    rw [hm, hp]
    unfold keysOf
    simp only [List.map_reverse, List.map_map, List.mem_reverse, List.mem_map]
    exact ⟨x, hx, rfl⟩
  obtain ⟨b, hb⟩ := lookup_of_mem this
  have hmem := lookup_mem hb
  rw [lookup_skeleton] at hb
  obtain ⟨n, hn, rfl⟩ := Option.map_eq_some_iff.1 hb
  refine ⟨n, hn, ?_⟩
  unfold clearSplit
  cases ht : n.temporary with
  | true => exact Or.inl (by simp)
  | false =>
    refine Or.inr ⟨by simp, x.1, ?_, hs⟩
    rw [hm, ht, hp] at hmem
    unfold keysOf at hmem
    obtain ⟨y, hy, e⟩ := List.mem_map.1 (List.mem_reverse.1 hmem)
    simp only [Prod.mk.injEq, Option.some.injEq] at e
    have : y = x := by
      have := List.inj_on_of_nodup_map hnd hy hx e.1
      exact this
    subst this
    unfold keptRefs
    exact List.mem_map_of_mem (List.mem_filter.2 ⟨hy, by simp [e.2]⟩)

theorem acceptEdges_spec {fl : Open} (hnd : (fl.map fun x => x.1.path).Nodup) (p : BPoly) (n : Nat) : ∀ (l : List (Edge EdgeInfo)) (i : Nat) (m : NodeMap), skeleton m = keysOf fl →
    (∀ e ∈ l, EdgePtr fl e) → ∃ m' l', acceptEdges (depthsOf fl) n i l m = some (m', l') ∧ skeleton m' = keysOf fl ∧ List.Forall₂ (EdgeKept (keptRefs fl)) l l' ∧
      ∀ x ∈ fl, pending m' (some x.1.path) = pending m (some x.1.path) ++ forKey (some x.1.path) (edgeTags p n i l) := by
  intro l
  induction l with
  | nil => intro i m hm _; exact ⟨m, [], rfl, hm, .nil, fun x _ => by simp [forKey, edgeTags]⟩
  | cons e l ih =>
    intro i m hm hl
    have he := hl e (by simp)
    obtain ⟨x1, hx1, h1⟩ := he.first
    obtain ⟨x2, hx2, h2⟩ := he.vertexLast
    obtain ⟨x3, hx3, h3⟩ := he.edgeLast
    obtain ⟨n1, l1, k1⟩ := clear_kept hnd hm hx1 h1
    have hd : (depthsOf fl).lookup e.data.createdBy.ptr = some (keyDepth e.data.createdBy.ptr) := by
      refine depths_lookup ?_
      unfold SplitSide.ptr
      rcases he.createdBy with h | ⟨x, hx, h⟩
      · left; rw [h]; rfl
      · right; exact ⟨x, hx, by rw [h]; rfl⟩
    have hm' : skeleton (addEntry e.data.first.ptr ⟨keyDepth e.data.createdBy.ptr, n, i⟩ m) = keysOf fl := by rw [skeleton_addEntry, hm]
    obtain ⟨n2, l2, k2⟩ := clear_kept hnd hm' hx2 h2
    obtain ⟨n3, l3, k3⟩ := clear_kept hnd hm' hx3 h3
    obtain ⟨m'', l', a1, a2, a3, a4⟩ := ih (i + 1) _ hm' fun e he => hl e (by simp [he])
    refine ⟨m'', { e with data := ⟨e.data.createdBy, clearSplit n1.temporary e.data.first, clearSplit n2.temporary e.data.vertexLast, clearSplit n3.temporary e.data.edgeLast⟩ } :: l',
      ?_, a2, .cons ⟨rfl, rfl, rfl, k1, k2, k3⟩ a3, fun x hx => ?_⟩
    · unfold acceptEdges acceptEdge
      simp only [l1, hd, l2, l3, Option.bind_eq_bind, Option.bind_some, Option.pure_def, a1]
    · rw [a4 x hx, edgeTags]
      rw [show ∀ (y : Tag) (t : List Tag), forKey (some x.1.path) (y :: t) = forKey (some x.1.path) [y] ++ forKey (some x.1.path) t from fun y t => forKey_append _ [y] t, ← List.append_assoc]
      refine congrArg (fun z : List Entry => z ++ forKey (some x.1.path) (edgeTags p n (i + 1) l)) ?_
      unfold pending
      rw [lookup_addEntry]
      by_cases hk : some x.1.path = e.data.first.ptr
      · rw [hk, l1]
        simp [forKey, Tag.key]
      · have hk' : ¬ e.data.first.ptr = some x.1.path := fun h => hk h.symm
        cases m.lookup (some x.1.path) with
        | none => simp [forKey, Tag.key, hk']
        | some y => simp [forKey, Tag.key, hk, hk']

/-! ### All calls -/

/-- The edges of accepted polygons, if the first of the polygons has number `n`. -/
def tags : Nat → List BPoly → List Tag
  | _, [] => []
  | n, p :: l => edgeTags p n 0 p.poly.edges ++ tags (n + 1) l

theorem tags_append (n : Nat) (a b : List BPoly) : tags n (a ++ b) = tags n a ++ tags (n + a.length) b := by
  induction a generalizing n with
  | nil => rfl
  | cons p a ih =>
    rw [List.cons_append, tags, tags, ih, List.append_assoc, List.length_cons]
    congr 3
    omega

/-- The visitor is in a state where the nodes are open. -/
structure AtOpen (fl : Open) (s : ConnState) : Prop where
  nodes : skeleton s.nodes = keysOf fl
  depths : s.depths = depthsOf fl

/-- The edges that go to none of the open nodes. -/
def notOpen (fl : Open) (l : List Tag) : List Entry := (l.filter fun x => decide (∀ y ∈ fl, x.key ≠ some y.1.path)).map Tag.entry

theorem notOpen_append (fl : Open) (a b : List Tag) : notOpen fl (a ++ b) = notOpen fl a ++ notOpen fl b := by
  unfold notOpen; rw [List.filter_append, List.map_append]

/-- The paths of the open nodes have the right lengths. -/
def LenOK (fl : Open) : Prop := ∀ (i : Nat) (x : PlaneRef × Bool), fl[i]? = some x → x.1.path.length = i

theorem LenOK.nodup {fl : Open} (h : LenOK fl) : (fl.map fun x => x.1.path).Nodup := by
  rw [List.nodup_iff_getElem?_ne_getElem?]
  intro i j hij hj
  simp only [List.getElem?_map]
  rw [List.length_map] at hj
  rw [List.getElem?_eq_getElem (by omega), List.getElem?_eq_getElem hj]
  intro e
  have h1 := h i _ (List.getElem?_eq_getElem (by omega))
  have h2 := h j _ (List.getElem?_eq_getElem hj)
  simp only [Option.map_some, Option.some.injEq] at e
  rw [e] at h1; omega

theorem LenOK.append {fl : Open} (h : LenOK fl) {r : PlaneRef} (hr : r.path.length = fl.length) (t : Bool) : LenOK (fl ++ [(r, t)]) := by
  intro i x hx
  by_cases hi : i < fl.length
  · rw [List.getElem?_append_left hi] at hx; exact h i x hx
  · rw [List.getElem?_append_right (by omega)] at hx
    have : i - fl.length = 0 := by
      by_contra hne
      rw [List.getElem?_eq_none (by simp; omega)] at hx
      simp at hx
    rw [this] at hx
    simp only [List.getElem?_cons_zero, Option.some.injEq] at hx
    subst hx; simp only; omega

theorem LenOK.lt {fl : Open} (h : LenOK fl) {x : PlaneRef × Bool} (hx : x ∈ fl) : x.1.path.length < fl.length := by
  obtain ⟨i, hi, rfl⟩ := List.mem_iff_getElem.1 hx
  rw [h i _ (List.getElem?_eq_getElem hi)]; exact hi

/-- What the calls do. -/
structure RunOf (fl : Open) (tr : List Visit) (s s' : ConnState) (nc : List (PlaneRef × List Entry)) : Prop where
  run : connRun tr s = some s'
  at' : AtOpen fl s'
  polygons : ∃ l, s'.polygons = s.polygons ++ l ∧ List.Forall₂ (PolyKept (keptRefs fl ++ nodesIn tr)) (accepted tr) l
  pend : ∀ x ∈ fl, pending s'.nodes (some x.1.path) = pending s.nodes (some x.1.path) ++ forKey (some x.1.path) (tags s.polygons.length (accepted tr))
  calls : s'.calls = s.calls ++ nc
  all : (nc.flatMap Prod.snd).Perm (notOpen fl (tags s.polygons.length (accepted tr)))
  refs : ∀ x ∈ tags s.polygons.length (accepted tr), ∃ r, x.e.data.first.split = some r ∧ ((∃ y ∈ fl, r = y.1) ∨ fl.length ≤ r.path.length)
  planes : ∀ c ∈ nc, ∀ z ∈ c.2, ∃ x ∈ tags s.polygons.length (accepted tr), x.entry = z ∧ x.e.data.first.split = some c.1

theorem RunOf.length {fl : Open} {tr : List Visit} {s s' : ConnState} {nc : List (PlaneRef × List Entry)} (h : RunOf fl tr s s' nc) :
    s'.polygons.length = s.polygons.length + (accepted tr).length := by
  obtain ⟨l, e, hl⟩ := h.polygons
  rw [e, List.length_append, hl.length_eq]

theorem connRun_append (a b : List Visit) (s : ConnState) : connRun (a ++ b) s = (connRun a s).bind (connRun b) := by
  induction a generalizing s with
  | nil => rfl
  | cons v a ih =>
    rw [List.cons_append, connRun, connRun]
    cases s.step v with
    | none => rfl
    | some s' => exact ih s'

theorem RunOf.append {fl : Open} {a b : List Visit} {s s1 s2 : ConnState} {na nb : List (PlaneRef × List Entry)} (ha : RunOf fl a s s1 na) (hb : RunOf fl b s1 s2 nb) :
    RunOf fl (a ++ b) s s2 (na ++ nb) := by
  have hlen := ha.length
  have ht : tags s.polygons.length (accepted (a ++ b)) = tags s.polygons.length (accepted a) ++ tags s1.polygons.length (accepted b) := by
    rw [accepted_append, tags_append, hlen]
  refine ⟨?_, hb.at', ?_, fun x hx => ?_, ?_, ?_, fun x hx => ?_, fun c hc z hz => ?_⟩
  · rw [connRun_append, ha.run]; exact hb.run
  · obtain ⟨l1, e1, h1⟩ := ha.polygons
    obtain ⟨l2, e2, h2⟩ := hb.polygons
    refine ⟨l1 ++ l2, by rw [e2, e1, List.append_assoc], ?_⟩
    rw [accepted_append]
    refine List.rel_append (h1.imp fun _ _ h => h.mono ?_) (h2.imp fun _ _ h => h.mono ?_)
    · rw [nodesIn_append]; intro x hx; simp only [List.mem_append] at hx ⊢; tauto
    · rw [nodesIn_append]; intro x hx; simp only [List.mem_append] at hx ⊢; tauto
  · rw [hb.pend x hx, ha.pend x hx, ht, forKey_append, List.append_assoc]
  · rw [hb.calls, ha.calls, List.append_assoc]
  · rw [ht, notOpen_append, List.flatMap_append]
    exact ha.all.append hb.all
  · rw [ht] at hx
    rcases List.mem_append.1 hx with hx | hx
    · exact ha.refs x hx
    · exact hb.refs x hx
  · rw [ht]
    rcases List.mem_append.1 hc with hc | hc
    · obtain ⟨x, hx, h⟩ := ha.planes c hc z hz
      exact ⟨x, List.mem_append_left _ hx, h⟩
    · obtain ⟨x, hx, h⟩ := hb.planes c hc z hz
      exact ⟨x, List.mem_append_right _ hx, h⟩

theorem RunOf.nil {fl : Open} {s : ConnState} (h : AtOpen fl s) : RunOf fl [] s s [] :=
  ⟨rfl, h, ⟨[], by simp, .nil⟩, fun x _ => by simp [accepted, tags, forKey], by simp, by simp [accepted, tags, notOpen], by simp [accepted, tags], by simp⟩

theorem RunOf.leaf {fl : Open} {s : ConnState} (h : AtOpen fl s) : RunOf fl [.leaf] s s [] :=
  ⟨rfl, h, ⟨[], by simp, .nil⟩, fun x _ => by simp [accepted, tags, forKey], by simp, by simp [accepted, tags, notOpen], by simp [accepted, tags], by simp⟩

theorem mem_edgeTags {p : BPoly} {n : Nat} {l : List (Edge EdgeInfo)} {i : Nat} {x : Tag} (h : x ∈ edgeTags p n i l) :
    x.p = p ∧ x.entry.poly = n ∧ ∃ j, l[j]? = some x.e ∧ x.entry.edge = i + j := by
  induction l generalizing i with
  | nil => simp [edgeTags] at h
  | cons e l ih =>
    rcases List.mem_cons.1 h with rfl | h
    · exact ⟨rfl, rfl, 0, by simp, rfl⟩
    · obtain ⟨h1, h2, j, h3, h4⟩ := ih h
      exact ⟨h1, h2, j + 1, by simpa using h3, by omega⟩

theorem RunOf.accept {fl : Open} (hl : LenOK fl) {p : BPoly} (hp : ∀ e ∈ p.poly.edges, EdgePtr fl e) {s : ConnState} (h : AtOpen fl s) :
    ∃ s', RunOf fl [.accept p] s s' [] := by
  obtain ⟨m', l', a1, a2, a3, a4⟩ := acceptEdges_spec hl.nodup p s.polygons.length p.poly.edges 0 s.nodes h.nodes hp
  have ht : tags s.polygons.length (accepted [.accept p]) = edgeTags p s.polygons.length 0 p.poly.edges := by simp [accepted, tags]
  have hr : ∀ x ∈ edgeTags p s.polygons.length 0 p.poly.edges, ∃ y ∈ fl, x.e.data.first.split = some y.1 := by
    intro x hx
    obtain ⟨_, _, j, h3, _⟩ := mem_edgeTags hx
    exact (hp x.e (List.mem_of_getElem? h3)).first
  refine ⟨{ s with nodes := m', polygons := s.polygons ++ [{ p with poly := { p.poly with edges := l' } }] }, ?_, ⟨a2, h.depths⟩, ?_, ?_, by simp, ?_, ?_, by simp⟩
  · rw [connRun, ConnState.step, h.depths, a1]; rfl
  · exact ⟨_, rfl, .cons ⟨rfl, rfl, rfl, a3.imp fun _ _ e => ⟨e.vertex, e.line, e.createdBy, e.first.mono (by simp), e.vertexLast.mono (by simp), e.edgeLast.mono (by simp)⟩⟩ .nil⟩
  · intro x hx; rw [ht]; exact a4 x hx
  · rw [ht]
    have : notOpen fl (edgeTags p s.polygons.length 0 p.poly.edges) = [] := by
      unfold notOpen
      rw [List.map_eq_nil_iff, List.filter_eq_nil_iff]
      intro x hx hd
      obtain ⟨y, hy, e⟩ := hr x hx
      refine of_decide_eq_true hd y hy ?_
      unfold Tag.key SplitSide.ptr; rw [e]; rfl
    rw [this]; simp
  · rw [ht]
    intro x hx
    obtain ⟨y, hy, e⟩ := hr x hx
    exact ⟨y.1, e, Or.inl ⟨y, hy, rfl⟩⟩

theorem skeleton_filter (m : NodeMap) (k : Option (List Bool)) : skeleton (m.filter fun e => e.1 ≠ k) = (skeleton m).filter fun e => e.1 ≠ k := by
  unfold skeleton
  rw [List.filter_map]
  rfl

theorem pending_filter (m : NodeMap) {k k' : Option (List Bool)} (h : k' ≠ k) : pending (m.filter fun e => e.1 ≠ k) k' = pending m k' := by
  unfold pending
  congr 2
  induction m with
  | nil => rfl
  | cons e m ih =>
    rw [List.filter_cons]
    obtain ⟨k'', n⟩ := e
    by_cases hk : k'' = k
    · have : (k' == k'') = false := by rw [hk]; simpa using h
      simp only [hk, ne_eq, not_true_eq_false, decide_false, Bool.false_eq_true, if_false, ih, List.lookup_cons]
      rw [hk] at this
      rw [this]
    · simp only [ne_eq, hk, not_false_eq_true, decide_true, if_true, List.lookup_cons, ih]

theorem tags_perm_split {fl : Open} {r : PlaneRef} {t : Bool} (hr : ∀ y ∈ fl, y.1.path ≠ r.path) (l : List Tag) :
    (notOpen (fl ++ [(r, t)]) l ++ forKey (some r.path) l).Perm (notOpen fl l) := by
  induction l with
  | nil => simp [notOpen, forKey]
  | cons x l ih =>
    rw [show x :: l = [x] ++ l from rfl, notOpen_append, notOpen_append, forKey_append]
    have key : (notOpen (fl ++ [(r, t)]) [x] ++ forKey (some r.path) [x]).Perm (notOpen fl [x]) := by
      unfold notOpen forKey
      by_cases hk : x.key = some r.path
      · have h1 : ¬ ∀ y ∈ fl ++ [(r, t)], x.key ≠ some y.1.path := fun h => h (r, t) (by simp) hk
        have h2 : ∀ y ∈ fl, x.key ≠ some y.1.path := fun y hy e => hr y hy (by rw [hk] at e; exact (Option.some.inj e).symm)
        rw [List.filter_cons_of_neg (by simpa using h1), List.filter_cons_of_pos (by simpa using hk), List.filter_cons_of_pos (by simpa using h2)]
        simp
      · have h1 : (∀ y ∈ fl ++ [(r, t)], x.key ≠ some y.1.path) ↔ ∀ y ∈ fl, x.key ≠ some y.1.path := by
          constructor
          · intro h y hy; exact h y (by simp [hy])
          · intro h y hy
            rcases List.mem_append.1 hy with hy | hy
            · exact h y hy
            · simp only [List.mem_singleton] at hy
              subst hy; exact hk
        simp only [List.filter_cons, List.filter_nil, decide_eq_decide.2 h1, hk, decide_false, Bool.false_eq_true, if_false, List.map_nil, List.append_nil]
        exact List.Perm.refl _
    refine List.Perm.trans ?_ (key.append ih)
    simp only [List.append_assoc]
    refine List.Perm.append_left _ ?_
    rw [← List.append_assoc, ← List.append_assoc]
    exact List.Perm.append_right _ List.perm_append_comm

theorem RunOf.bracket {fl : Open} (hl : LenOK fl) {r : PlaneRef} {t : Bool} (hr : r.path.length = fl.length) {a : List Visit} {s s' : ConnState} {nc : List (PlaneRef × List Entry)}
    (h : AtOpen fl s) (ha : RunOf (fl ++ [(r, t)]) a { s with depths := (some r.path, s.nodes.length + 1) :: s.depths, nodes := (some r.path, ⟨t, []⟩) :: s.nodes } s' nc) :
    ∃ s'', RunOf fl (.enter t r :: (a ++ [.leave t r])) s s'' (nc ++ [(r, forKey (some r.path) (tags s.polygons.length (accepted a)))]) := by
  have hne : ∀ y ∈ fl, y.1.path ≠ r.path := by
    intro y hy e
    have := hl.lt hy
    rw [e] at this; omega
  have hacc : accepted (.enter t r :: (a ++ [.leave t r])) = accepted a := by simp [accepted, accepted_append]
  have hnodes : (s.nodes.lookup (some r.path)) = none := by
    have : some r.path ∉ (skeleton s.nodes).map Prod.fst := by
      rw [h.nodes]
      unfold keysOf
      simp only [List.map_reverse, List.map_map, List.mem_reverse, List.mem_map]
      rintro ⟨y, hy, e⟩
      exact hne y hy (Option.some.inj e)
    have h2 := lookup_none this
    rw [lookup_skeleton] at h2
    simpa using h2
  have hdep : s.depths.lookup (some r.path) = none := by
    refine lookup_none ?_
    rw [h.depths]
    unfold depthsOf
    simp only [List.map_append, List.map_reverse, List.map_map, List.mem_append, List.mem_reverse, List.mem_map]
    rintro (⟨y, hy, e⟩ | h)
    · exact hne y hy (Option.some.inj e)
    · simp at h
  have hpend : pending s'.nodes (some r.path) = forKey (some r.path) (tags s.polygons.length (accepted a)) := by
    rw [ha.pend (r, t) (by simp)]
    simp [pending]
  have hlook : ∃ n, s'.nodes.lookup (some r.path) = some n := by
    have : some r.path ∈ (skeleton s'.nodes).map Prod.fst := by
      rw [ha.at'.nodes]; simp [keysOf]
    obtain ⟨b, hb⟩ := lookup_of_mem this
    rw [lookup_skeleton] at hb
    obtain ⟨n, hn, _⟩ := Option.map_eq_some_iff.1 hb
    exact ⟨n, hn⟩
  obtain ⟨n, hn⟩ := hlook
  have hne' : n.edges = forKey (some r.path) (tags s.polygons.length (accepted a)) := by
    rw [← hpend]; unfold pending; rw [hn]; rfl
  refine ⟨{ s' with calls := s'.calls ++ [(r, n.edges)], nodes := s'.nodes.filter (fun e => e.1 ≠ some r.path), depths := s'.depths.filter (fun e => e.1 ≠ some r.path) },
    ?_, ⟨?_, ?_⟩, ?_, fun x hx => ?_, ?_, ?_, fun x hx => ?_, fun c hc z hz => ?_⟩
  · rw [connRun, ConnState.step]
    simp only [hnodes, hdep, Option.isSome_none, Bool.false_eq_true, if_false, Option.bind_some]
    rw [connRun_append, ha.run, Option.bind_some, connRun, ConnState.step]
    simp only [hn, Option.bind_some, connRun]
  · simp only
    rw [skeleton_filter, ha.at'.nodes]
    unfold keysOf
    rw [List.map_append, List.reverse_append]
    simp only [List.map_cons, List.map_nil, List.reverse_cons, List.reverse_nil, List.nil_append, List.filter_append]
    rw [List.filter_cons]
    simp only [ne_eq, not_true_eq_false, decide_false, Bool.false_eq_true, if_false, List.filter_nil, List.nil_append]
    rw [List.filter_eq_self]
    intro e he
    obtain ⟨y, hy, rfl⟩ := List.mem_map.1 (List.mem_reverse.1 he)
    simpa using hne y hy
  · simp only
    rw [ha.at'.depths]
    unfold depthsOf
    rw [List.map_append, List.reverse_append]
    simp only [List.map_cons, List.map_nil, List.reverse_cons, List.reverse_nil, List.nil_append, List.filter_append]
    rw [List.filter_cons]
    simp only [ne_eq, not_true_eq_false, decide_false, Bool.false_eq_true, if_false, List.filter_nil, List.nil_append]
    congr 1
    rw [List.filter_eq_self]
    intro e he
    obtain ⟨y, hy, rfl⟩ := List.mem_map.1 (List.mem_reverse.1 he)
    simpa using hne y hy
  · obtain ⟨l, e, hk⟩ := ha.polygons
    refine ⟨l, e, ?_⟩
    rw [hacc]
    refine hk.imp fun _ _ h => h.mono ?_
    intro x hx
    rcases List.mem_append.1 hx with hx | hx
    · unfold keptRefs at hx ⊢
      rw [List.filter_append, List.map_append] at hx
      rcases List.mem_append.1 hx with hx | hx
      · exact List.mem_append_left _ hx
      · refine List.mem_append_right _ ?_
        cases t with
        | true => simp at hx
        | false =>
          have : x = r := by simpa using hx
          subst this
          simp [nodesIn]
    · refine List.mem_append_right _ ?_
      rw [show Visit.enter t r :: (a ++ [.leave t r]) = [.enter t r] ++ (a ++ [.leave t r]) from rfl, nodesIn_append, nodesIn_append]
      exact List.mem_append_right _ (List.mem_append_left _ hx)
  · rw [hacc]
    simp only
    rw [pending_filter _ (by intro e; exact hne x hx (Option.some.inj e)), ha.pend x (by simp [hx])]
    congr 1
    unfold pending
    rw [List.lookup_cons]
    have : (some x.1.path == some r.path) = false := by simpa using hne x hx
    rw [this]
  · simp only
    rw [ha.calls, hne', List.append_assoc]
  · rw [hacc, List.flatMap_append]
    refine List.Perm.trans ?_ (tags_perm_split (t := t) hne _)
    simp only [List.flatMap_cons, List.flatMap_nil, List.append_nil]
    exact ha.all.append_right _
  · rw [hacc] at hx
    obtain ⟨q, h1, h2⟩ := ha.refs x hx
    refine ⟨q, h1, ?_⟩
    rcases h2 with ⟨y, hy, rfl⟩ | h2
    · rcases List.mem_append.1 hy with hy | hy
      · exact Or.inl ⟨y, hy, rfl⟩
      · simp only [List.mem_singleton] at hy
        subst hy; right; simp only; omega
    · right; simp at h2; omega
  · rw [hacc]
    rcases List.mem_append.1 hc with hc | hc
    · exact ha.planes c hc z hz
    · simp only [List.mem_singleton] at hc
      subst hc
      obtain ⟨x, hx, hk, he⟩ := mem_forKey.1 hz
      refine ⟨x, hx, he, ?_⟩
      obtain ⟨q, h1, h2⟩ := ha.refs x hx
      have hq : q.path = r.path := by
        unfold Tag.key SplitSide.ptr at hk
        rw [h1] at hk
        exact Option.some.inj hk
      rw [h1]
      rcases h2 with ⟨y, hy, rfl⟩ | h2
      · rcases List.mem_append.1 hy with hy | hy
        · exact absurd hq (hne y hy)
        · simp only [List.mem_singleton] at hy
          subst hy; rfl
      · rw [hq, hr] at h2; simp at h2

theorem AtOpen.enter {fl : Open} {r : PlaneRef} {t : Bool} (hr : r.path.length = fl.length) {s : ConnState} (h : AtOpen fl s) :
    AtOpen (fl ++ [(r, t)]) { s with depths := (some r.path, s.nodes.length + 1) :: s.depths, nodes := (some r.path, ⟨t, []⟩) :: s.nodes } := by
  have hlen : s.nodes.length = fl.length := by
    have := congrArg List.length h.nodes
    simpa [skeleton, keysOf] using this
  refine ⟨?_, ?_⟩
  · have := h.nodes
    unfold keysOf at this ⊢
    rw [List.map_append, List.reverse_append, ← this]
    rfl
  · simp only
    rw [h.depths, hlen, ← hr]
    unfold depthsOf
    rw [List.map_append, List.reverse_append]
    rfl

end Walnut.Bsp
