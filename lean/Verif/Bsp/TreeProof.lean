/-
Histories of a binary space partition, and that its operations are defined.
-/
import Verif.Bsp.NodeProof
import Verif.Props.Track

namespace Walnut.Bsp
open Walnut.Geom Walnut.Poly

/-! ### Adding polygons to the root -/

theorem fresh_same (P : Polygon Unit) : Same P (⟨P.plane, P.drop, P.edges.map fun e => ⟨e.vertex, e.line, {}⟩⟩ : Polygon EdgeInfo) := by
  refine ⟨rfl, rfl, by simp [Polygon.count], fun i => ?_, fun i => ?_⟩
  · simp only [Polygon.vertexD, List.getElem?_map]
    cases P.edges[i]? <;> rfl
  · simp only [Polygon.lineD, List.getElem?_map]
    cases P.edges[i]? <;> rfl

theorem fresh_edges (P : Polygon Unit) : EdgesOK [] (⟨P.plane, P.drop, P.edges.map fun e => ⟨e.vertex, e.line, {}⟩⟩ : Polygon EdgeInfo) := by
  intro i e he
  simp only [List.getElem?_map, Option.map_eq_some_iff] at he
  obtain ⟨e0, _, rfl⟩ := he
  exact ⟨Or.inl ⟨rfl, by simp⟩, Or.inl ⟨rfl, by simp⟩, Or.inl ⟨rfl, by simp⟩, Or.inl rfl⟩

theorem addRoot_spec {d d' : NodeData} {aabb : Bool} {id : Nat} {P : Polygon Unit} (hP : IsConvexPolygon P)
    (h : d.addRoot aabb id P = some d') :
    ∃ x, Received d d' [x] [] ∧ ContentOK [] x ∧ x.id = id ∧ Same P x.poly ∧ (aabb = false → x.tracker = none) := by
  unfold NodeData.addRoot at h
  simp only at h
  split at h
  · simp at h
  · rename_i T hT
    rw [← Option.some.inj h]
    refine ⟨_, ⟨rfl, by simp, fun j => ?_, by simp⟩, ⟨⟨(fresh_same P).convex hP, fun T' hT' => ?_, fun q _ a ha => by simp at ha, fresh_edges P⟩,
      rfl, by simp⟩, rfl, fresh_same P, fun ha => ?_⟩
    · simp only [List.getD_eq_getElem?_getD, modify_get]
      by_cases e : id = j
      · subst e
        by_cases hl : id < d.info.length
        · simp [hl]
        · simp only [Nat.not_lt] at hl
          simp [List.getElem?_append_right hl, List.getElem?_eq_none hl, show id - d.info.length < id + 1 - d.info.length by omega]
      · by_cases hl : j < d.info.length
        · simp [List.getElem?_append_left hl, hl, e]
        · simp only [Nat.not_lt] at hl
          simp only [List.getElem?_append_right hl, List.getElem?_replicate, List.getElem?_eq_none hl]
          split_ifs <;> simp [e]
    · simp only at hT'
      subst hT'
      cases aabb
      · simp at hT
      · simp only [if_true, Option.map_eq_some_iff, Option.some.injEq] at hT
        obtain ⟨T1, h1, rfl⟩ := hT
        have hc := (fresh_same P).convex hP
        exact (Props.C31_build _ hc.count_pos hc.finite).1 _ h1
    · subst ha
      simpa using hT.symm

/-! ### Histories -/

/-- A polygon added to the tree. -/
structure Source where
  id : Nat
  poly : Polygon Unit

/-- The trees that a program can build from an empty one, and the polygons it added. -/
inductive Reach (aabb : Bool) : Node → List Source → Prop
  | empty : Reach aabb (.leaf {}) []
  | add {t t' : Node} {S : List Source} {id : Nat} {P : Polygon Unit} : Reach aabb t S → IsConvexPolygon P →
      t.addRoot aabb id P = some t' → Reach aabb t' (S ++ [⟨id, P⟩])
  | push {t t' : Node} {S : List Source} : Reach aabb t S → t.pushToLeaves [] = some t' → Reach aabb t' S
  | pushAt {t t' : Node} {S : List Source} {path : List Bool} : Reach aabb t S → t.pushAt [] path = some t' → Reach aabb t' S
  | split {t t' : Node} {S : List Source} {path : List Bool} {g : HS3} : Reach aabb t S → t.splitAt [] path g = some t' → Reach aabb t' S

/-- The polygon is the source with additional members. -/
def Made (aabb : Bool) (s : Source) (x : BPoly) : Prop := x.id = s.id ∧ Same s.poly x.poly ∧ (aabb = false → x.tracker = none)

theorem Reach.spec {aabb : Bool} {t : Node} {S : List Source} (h : Reach aabb t S) :
    TreeOK [] t ∧ ∃ l, List.Forall₂ (Made aabb) S l ∧ Conserved t.planes l t.polys := by
  induction h with
  | empty => exact ⟨⟨by simp, by simp, fun id => by simp [NodeData.infoFor]⟩, [], .nil, Conserved.refl _ _⟩
  | @add t t' S id P _ hP ht ih =>
    obtain ⟨h1, l, h2, h3⟩ := ih
    unfold Node.addRoot at ht
    obtain ⟨d, hd, rfl⟩ := Option.map_eq_some_iff.1 ht
    obtain ⟨x, hr, hx, e1, e2, e3⟩ := addRoot_spec hP hd
    refine ⟨h1.receive hr (by simpa using hx) (by simp), l ++ [x], ?_, ?_⟩
    · exact List.rel_append h2 (.cons ⟨e1, e2, e3⟩ .nil)
    · rw [setData_planes]
      exact (h3.append (Conserved.refl _ [x])).trans (Conserved.perm (by simpa using (receive_polys hr).symm) _)
  | push _ ht ih =>
    obtain ⟨h1, l, h2, h3⟩ := ih
    obtain ⟨a, b, c⟩ := pushToLeaves_ok h1 ht
    exact ⟨a, l, h2, by rw [c]; exact h3.trans b⟩
  | pushAt _ ht ih =>
    obtain ⟨h1, l, h2, h3⟩ := ih
    obtain ⟨a, b, c⟩ := pushAt_ok _ [] _ _ h1 ht
    exact ⟨a, l, h2, by rw [c]; exact h3.trans b⟩
  | split _ ht ih =>
    obtain ⟨h1, l, h2, h3⟩ := ih
    obtain ⟨a, b, c⟩ := splitAt_ok _ [] _ _ _ h1 ht
    refine ⟨a, l, h2, (h3.mono fun x hx => (c x).2 (Or.inl hx)).trans (b.mono fun x hx => (c x).2 (Or.inr (by simpa using hx)))⟩

/-! ### Definedness -/

/-- Polygons without bounding boxes whose contents are below `L`. -/
def Plain (L : Nat) (l : List BPoly) : Prop := ∀ x ∈ l, x.tracker = none ∧ x.id < L

/-- All content vectors have at least `L` entries. -/
def Fits (L : Nat) : Node → Prop
  | .leaf d => L ≤ d.info.length
  | .inner d _ n p => L ≤ d.info.length ∧ Fits L n ∧ Fits L p

/-- No node is split along a plane of one of its ancestors. -/
def Spread : List HS3 → Node → Prop
  | _, .leaf _ => True
  | l, .inner _ g n p => (∀ h ∈ l, ¬ Through g h) ∧ Spread (l ++ [g]) n ∧ Spread (l ++ [g]) p

theorem Fits.data {L : Nat} : ∀ {t : Node}, Fits L t → L ≤ t.data.info.length
  | .leaf _, h => h
  | .inner _ _ _ _, h => h.1

theorem Fits.setData {L : Nat} : ∀ {t : Node}, Fits L t → ∀ {d : NodeData}, L ≤ d.info.length → Fits L (t.setData d)
  | .leaf _, _, _, h => h
  | .inner _ _ _ _, h', _, h => ⟨h, h'.2⟩

theorem Plain.of {L : Nat} {G : List HS3} {l l' : List BPoly} (h : Plain L l) (hc : Conserved G l l') : Plain L l' := by
  intro x hx
  obtain ⟨p, hp, e1, e2⟩ := hc.back x hx
  exact ⟨e2 (h p hp).1, e1 ▸ (h p hp).2⟩

theorem Plain.left {L : Nat} {l m : List BPoly} (h : Plain L (l ++ m)) : Plain L l := fun x hx => h x (List.mem_append_left _ hx)
theorem Plain.right {L : Nat} {l m : List BPoly} (h : Plain L (l ++ m)) : Plain L m := fun x hx => h x (List.mem_append_right _ hx)

theorem made_plain {S : List Source} {l : List BPoly} (hl : List.Forall₂ (Made false) S l) {L : Nat} (hS : ∀ s ∈ S, s.id < L) : Plain L l := by
  induction hl with
  | nil => intro x hx; simp at hx
  | cons hm _ ih =>
    intro x hx
    rcases List.mem_cons.1 hx with rfl | hx
    · exact ⟨hm.2.2 rfl, by rw [hm.1]; exact hS _ (by simp)⟩
    · exact ih (fun s hs => hS s (by simp [hs])) x hx

theorem route_id {anc : Anc} {ref : PlaneRef} {p : BPoly} {o : Routed} (h : RouteOK anc ref p o) :
    match o with
    | .both N Q => N.id = p.id ∧ Q.id = p.id
    | .neg N => N.id = p.id
    | .pos Q => Q.id = p.id
    | .on => True := by
  cases o with
  | both N Q => exact ⟨h.2.2.2.2.2.2.1, h.2.2.2.2.2.2.2.1⟩
  | neg N => exact h.2.2.2.2.1
  | pos Q => exact h.2.2.2.2.1
  | on => trivial

theorem pushContent_defined {anc : Anc} {ref : PlaneRef} {p : BPoly} (h : ContentOK anc p)
    (ht : p.tracker = none) {k : NodeData × NodeData} (h1 : p.id < k.1.info.length) (h2 : p.id < k.2.info.length) :
    ∃ k', pushContent ref p k = some k' := by
  obtain ⟨s1, s2⟩ := route_spec h.toPieceOK (Or.inl h.off) ref true
  obtain ⟨o, ho⟩ := s2 ht
  have hid := route_id (s1 o ho)
  unfold pushContent
  rw [ho]
  cases o with
  | both N Q => exact both_defined (addInterior_defined (hid.1 ▸ h1)) (addInterior_defined (hid.2 ▸ h2))
  | neg N => exact both_defined (addInterior_defined (by rw [hid]; exact h1)) ⟨_, rfl⟩
  | pos Q => exact both_defined ⟨_, rfl⟩ (addInterior_defined (by rw [hid]; exact h2))
  | on =>
    have e : (onPlane ref p).id = p.id := by
      have hu := setBoundary_updated p (c := ⟨some ref, onPlanePos p ref.plane⟩) rfl (first := 0) (last := p.poly.count + 1) (by omega)
      exact hu.id
    simp only
    split_ifs
    · exact both_defined ⟨_, rfl⟩ (addBorder_defined (by rw [e]; exact h2))
    · exact both_defined (addBorder_defined (by rw [e]; exact h1)) ⟨_, rfl⟩

/-- Planes that contain the plane of a polygon contain each other. -/
theorem through_through {g h p : HS3} {i : Fin 3} (hi : p.n.comp i ≠ 0) (hh : h.n ≠ ⟨0, 0, 0⟩) (h1 : Through g p) (h2 : Through h p) : Through g h := by
  obtain ⟨l, e1, e2⟩ := h2.parallel hi
  have l0 : l ≠ 0 := by
    rintro rfl
    apply hh
    have a1 := e1 0
    have a2 := e1 1
    have a3 := e1 2
    simp only [V3.q_zero, V3.q_one, V3.q_two, zero_mul] at a1 a2 a3
    have b1 : h.n.x = 0 := by exact_mod_cast a1
    have b2 : h.n.y = 0 := by exact_mod_cast a2
    have b3 : h.n.z = 0 := by exact_mod_cast a3
    cases hc : h.n; rw [hc] at b1 b2 b3; simp at b1 b2 b3; rw [b1, b2, b3]
  intro q hq
  apply h1
  rw [HS3.side_eq] at *
  have a1 := e1 0
  have a2 := e1 1
  have a3 := e1 2
  simp only [V3.q_zero, V3.q_one, V3.q_two] at a1 a2 a3
  apply mul_left_cancel₀ l0
  rw [mul_zero, ← hq, a1, a2, a3, e2]; ring

theorem pushBorder_defined {anc : Anc} {ref : PlaneRef} {p : BPoly} (h : BorderOK anc p) (hanc : ∀ a ∈ anc, a.1.plane.n ≠ ⟨0, 0, 0⟩)
    (hsep : ∀ a ∈ anc, ¬ Through ref.plane a.1.plane)
    (ht : p.tracker = none) {k : NodeData × NodeData} (h1 : p.id < k.1.info.length) (h2 : p.id < k.2.info.length) :
    ∃ k', pushBorder ref p k = some k' := by
  obtain ⟨s1, s2⟩ := route_spec h.toPieceOK (Or.inr h.on) ref false
  obtain ⟨o, ho⟩ := s2 ht
  have hid := route_id (s1 o ho)
  unfold pushBorder
  rw [ho]
  cases o with
  | both N Q => exact both_defined (addBorder_defined (hid.1 ▸ h1)) (addBorder_defined (hid.2 ▸ h2))
  | neg N => exact both_defined (addBorder_defined (by rw [hid]; exact h1)) ⟨_, rfl⟩
  | pos Q => exact both_defined ⟨_, rfl⟩ (addBorder_defined (by rw [hid]; exact h2))
  | on =>
    exfalso
    obtain ⟨a, ha, hat⟩ := h.kind
    exact hsep a ha (through_through h.convex.drop (hanc a ha) (through_of_vertices h.convex _ (s1 _ ho)) hat)

theorem pushAll_defined {f : BPoly → NodeData × NodeData → Option (NodeData × NodeData)} {C : BPoly → Prop} {L : Nat}
    (hf : ∀ p k, C p → L ≤ k.1.info.length → L ≤ k.2.info.length → ∃ k', f p k = some k' ∧ L ≤ k'.1.info.length ∧ L ≤ k'.2.info.length) :
    ∀ (l : List BPoly) (k : NodeData × NodeData), (∀ p ∈ l, C p) → L ≤ k.1.info.length → L ≤ k.2.info.length →
      ∃ k', pushAll f l k = some k' ∧ L ≤ k'.1.info.length ∧ L ≤ k'.2.info.length := by
  intro l
  induction l with
  | nil => intro k _ h1 h2; exact ⟨k, rfl, h1, h2⟩
  | cons p l ih =>
    intro k hC h1 h2
    obtain ⟨k1, e, a1, a2⟩ := hf p k (hC p (by simp)) h1 h2
    unfold pushAll
    rw [e]
    exact ih k1 (fun x hx => hC x (by simp [hx])) a1 a2

theorem pushChildren_defined {anc : Anc} (hanc : ∀ a ∈ anc, a.1.plane.n ≠ ⟨0, 0, 0⟩) {ref : PlaneRef} (hg : ref.plane.n ≠ ⟨0, 0, 0⟩)
    (hsep : ∀ a ∈ anc, ¬ Through ref.plane a.1.plane) {d : NodeData} (hc : ∀ x ∈ d.contents, ContentOK anc x)
    (hb : ∀ x ∈ d.border, BorderOK anc x) {L : Nat} (hp : Plain L (d.contents ++ d.border)) {k : NodeData × NodeData}
    (h1 : L ≤ k.1.info.length) (h2 : L ≤ k.2.info.length) : ∃ k', pushChildren ref d k = some k' := by
  unfold pushChildren
  obtain ⟨i, e, l1, l2⟩ := pushPwn_defined hanc ref.plane d.contents (k.1.info, k.2.info) (fun p hx =>
    ⟨(hc p hx).edges, lt_of_lt_of_le (hp.left p hx).2 h1, lt_of_lt_of_le (hp.left p hx).2 h2⟩)
  simp only at l1 l2
  simp only [e]
  obtain ⟨k1, e1, a1, a2⟩ := pushAll_defined (f := pushContent ref) (C := fun p => ContentOK anc p ∧ p.tracker = none ∧ p.id < L) (L := L)
    (fun p k hC b1 b2 => by
      obtain ⟨k', hk'⟩ := pushContent_defined (ref := ref) (k := k) hC.1 hC.2.1 (lt_of_lt_of_le hC.2.2 b1) (lt_of_lt_of_le hC.2.2 b2)
      obtain ⟨o, _, r1, r2⟩ := pushContent_spec hg hC.1 hk'
      exact ⟨k', hk', b1.trans r1.length, b2.trans r2.length⟩)
    d.contents ({ k.1 with info := i.1 }, { k.2 with info := i.2 }) (fun p hx => ⟨hc p hx, hp.left p hx⟩)
    (by rw [l1]; exact h1) (by rw [l2]; exact h2)
  rw [e1]
  obtain ⟨k2, e2, _⟩ := pushAll_defined (f := pushBorder ref) (C := fun p => BorderOK anc p ∧ p.tracker = none ∧ p.id < L) (L := L)
    (fun p k hC b1 b2 => by
      obtain ⟨k', hk'⟩ := pushBorder_defined (ref := ref) (k := k) hC.1 hanc hsep hC.2.1 (lt_of_lt_of_le hC.2.2 b1) (lt_of_lt_of_le hC.2.2 b2)
      obtain ⟨o, _, r1, r2⟩ := pushBorder_spec hC.1 hk'
      exact ⟨k', hk', b1.trans r1.length, b2.trans r2.length⟩)
    d.border k1 (fun p hx => ⟨hb p hx, hp.right p hx⟩) a1 a2
  exact ⟨k2, e2⟩

theorem anc_extend {anc : Anc} (hanc : ∀ a ∈ anc, a.1.plane.n ≠ ⟨0, 0, 0⟩) {r : PlaneRef} (hr : r.plane.n ≠ ⟨0, 0, 0⟩) (s : Bool) :
    ∀ a ∈ anc ++ [(r, s)], a.1.plane.n ≠ ⟨0, 0, 0⟩ := by
  intro a ha
  rcases List.mem_append.1 ha with ha | ha
  · exact hanc a ha
  · rw [List.mem_singleton.1 ha]; exact hr

theorem anc_planes (anc : Anc) (r : PlaneRef) (s : Bool) :
    (anc ++ [(r, s)]).map (fun a => a.1.plane) = anc.map (fun a => a.1.plane) ++ [r.plane] := by simp

theorem push_lengths {anc : Anc} {ref : PlaneRef} (hg : ref.plane.n ≠ ⟨0, 0, 0⟩) {d : NodeData}
    (hc : ∀ x ∈ d.contents, ContentOK anc x) (hb : ∀ x ∈ d.border, BorderOK anc x) {k k' : NodeData × NodeData}
    (h : pushChildren ref d k = some k') : k.1.info.length ≤ k'.1.info.length ∧ k.2.info.length ≤ k'.2.info.length := by
  obtain ⟨o, _, r1, r2⟩ := pushChildren_spec hg hc hb h
  exact ⟨r1.length, r2.length⟩

theorem spread_setData : ∀ {t : Node} {l : List HS3} (d : NodeData), Spread l t → Spread l (t.setData d)
  | .leaf _, _, _, _ => trivial
  | .inner _ _ _ _, _, _, h => h

/-- `PushContentsToLeaves` is defined. -/
theorem pushDown_defined : ∀ (t : Node) (anc : Anc) (d : NodeData) (L : Nat), (∀ a ∈ anc, a.1.plane.n ≠ ⟨0, 0, 0⟩) →
    TreeOK anc (t.setData d) → Spread (anc.map fun a => a.1.plane) t → Fits L (t.setData d) → Plain L (t.setData d).polys →
    ∃ t', t.pushDown (anc.map Prod.snd) d = some t' ∧ Spread (anc.map fun a => a.1.plane) t' ∧ Fits L t' := by
  intro t
  induction t with
  | leaf d0 => intro anc d L _ _ _ hf _; exact ⟨_, rfl, trivial, hf⟩
  | inner d0 g n p ihn ihp =>
    intro anc d L hanc h hs hf hp
    obtain ⟨s1, s2, s3⟩ := hs
    obtain ⟨f1, f2, f3⟩ := hf
    have hg : g.n ≠ ⟨0, 0, 0⟩ := h.2.2.2.1
    have hp' : Plain L (d.contents ++ d.border ++ (n.polys ++ p.polys)) := hp
    unfold Node.pushDown
    split_ifs
    · exact ⟨_, rfl, ⟨s1, s2, s3⟩, ⟨f1, f2, f3⟩⟩
    · obtain ⟨k, hk⟩ := pushChildren_defined hanc (ref := ⟨anc.map Prod.snd, g⟩) hg
        (fun a ha => s1 _ (List.mem_map_of_mem (f := fun a : PlaneRef × Bool => a.1.plane) ha)) h.contents h.border
        (L := L) hp'.left (k := (n.data, p.data)) f2.data f3.data
      obtain ⟨h5, h6, hcons⟩ := TreeOK.push h hk
      obtain ⟨q1, q2⟩ := push_lengths (ref := ⟨anc.map Prod.snd, g⟩) hg h.1 h.2.1 hk
      have pl := Plain.of (l := (Node.inner d g n p).polys) hp' hcons
      obtain ⟨n', en, sn, fn⟩ := ihn _ _ L (anc_extend hanc hg _) h5 (by rw [anc_planes]; exact s2) (f2.setData (f2.data.trans q1)) pl.left
      obtain ⟨p', ep, sp, fp⟩ := ihp _ _ L (anc_extend hanc hg _) h6 (by rw [anc_planes]; exact s3) (f3.setData (f3.data.trans q2)) pl.right
      rw [map_snd_append] at en ep
      rw [anc_planes] at sn sp
      refine ⟨.inner d.clear g n' p', ?_, ⟨s1, sn, sp⟩, ⟨f1, fn, fp⟩⟩
      rw [show pushChildren _ d _ = some k from hk]
      simp only [en, ep]

/-- The path leads to a leaf, and `g` contains none of the split planes on the way. -/
def Fresh (g : HS3) : Node → List Bool → Prop
  | .leaf _, [] => True
  | .inner _ h n _, false :: path => ¬ Through g h ∧ Fresh g n path
  | .inner _ h _ p, true :: path => ¬ Through g h ∧ Fresh g p path
  | _, _ => False

/-- `Split` is defined. -/
theorem splitAt_defined : ∀ (t : Node) (anc : Anc) (path : List Bool) (g : HS3) (L : Nat), (∀ a ∈ anc, a.1.plane.n ≠ ⟨0, 0, 0⟩) →
    (∀ a ∈ anc, ¬ Through g a.1.plane) → g.n ≠ ⟨0, 0, 0⟩ → TreeOK anc t → Spread (anc.map fun a => a.1.plane) t → Fits L t → Plain L t.polys →
    Fresh g t path → ∃ t', t.splitAt (anc.map Prod.snd) path g = some t' ∧ Spread (anc.map fun a => a.1.plane) t' ∧ Fits L t' := by
  intro t
  induction t with
  | leaf d =>
    intro anc path g L hanc hsep hg h _ hf hp hfr
    cases path with
    | cons b path => exact absurd hfr (by simp [Fresh])
    | nil =>
      unfold Node.splitAt split
      have hz : ¬ g.n.isZero = true := by
        intro hz; apply hg
        unfold V3.isZero at hz
        simp only [decide_eq_true_eq] at hz
        cases hh : g.n; rw [hh] at hz; simp at hz; simp [hz]
      rw [if_neg hz]
      have ll : (setPwn d.info).info.length = d.info.length := by simp [setPwn]
      have hf' : L ≤ (setPwn d.info).info.length := by rw [ll]; exact hf
      obtain ⟨k, hk⟩ := pushChildren_defined hanc (ref := ⟨anc.map Prod.snd, g⟩) hg hsep h.1 h.2.1
        (L := L) hp (k := (setPwn d.info, setPwn d.info)) hf' hf'
      obtain ⟨q1, q2⟩ := push_lengths (ref := ⟨anc.map Prod.snd, g⟩) hg h.1 h.2.1 hk
      rw [hk]
      refine ⟨_, rfl, ⟨?_, trivial, trivial⟩, ⟨hf, hf'.trans q1, hf'.trans q2⟩⟩
      intro x hx
      obtain ⟨a, ha, rfl⟩ := List.mem_map.1 hx
      exact hsep a ha
  | inner d h0 n p ihn ihp =>
    intro anc path g L hanc hsep hg h hs hf hp hfr
    obtain ⟨s1, s2, s3⟩ := hs
    obtain ⟨f1, f2, f3⟩ := hf
    have hg0 : h0.n ≠ ⟨0, 0, 0⟩ := h.2.2.2.1
    have hp' : Plain L (d.contents ++ d.border ++ (n.polys ++ p.polys)) := hp
    have hsep' : ∀ s, ¬ Through g h0 → ∀ a ∈ anc ++ [((⟨anc.map Prod.snd, h0⟩ : PlaneRef), s)], ¬ Through g a.1.plane := by
      intro s hn a ha
      rcases List.mem_append.1 ha with ha | ha
      · exact hsep a ha
      · rw [List.mem_singleton.1 ha]; exact hn
    cases path with
    | nil => exact absurd hfr (by simp [Fresh])
    | cons b path =>
      cases b
      · obtain ⟨w1, w2⟩ := hfr
        obtain ⟨n', en, sn, fn⟩ := ihn _ path g L (anc_extend hanc (r := ⟨anc.map Prod.snd, h0⟩) hg0 _) (hsep' false w1) hg h.2.2.2.2.1
          (by rw [anc_planes]; exact s2) f2 hp'.right.left w2
        rw [map_snd_append] at en
        rw [anc_planes] at sn
        unfold Node.splitAt
        rw [en]
        exact ⟨_, rfl, ⟨s1, sn, s3⟩, ⟨f1, fn, f3⟩⟩
      · obtain ⟨w1, w2⟩ := hfr
        obtain ⟨n', en, sn, fn⟩ := ihp _ path g L (anc_extend hanc (r := ⟨anc.map Prod.snd, h0⟩) hg0 _) (hsep' true w1) hg h.2.2.2.2.2
          (by rw [anc_planes]; exact s3) f3 hp'.right.right w2
        rw [map_snd_append] at en
        rw [anc_planes] at sn
        unfold Node.splitAt
        rw [en]
        exact ⟨_, rfl, ⟨s1, s2, sn⟩, ⟨f1, f2, fn⟩⟩

end Walnut.Bsp
