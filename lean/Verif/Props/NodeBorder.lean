/-
C78: the border of a node of a binary space partition.
-/
import Verif.Bsp.BorderProof

namespace Walnut.Props
open Walnut.Geom Walnut.Poly Walnut.Bsp

/-- A box with positive extent in each dimension. -/
def SolidBox (b : AABB) : Prop := 0 < b.den ∧ ∀ i, b.lo.comp i < b.hi.comp i

theorem solid_cut {b : AABB} (hb : SolidBox b) (a : HS3 × Bool) : CutOK b a := by
  intro C hC
  obtain ⟨r, h1, h2, -⟩ := C69_intersect_plane_partial plainOps () b hb.1 (fun i => (hb.2 i).le) (outward a) (fun _ j _ _ _ => hb.2 j)
  rw [hC, Option.some.injEq] at h1
  exact h2 C h1.symm

/-- C78: each polygon of the border of the node at `path` is convex, lies in a split plane
above the node, faces away from the node, and is inside of the box and of the closed cell
of the node. -/
theorem C78_sound {aabb : Bool} {t : Node} {path : List Bool} {b : AABB} (hb : SolidBox b) {r : List BPoly}
    (h : nodeBorder aabb t path b = some r) :
    ∃ l, pathPlanes t path = some l ∧ ∀ x ∈ r, IsConvexPolygon x.poly ∧
      (∃ a ∈ l, x.poly.plane = if a.2 then a.1.neg else a.1) ∧ ∀ q ∈ x.poly.region, InBox b q ∧ ∀ a ∈ l, onSide a.1 a.2 q := by
  obtain ⟨l, S, m, d, h1, hp, c1, r1, r2, r3, h4, rfl⟩ := nodeBorder_inv h fun l _ a _ => solid_cut hb a
  refine ⟨l, h1, fun x hx => ?_⟩
  obtain ⟨d', anc, e1, e2, e3, e4⟩ := r3.leaf []
  rw [hp, h4, Option.some.injEq, Node.leaf.injEq] at e1
  subst e1
  rw [List.nil_append] at e2
  obtain ⟨k1, k2⟩ := C39_cells r1 e2
  have hok : IsConvexPolygon x.poly ∧ x.poly.region ⊆ Cell anc := by
    rcases List.mem_append.1 hx with hx | hx
    · exact ⟨(k2 x hx).1, (k2 x hx).2.1⟩
    · exact ⟨(k1 x hx).1, (k1 x hx).2.1⟩
  have src : ∀ q ∈ x.poly.region, ∃ a ∈ l, x.poly.plane = outward a ∧ InBox b q := by
    intro q hq
    obtain ⟨s, hs, -, s2, s3⟩ := (C39_cover r1 x.id x.poly.plane q).1 ⟨x, e4.subset hx, rfl, rfl, hq⟩
    obtain ⟨-, a, ha, a1, a2⟩ := c1.mem.1 s hs
    rw [a2] at s3
    exact ⟨a, ha, by rw [← s2, a1], s3.2⟩
  refine ⟨hok.1, ?_, fun q hq => ⟨(src q hq).choose_spec.2.2, fun a ha => ?_⟩⟩
  · obtain ⟨a, ha, e, -⟩ := src (x.poly.pt 0) (subset_convexHull _ _ ⟨0, by obtain ⟨i, j, k, h1, h2, h3, -⟩ := hok.1.proper; omega, rfl⟩)
    exact ⟨a, ha, e⟩
  · rw [← e3] at ha
    obtain ⟨c, hc, rfl⟩ := List.mem_map.1 ha
    exact hok.2 hq c hc

open Classical in
/-- C78: a point of the box that lies in one of the split planes above the node, and
strictly on the node's side of all the others, is in exactly one polygon of the border. -/
theorem C78_cover {aabb : Bool} {t : Node} {path : List Bool} {b : AABB} (hb : SolidBox b) {r : List BPoly}
    (h : nodeBorder aabb t path b = some r) {l1 l2 : List (HS3 × Bool)} {a : HS3 × Bool} (hl : pathPlanes t path = some (l1 ++ a :: l2))
    {q : Q3} (hq : InBox b q) (ha : a.1.side q = 0) (hs : ∀ c ∈ l1 ++ l2, if c.2 then 0 < c.1.side q else c.1.side q < 0) :
    r.countP (fun x => decide (q ∈ x.poly.region)) = 1 := by
  have snd := C78_sound hb h
  obtain ⟨l, S, m, d, h1, hp, c1, r1, r2, r3, h4, rfl⟩ := nodeBorder_inv h fun l _ a _ => solid_cut hb a
  rw [hl, Option.some.injEq] at h1
  subst h1
  obtain ⟨l', hl', snd⟩ := snd
  rw [hl, Option.some.injEq] at hl'
  subst hl'
  have oa : (outward a).side q = 0 := by rw [outward_side, ha]; split_ifs <;> simp
  have oc : ∀ c ∈ l1 ++ l2, (outward c).side q ≠ 0 := by
    intro c hc e
    have := hs c hc
    rw [outward_side] at e
    split_ifs at e this
    · linarith
    · linarith
  obtain ⟨d', anc, e1, -, -, e4⟩ := r3.leaf []
  rw [hp, h4, Option.some.injEq, Node.leaf.injEq] at e1
  subst e1
  apply le_antisymm
  · -- at most as many as there are sources
    have cnt : ∀ {l : List (HS3 × Bool)} {S : List Source}, Cuts b l S →
        S.countP (fun s => decide (s.id = 0 ∧ s.poly.plane = outward a ∧ q ∈ s.poly.region)) ≤ l.countP (fun c => decide ((outward c).side q = 0)) := by
      intro l S hc
      induction hc with
      | nil => simp
      | @cons c l C S k1 k2 _ ih =>
        rw [List.countP_cons, List.countP_cons]
        refine Nat.add_le_add ih ?_
        by_cases k : (outward c).side q = 0
        · rw [if_pos (show (fun c => decide ((outward c).side q = 0)) c = true by simpa using k)]
          split_ifs <;> simp
        · rw [if_neg]
          · exact Nat.zero_le _
          · simp only [decide_eq_true_eq]
            rintro ⟨-, -, k3⟩
            rw [k2] at k3
            exact k k3.1
    have one : (l1 ++ a :: l2).countP (fun c => decide ((outward c).side q = 0)) = 1 := by
      rw [List.countP_append, List.countP_cons, List.countP_eq_zero.2, List.countP_eq_zero.2, if_pos (by simpa using oa)]
      · intro c hc; simpa using oc c (List.mem_append_right _ hc)
      · intro c hc; simpa using oc c (List.mem_append_left _ hc)
    have mult := C39_multiplicity r1 0 (outward a) q (by
      intro g hg
      have hpl : ∀ {l : List (HS3 × Bool)} {t : Node}, Spine l t → ∀ g ∈ t.planes, ∃ c ∈ l, c.1 = g := by
        intro l
        induction l with
        | nil =>
          intro t ht g hg
          cases t with
          | leaf d => simp [Node.planes] at hg
          | inner => exact ht.elim
        | cons c l ih =>
          intro t ht g hg
          cases t with
          | leaf d => exact ht.elim
          | inner d g' n p =>
            obtain ⟨rfl, h2⟩ := ht
            unfold Node.planes at hg
            rcases List.mem_cons.1 hg with rfl | hg
            · exact ⟨c, by simp, rfl⟩
            · split_ifs at h2
              · obtain ⟨⟨k, rfl⟩, h3⟩ := h2
                obtain ⟨c', hc', e⟩ := ih h3 g (by simpa [Node.planes] using hg)
                exact ⟨c', List.mem_cons_of_mem _ hc', e⟩
              · obtain ⟨⟨k, rfl⟩, h3⟩ := h2
                obtain ⟨c', hc', e⟩ := ih h3 g (by simpa [Node.planes] using hg)
                exact ⟨c', List.mem_cons_of_mem _ hc', e⟩
      obtain ⟨c, hc, rfl⟩ := hpl r3 g hg
      rcases List.mem_append.1 hc with hc | hc
      · left
        intro e
        exact oc c (List.mem_append_left _ hc) (by rw [outward_side, e]; split_ifs <;> simp)
      · rcases List.mem_cons.1 hc with rfl | hc
        · right
          intro z hz
          rw [outward_side] at hz
          split_ifs at hz
          · linarith
          · exact hz
        · left
          intro e
          exact oc c (List.mem_append_right _ hc) (by rw [outward_side, e]; split_ifs <;> simp))
    calc (d.border ++ d.contents).countP (fun x => decide (q ∈ x.poly.region))
        = (d.border ++ d.contents).countP (fun x => decide (x.id = 0 ∧ x.poly.plane = outward a ∧ q ∈ x.poly.region)) := by
          refine List.countP_congr fun x hx => ?_
          simp only [decide_eq_true_eq]
          refine ⟨fun hxq => ?_, fun hxq => hxq.2.2⟩
          obtain ⟨s, hsS, s1, s2, s3⟩ := (C39_cover r1 x.id x.poly.plane q).1 ⟨x, e4.subset hx, rfl, rfl, hxq⟩
          obtain ⟨i0, c, hc, k1, k2⟩ := c1.mem.1 s hsS
          rw [k2] at s3
          have : c = a := by
            by_contra hne
            refine oc c ?_ s3.1
            rcases List.mem_append.1 hc with hc | hc
            · exact List.mem_append_left _ hc
            · rcases List.mem_cons.1 hc with rfl | hc
              · exact absurd rfl hne
              · exact List.mem_append_right _ hc
          subst this
          exact ⟨by rw [← s1, i0], by rw [← s2, k1], hxq⟩
      _ ≤ m.polys.countP (fun x => decide (x.id = 0 ∧ x.poly.plane = outward a ∧ q ∈ x.poly.region)) := e4.countP_le _
      _ = S.countP (fun s => decide (s.id = 0 ∧ s.poly.plane = outward a ∧ q ∈ s.poly.region)) := mult
      _ ≤ _ := cnt c1
      _ = 1 := one
  · obtain ⟨s, hsS, s0, s1, s2⟩ := c1.mem.2 a (by simp)
    obtain ⟨x, hx, -, x1, x2⟩ := (C39_cover r1 0 (outward a) q).2 ⟨s, hsS, s0, s1, by rw [s2]; exact ⟨oa, hq⟩⟩
    obtain ⟨d', f1, f2⟩ := r3.find r2 r1.spec.1 hx x2 (by
      intro c hc
      rcases List.mem_append.1 hc with hc | hc
      · exact Or.inl (hs c (List.mem_append_left _ hc))
      · rcases List.mem_cons.1 hc with rfl | hc
        · exact Or.inr ⟨ha, x1⟩
        · exact Or.inl (hs c (List.mem_append_right _ hc)))
    rw [hp, h4, Option.some.injEq, Node.leaf.injEq] at f1
    subst f1
    exact List.countP_pos_iff.2 ⟨x, f2, by simpa using x2⟩

theorem meetInLine_neg {b : AABB} {g : HS3} (h : MeetInLine b g.neg) : MeetInLine b g := by
  obtain ⟨k, h1, h2⟩ := h
  refine ⟨k, fun e => h1 ?_, fun q hq => h2 q ?_⟩
  · simp only [V3.cross, V3.mk.injEq] at e
    simp only [HS3.neg, V3.neg, V3.cross, V3.mk.injEq]
    refine ⟨?_, ?_, ?_⟩
    · linear_combination -e.1
    · linear_combination -e.2.1
    · linear_combination -e.2.2
  · have := outward_side (g, true) q
    simp only [outward, if_true] at this
    rw [this, hq, neg_zero]

theorem addBorders_defined {b : AABB} (hb : SolidBox b) : ∀ {l : List (HS3 × Bool)} {d : NodeData}, (∀ a ∈ l, a.1.n ≠ ⟨0, 0, 0⟩) →
    (∀ a ∈ l, ¬ MeetInLine b a.1) → ∃ t', addBorders false b l (.leaf d) = some t' ∧ (1 ≤ d.info.length ∨ l ≠ [] → Fits 1 t') := by
  intro l
  induction l with
  | nil => intro d _ _; exact ⟨_, rfl, fun h => h.resolve_right (by simp)⟩
  | cons a l ih =>
    intro d h1 h2
    obtain ⟨r, e1, e2, e3⟩ := C69_intersect_plane_partial plainOps () b hb.1 (fun i => (hb.2 i).le) (outward a) (fun _ j _ _ _ => hb.2 j)
    obtain ⟨P, rfl⟩ : ∃ P, r = some P := by
      cases r with
      | some P => exact ⟨P, rfl⟩
      | none =>
        exfalso
        rcases e3.1 rfl with e | e
        · refine h1 a (by simp) ?_
          unfold outward at e
          split_ifs at e
          · simp only [HS3.neg, V3.neg, V3.mk.injEq, neg_eq_zero] at e
            ext
            · exact e.1
            · exact e.2.1
            · exact e.2.2
          · exact e
        · refine h2 a (by simp) ?_
          unfold outward at e
          split_ifs at e
          · exact meetInLine_neg e
          · exact e
    unfold addBorders
    rw [e1]
    dsimp only
    obtain ⟨t', f1, f2⟩ := ih (d := ⟨d.contents ++ [⟨⟨P.plane, P.drop, P.edges.map fun e => ⟨e.vertex, e.line, {}⟩⟩, none, 0, {}⟩], d.border,
      (d.info ++ List.replicate (0 + 1 - d.info.length) ({} : Info)).modify 0 fun i => { i with interior := i.interior + 1 }⟩)
      (fun a ha => h1 a (List.mem_cons_of_mem _ ha)) (fun a ha => h2 a (List.mem_cons_of_mem _ ha))
    refine ⟨t', f1, fun _ => f2 (Or.inl ?_)⟩
    rw [List.length_modify, List.length_append, List.length_replicate]
    omega

theorem spine_fresh : ∀ {l : List (HS3 × Bool)} {t : Node} {g : HS3}, Spine l t → (∀ a ∈ l, ¬ Through g a.1) → Fresh g t (l.map Prod.snd) := by
  intro l
  induction l with
  | nil =>
    intro t g h _
    cases t with
    | leaf d => trivial
    | inner => exact h.elim
  | cons a l ih =>
    intro t g h hl
    cases t with
    | leaf d => exact h.elim
    | inner d k n p =>
      obtain ⟨rfl, h2⟩ := h
      obtain ⟨k, c⟩ := a
      have := hl (k, c) (by simp)
      cases c
      · exact ⟨this, ih h2.2 fun a ha => hl a (List.mem_cons_of_mem _ ha)⟩
      · exact ⟨this, ih h2.2 fun a ha => hl a (List.mem_cons_of_mem _ ha)⟩

theorem splitPath_defined {L : Nat} {S : List Source} (hS : ∀ s ∈ S, s.id < L) : ∀ {l l0 : List (HS3 × Bool)} {t : Node}, Reach false t S → Spread [] t → Fits L t →
    Spine l0 t → (∀ a ∈ l, a.1.n ≠ ⟨0, 0, 0⟩) → (l0 ++ l).Pairwise (fun a c => ¬ Through c.1 a.1) →
    ∃ t', splitPath l (l0.map Prod.snd) t = some t' := by
  intro l
  induction l with
  | nil => intro l0 t _ _ _ _ _ _; exact ⟨t, rfl⟩
  | cons a l ih =>
    intro l0 t h1 h2 h3 h4 h5 h6
    obtain ⟨t1, e1, e2, e3⟩ := C39_split_defined h1 h2 h3 hS (h5 a (by simp)) (spine_fresh h4 fun c hc =>
      (List.pairwise_append.1 h6).2.2 c hc a (by simp))
    obtain ⟨t', e4⟩ := ih (l0 := l0 ++ [a]) (h1.split e1) e2 e3 (h4.split a e1) (fun c hc => h5 c (List.mem_cons_of_mem _ hc))
      (by rwa [List.append_assoc])
    refine ⟨t', ?_⟩
    unfold splitPath
    rw [e1, Option.bind_some]
    rw [List.map_append] at e4
    exact e4

/-- C78: the function succeeds if each split plane above the node has more than a line in
common with the box, and no two of them are equal.  For polygons that do not track their
bounding boxes. -/
theorem C78_defined_partial {t : Node} {path : List Bool} {b : AABB} (hb : SolidBox b) {l : List (HS3 × Bool)} (hl : pathPlanes t path = some l)
    (h0 : ∀ a ∈ l, a.1.n ≠ ⟨0, 0, 0⟩) (hm : ∀ a ∈ l, ¬ MeetInLine b a.1) (hd : l.Pairwise fun a c => ¬ Through c.1 a.1) :
    ∃ r, nodeBorder false t path b = some r := by
  unfold nodeBorder
  rw [hl, Option.bind_some]
  obtain ⟨m0, h1, h2⟩ := addBorders_defined hb (d := {}) h0 hm
  rw [h1, Option.bind_some]
  obtain ⟨S, c1, c2, d0, rfl⟩ := addBorders_spec .empty ⟨_, rfl⟩ (fun a _ => solid_cut hb a) h1
  rw [List.nil_append] at c2
  have : ∃ m, splitPath l [] (.leaf d0) = some m := by
    by_cases hn : l = []
    · subst hn; exact ⟨_, rfl⟩
    · exact splitPath_defined (l0 := []) (fun s hs => by rw [(c1.mem.1 s hs).1]; exact one_pos) c2 trivial (h2 (Or.inr hn)) trivial h0 (by simpa using hd)
  obtain ⟨m, hm⟩ := this
  rw [hm, Option.bind_some]
  obtain ⟨-, -, r3⟩ := splitPath_spec (l0 := []) c2 trivial trivial hm
  rw [List.nil_append] at r3
  obtain ⟨d, -, e1, -⟩ := r3.leaf []
  rw [pathPlanes_snd hl] at e1
  exact ⟨_, by rw [e1]; rfl⟩

/-! ### Examples -/

/-- A tree that is split at x = 1 and, on the positive side, at y = 1. -/
def crossTree : Node := .inner {} ⟨⟨1, 0, 0⟩, 1⟩ (.leaf {}) (.inner {} ⟨⟨0, 1, 0⟩, 1⟩ (.leaf {}) (.leaf {}))

/-- The box from (0,0,0) to (2,2,2). -/
def boxOfTwo : AABB := ⟨⟨0, 0, 0⟩, ⟨2, 2, 2⟩, 1⟩

theorem boxOfTwo_solid : SolidBox boxOfTwo := ⟨by decide, by decide⟩

theorem crossTree_meet : ∀ a ∈ [((⟨⟨1, 0, 0⟩, 1⟩ : HS3), true), (⟨⟨0, 1, 0⟩, 1⟩, false)], ¬ MeetInLine boxOfTwo a.1 := by
  have pts : ∀ x y z : ℚ, 0 ≤ x ∧ x ≤ 2 ∧ 0 ≤ y ∧ y ≤ 2 ∧ 0 ≤ z ∧ z ≤ 2 → InBox boxOfTwo ![x, y, z] := by
    rintro x y z ⟨h1, h2, h3, h4, h5, h6⟩ i
    fin_cases i
    · simpa [boxOfTwo, V3.comp] using ⟨h1, h2⟩
    · simpa [boxOfTwo, V3.comp] using ⟨h3, h4⟩
    · simpa [boxOfTwo, V3.comp] using ⟨h5, h6⟩
  intro a ha
  simp only [List.mem_cons, List.not_mem_nil, or_false] at ha
  rintro ⟨g, h1, h2⟩
  rcases ha with rfl | rfl
  · have k1 := h2 ![1, 0, 0] (by norm_num [HS3.side, dotQ, V3.q, V3.comp]) (pts _ _ _ (by norm_num))
    have k2 := h2 ![1, 1, 0] (by norm_num [HS3.side, dotQ, V3.q, V3.comp]) (pts _ _ _ (by norm_num))
    have k3 := h2 ![1, 0, 1] (by norm_num [HS3.side, dotQ, V3.q, V3.comp]) (pts _ _ _ (by norm_num))
    simp [HS3.side, dotQ, V3.q, V3.comp] at k1 k2 k3
    have e1 : g.n.y = 0 := by exact_mod_cast (by linarith : (g.n.y : ℚ) = 0)
    have e2 : g.n.z = 0 := by exact_mod_cast (by linarith : (g.n.z : ℚ) = 0)
    exact h1 (by simp [V3.cross, e1, e2])
  · have k1 := h2 ![0, 1, 0] (by norm_num [HS3.side, dotQ, V3.q, V3.comp]) (pts _ _ _ (by norm_num))
    have k2 := h2 ![1, 1, 0] (by norm_num [HS3.side, dotQ, V3.q, V3.comp]) (pts _ _ _ (by norm_num))
    have k3 := h2 ![0, 1, 1] (by norm_num [HS3.side, dotQ, V3.q, V3.comp]) (pts _ _ _ (by norm_num))
    simp [HS3.side, dotQ, V3.q, V3.comp] at k1 k2 k3
    have e1 : g.n.x = 0 := by exact_mod_cast (by linarith : (g.n.x : ℚ) = 0)
    have e2 : g.n.z = 0 := by exact_mod_cast (by linarith : (g.n.z : ℚ) = 0)
    exact h1 (by simp [V3.cross, e1, e2])

theorem crossTree_distinct : [((⟨⟨1, 0, 0⟩, 1⟩ : HS3), true), (⟨⟨0, 1, 0⟩, 1⟩, false)].Pairwise fun a c => ¬ Through c.1 a.1 := by
  simp only [List.pairwise_cons, List.mem_cons, List.not_mem_nil, or_false, forall_eq, false_implies, implies_true, List.Pairwise.nil, and_true]
  intro h
  have := h ![1, 0, 0] (by norm_num [HS3.side, dotQ, V3.q, V3.comp])
  norm_num [HS3.side, dotQ, V3.q, V3.comp] at this

/-- The hypotheses of `C78_defined_partial` hold for it. -/
example : ∃ r, nodeBorder false crossTree [true, false] boxOfTwo = some r :=
  C78_defined_partial boxOfTwo_solid (l := [(⟨⟨1, 0, 0⟩, 1⟩, true), (⟨⟨0, 1, 0⟩, 1⟩, false)]) rfl (by decide) crossTree_meet crossTree_distinct

/-- The cell with 1 ≤ x and y ≤ 1 is bordered by half of each of the two planes. -/
example : (nodeBorder false crossTree [true, false] boxOfTwo).map (fun r => r.map fun x => (x.poly.plane.n, x.poly.edges.map fun e => e.vertex)) =
    some [(⟨0, 1, 0⟩, [⟨⟨1, 1, 2⟩, 1⟩, ⟨⟨-2, -1, -2⟩, -1⟩, ⟨⟨-2, -1, 0⟩, -1⟩, ⟨⟨-1, -1, 0⟩, -1⟩]),
      (⟨-1, 0, 0⟩, [⟨⟨-1, 0, 0⟩, -1⟩, ⟨⟨-1, 0, -2⟩, -1⟩, ⟨⟨1, 1, 2⟩, 1⟩, ⟨⟨-1, -1, 0⟩, -1⟩])] := by decide +kernel

/-- C78 (disagreement): a split plane that misses the box fails an assertion. -/
theorem C78_miss_undefined : SolidBox boxOfTwo ∧ ∃ t path, (∃ S, Reach false t S) ∧ nodeBorder false t path boxOfTwo = none := by
  refine ⟨boxOfTwo_solid, ?_⟩
  cases h : (Node.leaf {}).splitAt [] [] ⟨⟨1, 0, 0⟩, 5⟩ with
  | none => exact absurd h (by decide +kernel)
  | some t =>
    refine ⟨t, [true], ⟨_, Reach.empty.split h⟩, ?_⟩
    have : ((Node.leaf {}).splitAt [] [] ⟨⟨1, 0, 0⟩, 5⟩).map (fun t => (nodeBorder false t [true] boxOfTwo).isNone) = some true := by decide +kernel
    rw [h] at this
    simpa using this

end Walnut.Props
