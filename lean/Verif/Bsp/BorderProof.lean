/-
The border of a node.
-/
import Verif.Bsp.Border
import Verif.Bsp.SettledProof
import Verif.Props.BoxPolygons
import Verif.Props.Routing

namespace Walnut.Bsp
open Walnut.Geom Walnut.Poly Walnut.Props

theorem plainOps_eq : plainOps = unitOps := rfl

theorem pathPlanes_snd : ∀ {t : Node} {path : List Bool} {l : List (HS3 × Bool)}, pathPlanes t path = some l → l.map Prod.snd = path := by
  intro t path
  induction path generalizing t with
  | nil => intro l h; cases t <;> (simp only [pathPlanes, Option.some.injEq] at h; subst h; rfl)
  | cons b path ih =>
    intro l h
    cases t with
    | leaf d => simp [pathPlanes] at h
    | inner d g n p =>
      unfold pathPlanes at h
      obtain ⟨l', h1, rfl⟩ := Option.map_eq_some_iff.1 h
      rw [List.map_cons, ih h1]

/-- A tree that is split only along a path. -/
def Spine : List (HS3 × Bool) → Node → Prop
  | [], .leaf _ => True
  | a :: l, .inner _ g n p => g = a.1 ∧ if a.2 then (∃ d, n = .leaf d) ∧ Spine l p else (∃ d, p = .leaf d) ∧ Spine l n
  | _, _ => False

theorem Spine.split : ∀ {l : List (HS3 × Bool)} {t t' : Node} {done : List Bool} (a : HS3 × Bool), Spine l t →
    t.splitAt done (l.map Prod.snd) a.1 = some t' → Spine (l ++ [a]) t' := by
  intro l
  induction l with
  | nil =>
    intro t t' done a h ht
    cases t with
    | inner d g n p => exact h.elim
    | leaf d =>
      unfold List.map Node.splitAt Bsp.split at ht
      split_ifs at ht
      obtain ⟨k, _, rfl⟩ := Option.map_eq_some_iff.1 ht
      refine ⟨rfl, ?_⟩
      split_ifs
      · exact ⟨⟨_, rfl⟩, trivial⟩
      · exact ⟨⟨_, rfl⟩, trivial⟩
  | cons c l ih =>
    intro t t' done a h ht
    cases t with
    | leaf d => exact h.elim
    | inner d g n p =>
      obtain ⟨h1, h2⟩ := h
      obtain ⟨c1, b⟩ := c
      rw [List.map_cons] at ht
      cases b
      · unfold Node.splitAt at ht
        obtain ⟨n', hn, rfl⟩ := Option.map_eq_some_iff.1 ht
        exact ⟨h1, h2.1, ih a h2.2 hn⟩
      · unfold Node.splitAt at ht
        obtain ⟨n', hn, rfl⟩ := Option.map_eq_some_iff.1 ht
        exact ⟨h1, h2.1, ih a h2.2 hn⟩

theorem splitPath_spec {aabb : Bool} {S : List Source} : ∀ {l l0 : List (HS3 × Bool)} {t t' : Node}, Reach aabb t S → Settled t → Spine l0 t →
    splitPath l (l0.map Prod.snd) t = some t' → Reach aabb t' S ∧ Settled t' ∧ Spine (l0 ++ l) t' := by
  intro l
  induction l with
  | nil =>
    intro l0 t t' h1 h2 h3 h
    cases h
    exact ⟨h1, h2, by simpa using h3⟩
  | cons a l ih =>
    intro l0 t t' h1 h2 h3 h
    unfold splitPath at h
    obtain ⟨t1, h4, h5⟩ := Option.bind_eq_some_iff.1 h
    have := ih (l0 := l0 ++ [a]) (h1.split h4) (splitAt_settled _ _ _ _ _ h2 h4) (h3.split a h4) (by rw [List.map_append]; exact h5)
    rwa [List.append_assoc] at this

/-- What `IntersectPlane` has to yield. -/
def CutOK (b : AABB) (a : HS3 × Bool) : Prop :=
  ∀ C, intersectPlane plainOps () b (outward a) = some (some C) →
    IsConvexPolygon C ∧ C.plane = outward a ∧ C.region = {q | (outward a).side q = 0 ∧ InBox b q}

/-- The sources of the planes. -/
inductive Cuts (b : AABB) : List (HS3 × Bool) → List Source → Prop
  | nil : Cuts b [] []
  | cons {a : HS3 × Bool} {l : List (HS3 × Bool)} {C : Polygon Unit} {S : List Source} : C.plane = outward a →
      C.region = {q | (outward a).side q = 0 ∧ InBox b q} → Cuts b l S → Cuts b (a :: l) (⟨0, C⟩ :: S)

theorem addBorders_spec {aabb : Bool} {b : AABB} : ∀ {l : List (HS3 × Bool)} {t t' : Node} {S : List Source}, Reach aabb t S → (∃ d, t = .leaf d) →
    (∀ a ∈ l, CutOK b a) → addBorders aabb b l t = some t' → ∃ S', Cuts b l S' ∧ Reach aabb t' (S ++ S') ∧ ∃ d, t' = .leaf d := by
  intro l
  induction l with
  | nil =>
    intro t t' S h1 h2 _ h
    cases h
    exact ⟨[], .nil, by simpa using h1, h2⟩
  | cons a l ih =>
    intro t t' S h1 h2 h3 h
    unfold addBorders at h
    split at h
    · rename_i P hP
      obtain ⟨t1, h4, h5⟩ := Option.bind_eq_some_iff.1 h
      obtain ⟨c1, c2, c3⟩ := h3 a (by simp) P hP
      have hl : ∃ d, t1 = .leaf d := by
        obtain ⟨d, rfl⟩ := h2
        unfold Node.addRoot at h4
        obtain ⟨d', -, rfl⟩ := Option.map_eq_some_iff.1 h4
        exact ⟨d', rfl⟩
      obtain ⟨S', h6, h7, h8⟩ := ih (h1.add c1 h4) hl (fun a ha => h3 a (List.mem_cons_of_mem _ ha)) h5
      refine ⟨⟨0, P⟩ :: S', .cons c2 c3 h6, ?_, h8⟩
      rwa [List.append_assoc] at h7
    · cases h

/-- Strictly on the side of the path. -/
def strictly (a : HS3 × Bool) (q : Q3) : Prop := if a.2 then 0 < a.1.side q else a.1.side q < 0

theorem outward_side (a : HS3 × Bool) (q : Q3) : (outward a).side q = if a.2 then - a.1.side q else a.1.side q := by
  unfold outward
  split_ifs
  · simp only [HS3.side, HS3.neg, V3.neg, dotQ, V3.q, V3.comp]
    push_cast
    ring
  · rfl

theorem not_facing {g : HS3} {x : BPoly} {anc : Anc} {r : PlaneRef} (hr : r.plane = g) {c : Bool}
    (hx : PieceOK (anc ++ [(r, !c)]) x) (hx' : (∀ a ∈ anc ++ [(r, !c)], ¬ Through a.1.plane x.poly.plane) ∨
      ∃ l a r', anc ++ [(r, !c)] = l ++ a :: r' ∧ Through a.1.plane x.poly.plane ∧ (∀ b ∈ l ++ r', ¬ Through b.1.plane x.poly.plane) ∧
        (if a.2 then dotQ x.poly.plane.n.q a.1.plane.n.q < 0 else 0 < dotQ x.poly.plane.n.q a.1.plane.n.q))
    {q : Q3} (hq : q ∈ x.poly.region) (h : strictly (g, c) q ∨ (g.side q = 0 ∧ x.poly.plane = outward (g, c))) : False := by
  rcases h with h | ⟨-, h⟩
  · have := hx.cell hq (r, !c) (by simp)
    unfold onSide at this
    unfold strictly at h
    rw [hr] at this
    cases c
    · simp only [Bool.not_false, if_true, Bool.false_eq_true, if_false] at this h
      exact absurd this (not_le.2 h)
    · simp only [Bool.not_true, if_true, Bool.false_eq_true, if_false] at this h
      exact absurd this (not_le.2 h)
  · have ht : Through r.plane x.poly.plane := by
      intro z hz
      rw [h, outward_side] at hz
      rw [hr]
      cases c
      · simpa using hz
      · simpa using hz
    rcases hx' with hx' | ⟨l, a, r', e, -, h2, h3⟩
    · exact hx' (r, !c) (by simp) ht
    · have ha : a = (r, !c) := by
        have hm : (r, !c) ∈ l ++ a :: r' := by rw [← e]; simp
        rcases List.mem_append.1 hm with hm | hm
        · exact absurd ht (h2 _ (List.mem_append_left _ hm))
        · rcases List.mem_cons.1 hm with hm | hm
          · exact hm.symm
          · exact absurd ht (h2 _ (List.mem_append_right _ hm))
      subst ha
      rw [hr, h] at h3
      have nn : ∀ v : V3, 0 ≤ dotQ v.q v.q := by
        intro v
        unfold dotQ
        nlinarith [mul_self_nonneg (v.q 0), mul_self_nonneg (v.q 1), mul_self_nonneg (v.q 2)]
      cases c
      · simp only [Bool.not_false, if_true, outward, Bool.false_eq_true, if_false] at h3
        exact absurd (nn g.n) (not_le.2 h3)
      · simp only [Bool.not_true, if_true, outward, Bool.false_eq_true, if_false] at h3
        have e : dotQ g.neg.n.q g.n.q = - dotQ g.n.q g.n.q := by
          simp only [HS3.neg, V3.neg, dotQ, V3.q, V3.comp]
          push_cast
          ring
        rw [e] at h3
        linarith [nn g.n]

/-- Polygons at a point that is strictly inside of all other planes are in the last leaf. -/
theorem Spine.find : ∀ {l : List (HS3 × Bool)} {t : Node} {anc : Anc}, Spine l t → Settled t → TreeOK anc t → ∀ {x : BPoly} {q : Q3}, x ∈ t.polys →
    q ∈ x.poly.region → (∀ a ∈ l, strictly a q ∨ (a.1.side q = 0 ∧ x.poly.plane = outward a)) →
    ∃ d, t.follow (l.map Prod.snd) = some (.leaf d) ∧ x ∈ d.border ++ d.contents := by
  intro l
  induction l with
  | nil =>
    intro t anc h _ _ x q hx _ _
    cases t with
    | inner d g n p => exact h.elim
    | leaf d =>
      refine ⟨d, rfl, ?_⟩
      unfold Node.polys at hx
      rw [List.mem_append] at *
      exact hx.symm
  | cons c l ih =>
    intro t anc h hs ht x q hx hq hl
    cases t with
    | leaf d => exact h.elim
    | inner d g n p =>
      obtain ⟨rfl, h2⟩ := h
      obtain ⟨s1, s2, s3, s4⟩ := hs
      obtain ⟨-, -, -, -, t3, t4⟩ := ht
      obtain ⟨g, b⟩ := c
      unfold Node.polys at hx
      rw [s1, s2] at hx
      simp only [List.append_nil, List.nil_append, List.mem_append] at hx
      have hc := hl (g, b) (by simp)
      have off : ∀ {k : NodeData} {c : Bool}, c = b → TreeOK (anc ++ [(⟨anc.map Prod.snd, g⟩, !c)]) (.leaf k) → x ∈ (Node.leaf k).polys → False := by
        rintro k c rfl ⟨k1, k2, -⟩ hk
        rcases List.mem_append.1 hk with hk | hk
        · exact not_facing rfl (k1 x hk).toPieceOK (Or.inl (k1 x hk).off.2) hq hc
        · obtain ⟨l', a, r, e1, e2, e3, -, e4⟩ := (k2 x hk).on
          exact not_facing rfl (k2 x hk).toPieceOK (Or.inr ⟨l', a, r, e1, e2, e3, e4⟩) hq hc
      cases b
      · simp only [Bool.false_eq_true, if_false] at h2
        obtain ⟨⟨k, rfl⟩, h3⟩ := h2
        rcases hx with hx | hx
        · obtain ⟨d', e1, e2⟩ := ih h3 s3 t3 hx hq fun a ha => hl a (List.mem_cons_of_mem _ ha)
          exact ⟨d', e1, e2⟩
        · exact (off (c := false) rfl t4 hx).elim
      · simp only [if_true] at h2
        obtain ⟨⟨k, rfl⟩, h3⟩ := h2
        rcases hx with hx | hx
        · exact (off (c := true) rfl t3 hx).elim
        · obtain ⟨d', e1, e2⟩ := ih h3 s4 t4 hx hq fun a ha => hl a (List.mem_cons_of_mem _ ha)
          exact ⟨d', e1, e2⟩

/-- The last leaf is one of the leaves; its ancestors are the planes of the path. -/
theorem Spine.leaf : ∀ {l : List (HS3 × Bool)} {t : Node} (anc : Anc), Spine l t →
    ∃ d anc', t.follow (l.map Prod.snd) = some (.leaf d) ∧ (anc ++ anc', .leaf d) ∈ t.subs anc ∧ anc'.map (fun a => (a.1.plane, a.2)) = l ∧
      (d.border ++ d.contents).Subperm t.polys := by
  intro l
  induction l with
  | nil =>
    intro t anc h
    cases t with
    | inner d g n p => exact h.elim
    | leaf d => exact ⟨d, [], rfl, by simp [Node.subs], rfl, List.perm_append_comm.subperm⟩
  | cons c l ih =>
    intro t anc h
    cases t with
    | leaf d => exact h.elim
    | inner d g n p =>
      obtain ⟨rfl, h2⟩ := h
      obtain ⟨g, b⟩ := c
      cases b
      · obtain ⟨k, anc', e1, e2, e3, e4⟩ := ih (anc ++ [(⟨anc.map Prod.snd, g⟩, false)]) h2.2
        refine ⟨k, (⟨anc.map Prod.snd, g⟩, false) :: anc', e1, ?_, by rw [List.map_cons, e3], ?_⟩
        · unfold Node.subs
          rw [List.append_assoc] at e2
          exact List.mem_cons_of_mem _ (List.mem_append_left _ e2)
        · unfold Node.polys
          exact e4.trans ((List.sublist_append_left _ _).trans (List.sublist_append_right _ _)).subperm
      · obtain ⟨k, anc', e1, e2, e3, e4⟩ := ih (anc ++ [(⟨anc.map Prod.snd, g⟩, true)]) h2.2
        refine ⟨k, (⟨anc.map Prod.snd, g⟩, true) :: anc', e1, ?_, by rw [List.map_cons, e3], ?_⟩
        · unfold Node.subs
          rw [List.append_assoc] at e2
          exact List.mem_cons_of_mem _ (List.mem_append_right _ e2)
        · unfold Node.polys
          exact e4.trans ((List.sublist_append_right _ _).trans (List.sublist_append_right _ _)).subperm

theorem Cuts.mem {b : AABB} {l : List (HS3 × Bool)} {S : List Source} (h : Cuts b l S) :
    (∀ s ∈ S, s.id = 0 ∧ ∃ a ∈ l, s.poly.plane = outward a ∧ s.poly.region = {q | (outward a).side q = 0 ∧ InBox b q}) ∧
      ∀ a ∈ l, ∃ s ∈ S, s.id = 0 ∧ s.poly.plane = outward a ∧ s.poly.region = {q | (outward a).side q = 0 ∧ InBox b q} := by
  induction h with
  | nil => simp
  | @cons a l C S h1 h2 _ ih =>
    refine ⟨fun s hs => ?_, fun c hc => ?_⟩
    · rcases List.mem_cons.1 hs with rfl | hs
      · exact ⟨rfl, a, by simp, h1, h2⟩
      · obtain ⟨e0, c, hc, e⟩ := ih.1 s hs
        exact ⟨e0, c, List.mem_cons_of_mem _ hc, e⟩
    · rcases List.mem_cons.1 hc with rfl | hc
      · exact ⟨⟨0, C⟩, by simp, rfl, h1, h2⟩
      · obtain ⟨s, hs, e⟩ := ih.2 c hc
        exact ⟨s, List.mem_cons_of_mem _ hs, e⟩

theorem nodeBorder_inv {aabb : Bool} {t : Node} {path : List Bool} {b : AABB} {r : List BPoly} (h : nodeBorder aabb t path b = some r)
    (hc : ∀ l, pathPlanes t path = some l → ∀ a ∈ l, CutOK b a) :
    ∃ l S m d, pathPlanes t path = some l ∧ l.map Prod.snd = path ∧ Cuts b l S ∧ Reach aabb m S ∧ Settled m ∧ Spine l m ∧
      m.follow path = some (.leaf d) ∧ r = d.border ++ d.contents := by
  unfold nodeBorder at h
  obtain ⟨l, h1, h⟩ := Option.bind_eq_some_iff.1 h
  obtain ⟨m0, h2, h⟩ := Option.bind_eq_some_iff.1 h
  obtain ⟨m, h3, h⟩ := Option.bind_eq_some_iff.1 h
  obtain ⟨s, h4, rfl⟩ := Option.map_eq_some_iff.1 h
  obtain ⟨S, c1, c2, d0, rfl⟩ := addBorders_spec .empty ⟨_, rfl⟩ (hc l h1) h2
  rw [List.nil_append] at c2
  obtain ⟨r1, r2, r3⟩ := splitPath_spec (l0 := []) c2 trivial trivial h3
  rw [List.nil_append] at r3
  have hp := pathPlanes_snd h1
  obtain ⟨d, -, e1, -⟩ := r3.leaf []
  rw [hp, h4, Option.some.injEq] at e1
  subst e1
  exact ⟨l, S, m, d, h1, hp, c1, r1, r2, r3, h4, rfl⟩

end Walnut.Bsp
