/-
The emitted facets at a point of the split planes, seen from a point close to it.
-/
import Verif.Bsp.BoolLeaf

namespace Walnut.Bsp
open Walnut.Geom Walnut.Poly Walnut.Props

/-- The point `z` is close to `x`, and all planes through `x` are the same. -/
structure Near (t : Node) (S : List Source) (x z : Q3) : Prop where
  off : ∀ g ∈ t.planes, g.side z ≠ 0
  pos : ∀ g ∈ t.planes, 0 < g.side x → 0 < g.side z
  neg : ∀ g ∈ t.planes, g.side x < 0 → g.side z < 0
  apart : ∀ g ∈ t.planes, ∀ s ∈ S, g.side x = 0 → s.poly.plane.side x = 0 → Through g s.poly.plane

theorem side_region {D : Type} {P : Polygon D} (h : IsConvexPolygon P) {x : Q3} (hx : x ∈ P.region) : P.plane.side x = 0 := by
  unfold HS3.side; rw [region_onPlane h hx, sub_self]

theorem poly_source {aabb : Bool} {t : Node} {S : List Source} (h : Reach aabb t S) {y : BPoly} (hy : y ∈ t.polys) (hc : IsConvexPolygon y.poly) :
    ∃ s ∈ S, s.id = y.id ∧ s.poly.plane = y.poly.plane := by
  have h3 : 0 < y.poly.count := by have := hc.three; omega
  obtain ⟨s, hs, e1, e2, _⟩ := (C39_cover h y.id y.poly.plane (y.poly.pt 0)).1 ⟨y, hy, rfl, rfl, pt_mem h3⟩
  exact ⟨s, hs, e1, e2⟩

theorem leaf_polys : ∀ {t : Node} {anc0 anc : Anc} {L : NodeData}, (anc, Node.leaf L) ∈ t.subs anc0 → ∀ y ∈ L.contents ++ L.border, y ∈ t.polys := by
  intro t
  induction t with
  | leaf d =>
    intro anc0 anc L h y hy
    have e := List.mem_singleton.1 h
    simp only [Prod.mk.injEq, Node.leaf.injEq] at e
    unfold Node.polys; rw [← e.2]; exact hy
  | inner d g n p ihn ihp =>
    intro anc0 anc L h y hy
    unfold Node.subs at h
    unfold Node.polys
    rcases List.mem_cons.1 h with e | h
    · simp at e
    · rcases List.mem_append.1 h with h | h
      · exact List.mem_append_right _ (List.mem_append_left _ (ihn h y hy))
      · exact List.mem_append_right _ (List.mem_append_right _ (ihp h y hy))

section
variable {aabb : Bool} {t : Node} {S : List Source} {x z : Q3}

theorem near_through (h : Reach aabb t S) (hn : Near t S x z) {anc : Anc} {L : NodeData} (hL : (anc, Node.leaf L) ∈ t.subs []) {y : BPoly} (hy : y ∈ L.contents ++ L.border)
    (hc : IsConvexPolygon y.poly) (hx : x ∈ y.poly.region) {b : PlaneRef × Bool} (hb : b ∈ anc) (h0 : b.1.plane.side x = 0) : Through b.1.plane y.poly.plane := by
  obtain ⟨s, hs, _, e⟩ := poly_source h (leaf_polys hL y hy) hc
  rw [← e]
  refine hn.apart _ ?_ s hs h0 (by rw [e]; exact side_region hc hx)
  exact (subs_planes _ hL b hb).resolve_left (by simp)

theorem near_side (hn : Near t S x z) {anc : Anc} {L : NodeData} (hL : (anc, Node.leaf L) ∈ t.subs []) (hx : x ∈ Cell anc) {b : PlaneRef × Bool} (hb : b ∈ anc)
    (h0 : b.1.plane.side x ≠ 0) : if b.2 then 0 < b.1.plane.side z else b.1.plane.side z < 0 := by
  have hp := (subs_planes _ hL b hb).resolve_left (by simp)
  have := hx b hb
  unfold onSide at this
  split_ifs at this ⊢
  · exact hn.pos _ hp (lt_of_le_of_ne this (Ne.symm h0))
  · exact hn.neg _ hp (lt_of_le_of_ne this h0)

theorem content_inside (h : Reach aabb t S) (hn : Near t S x z) {anc : Anc} {L : NodeData} (hL : (anc, Node.leaf L) ∈ t.subs []) {y : BPoly} (hy : y ∈ L.contents)
    (hx : x ∈ y.poly.region) : InsideOf anc z := by
  have ok := (h.spec.1.sub _ hL).1 y hy
  intro b hb
  refine near_side hn hL (ok.cell hx) hb fun h0 => ok.off.2 b hb (near_through h hn hL (by simp [hy]) ok.convex hx hb h0)

theorem border_unique {anc : Anc} {y : BPoly} (hy : BorderOK anc y) {a b : PlaneRef × Bool} (ha : a ∈ anc) (hb : b ∈ anc)
    (h1 : Through a.1.plane y.poly.plane) (h2 : Through b.1.plane y.poly.plane) : a = b := by
  obtain ⟨l, c, r, e, _, hno, _⟩ := hy.on
  rw [e] at ha hb
  have key : ∀ a ∈ l ++ c :: r, Through a.1.plane y.poly.plane → a = c := by
    intro a ha h
    rcases List.mem_append.1 ha with ha | ha
    · exact absurd h (hno a (by simp [ha]))
    · rcases List.mem_cons.1 ha with rfl | ha
      · rfl
      · exact absurd h (hno a (by simp [ha]))
  rw [key a ha h1, key b hb h2]

theorem multiple_side {g h : HS3} {l : ℚ} (h1 : ∀ j, g.n.q j = l * h.n.q j) (h2 : (g.d : ℚ) = l * h.d) (q : Q3) : g.side q = l * h.side q := by
  simp only [HS3.side, dotQ, h1, h2]; ring

theorem border_inside (h : Reach aabb t S) (hn : Near t S x z) {anc : Anc} {L : NodeData} (hL : (anc, Node.leaf L) ∈ t.subs []) {y : BPoly} (hy : y ∈ L.border)
    (hx : x ∈ y.poly.region) (hz : y.poly.plane.side z < 0) : InsideOf anc z := by
  have ok := (h.spec.1.sub _ hL).2.1 y hy
  obtain ⟨a, ha, _, l, e1, e2, hs⟩ := border_multiple (AncOK.sub h.spec.1 .nil _ hL) ok
  have hm := multiple_side e1 e2
  intro b hb
  by_cases h0 : b.1.plane.side x = 0
  · have e : b = a := border_unique ok hb ha (near_through h hn hL (by simp [hy]) ok.convex hx hb h0) fun q hq => by rw [hm, hq, mul_zero]
    rw [e, hm]
    split_ifs at hs ⊢
    · exact mul_pos_of_neg_of_neg hs hz
    · exact mul_neg_of_pos_of_neg hs hz
  · exact near_side hn hL (ok.cell hx) hb h0

theorem border_neg (h : Reach aabb t S) {anc : Anc} {L : NodeData} (hL : (anc, Node.leaf L) ∈ t.subs []) {y : BPoly} (hy : y ∈ L.border)
    (hi : InsideOf anc z) : y.poly.plane.side z < 0 := by
  have ok := (h.spec.1.sub _ hL).2.1 y hy
  obtain ⟨a, ha, _, l, e1, e2, hs⟩ := border_multiple (AncOK.sub h.spec.1 .nil _ hL) ok
  have := hi a ha
  rw [multiple_side e1 e2] at this
  split_ifs at hs this
  · exact neg_of_mul_pos_right this hs.le
  · exact (mul_neg_iff.1 this).elim (fun h => h.2) (fun h => absurd h.1 (not_lt.2 hs.le))

theorem border_key (h : Reach aabb t S) (hn : Near t S x z) {anc : Anc} {L : NodeData} (hL : (anc, Node.leaf L) ∈ t.subs []) {y y' : BPoly} (hy : y ∈ L.border)
    (hy' : y' ∈ L.border) (hx : x ∈ y.poly.region) (hx' : x ∈ y'.poly.region) :
    y.onNode.split.map PlaneRef.path = y'.onNode.split.map PlaneRef.path := by
  have ok := (h.spec.1.sub _ hL).2.1
  obtain ⟨a, ha, o, l, e1, e2, hs⟩ := border_multiple (AncOK.sub h.spec.1 .nil _ hL) (ok y hy)
  obtain ⟨a', ha', o', l', e1', e2', hs'⟩ := border_multiple (AncOK.sub h.spec.1 .nil _ hL) (ok y' hy')
  have h0 : a'.1.plane.side x = 0 := by rw [multiple_side e1' e2', side_region (ok y' hy').convex hx', mul_zero]
  have e : a' = a := border_unique (ok y hy) ha' ha (near_through h hn hL (by simp [hy]) (ok y hy).convex hx ha' h0)
    fun q hq => by rw [multiple_side e1 e2, hq, mul_zero]
  rw [o, o', e]

end

/-! ### Stacks -/

theorem flatMap_changing {inside : (Nat → Int) → Bool} {step : HS3 → Int} {w : Nat → Int} {α : Type} (f : α → List Facet) : ∀ (ls : List α),
    ls.Pairwise (fun a b => f a = [] ∨ f b = []) → ls.flatMap (fun l => changing inside step w (f l)) = changing inside step w (ls.flatMap f) := by
  intro ls
  induction ls with
  | nil => intro _; rfl
  | cons l ls ih =>
    intro h
    rw [List.pairwise_cons] at h
    rw [List.flatMap_cons, List.flatMap_cons, ih h.2]
    by_cases hl : f l = []
    · rw [hl]; rfl
    · have : ls.flatMap f = [] := List.flatMap_eq_nil_iff.2 fun b hb => (h.1 b hb).resolve_left hl
      rw [this]; simp [changing]

theorem stackAt_perm {q : Q3} {l l' : List BPoly} (h : l.Perm l') : (stackAt q l).Perm (stackAt q l') := (h.filter _).map _

theorem stackAt_flatMap {α : Type} (q : Q3) (f : α → List BPoly) (l : List α) : stackAt q (l.flatMap f) = l.flatMap fun a => stackAt q (f a) := by
  induction l with
  | nil => rfl
  | cons a l ih => rw [List.flatMap_cons, stackAt_append, ih]; rfl

theorem stackAt_flatten (q : Q3) (ls : List (List BPoly)) : stackAt q ls.flatten = ls.flatMap (stackAt q) := by
  rw [← List.flatMap_id, stackAt_flatMap]; rfl

theorem stackAt_region {q : Q3} {l : List BPoly} {f : Facet} (h : f ∈ stackAt q l) : ∃ p ∈ l, facet p = f ∧ q ∈ p.poly.region := by
  unfold stackAt at h
  obtain ⟨p, hp, e⟩ := List.mem_map.1 h
  exact ⟨p, List.mem_of_mem_filter hp, e, by simpa using (List.mem_filter.1 hp).2⟩

open Classical in
/-- The facets of the sources covering the point. -/
noncomputable def sourceStack (x : Q3) (S : List Source) : List Facet := (S.filter fun s => decide (x ∈ s.poly.region)).map fun s => (s.id, s.poly.plane)

theorem stack_sources {aabb : Bool} {t : Node} {S : List Source} (h : Reach aabb t S) (hS : ∀ s ∈ S, IsConvexPolygon s.poly) {x : Q3}
    (hx : ∀ g ∈ t.planes, ∀ s ∈ S, g.side x = 0 → s.poly.plane.side x = 0 → Through g s.poly.plane) :
    (stackAt x t.polys).Perm (sourceStack x S) := by
  classical
  rw [List.perm_iff_count]
  rintro ⟨id, pl⟩
  have e1 : (stackAt x t.polys).count (id, pl) = t.polys.countP (fun y => decide (y.id = id ∧ y.poly.plane = pl ∧ x ∈ y.poly.region)) := by
    unfold stackAt List.count
    rw [List.countP_map, List.countP_filter]
    refine List.countP_congr fun y _ => ?_
    simp only [facet, Function.comp, Bool.and_eq_true, beq_iff_eq, Prod.mk.injEq, decide_eq_true_eq, and_assoc]
  have e2 : (sourceStack x S).count (id, pl) = S.countP (fun y => decide (y.id = id ∧ y.poly.plane = pl ∧ x ∈ y.poly.region)) := by
    unfold sourceStack List.count
    rw [List.countP_map, List.countP_filter]
    refine List.countP_congr fun y _ => ?_
    simp only [Function.comp, Bool.and_eq_true, beq_iff_eq, Prod.mk.injEq, decide_eq_true_eq, and_assoc]
  rw [e1, e2]
  by_cases hs : ∃ s ∈ S, s.id = id ∧ s.poly.plane = pl ∧ x ∈ s.poly.region
  · obtain ⟨s, hs, _, rfl, hr⟩ := hs
    refine C39_multiplicity h id _ x fun g hg => ?_
    by_cases h0 : g.side x = 0
    · exact Or.inr (hx g hg s hs h0 (side_region (hS s hs) hr))
    · exact Or.inl h0
  · have hy : ¬ ∃ y ∈ t.polys, y.id = id ∧ y.poly.plane = pl ∧ x ∈ y.poly.region := fun hy => hs ((C39_cover h id pl x).1 hy)
    rw [List.countP_eq_zero.2, List.countP_eq_zero.2]
    · intro s hs' hd; exact hs ⟨s, hs', of_decide_eq_true hd⟩
    · intro y hy' hd; exact hy ⟨y, hy', of_decide_eq_true hd⟩

end Walnut.Bsp
