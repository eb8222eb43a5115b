/-
The plane partitioner terminates: every split plane goes through an edge that no plane
before went through, and the edges of the pieces are on the lines of the original edges or
on split planes.
-/
import Verif.Bsp.PartitionRun

namespace Walnut.Bsp
open Walnut.Geom Walnut.Poly Walnut.Props

/-- Every edge of `x` is on the plane or on the line of an edge of `p`. -/
def EdgesFrom (g : HS3) (p x : Polygon EdgeInfo) : Prop :=
  ∀ i, i < x.count → AtEdge x i g ∨ ∃ j, j < p.count ∧ ∀ f, AtEdge x i f ↔ AtEdge p j f

theorem EdgesFrom.of_same {g : HS3} {p x y : Polygon EdgeInfo} (h : EdgesFrom g p x) (hs : Same x y) : EdgesFrom g p y := by
  have e : ∀ i f, AtEdge y i f ↔ AtEdge x i f := by
    intro i f; unfold AtEdge; rw [hs.pt, hs.pt, hs.count]
  intro i hi
  rw [hs.count] at hi
  rcases h i hi with h | ⟨j, hj, hf⟩
  · exact Or.inl ((e i g).2 h)
  · exact Or.inr ⟨j, hj, fun f => (e i f).trans (hf f)⟩

theorem EdgesFrom.refl (g : HS3) (p : Polygon EdgeInfo) : EdgesFrom g p p := fun i hi => Or.inr ⟨i, hi, fun _ => Iff.rfl⟩

section parts
variable {P N Q : Polygon EdgeInfo} {g : HS3} {a m b k : Nat} {t u : ℚ}

theorem neg_edges (h : IsConvexPolygon P) (sh : SplitShape P N Q g a m b k t u) : EdgesFrom g P N := by
  have hn := h.count_pos
  have s2 := SplitShape.s2_side h sh
  have s1 := SplitShape.s1_side h sh
  have hm := sh.cut.m1
  have nc := sh.ncount
  have nm : N.pt m = cross3 P (a + m - 1) t := by rw [sh.npt m (by omega), if_neg (by omega), if_pos rfl]
  have nm1 : N.pt (m + 1) = cross3 P (a + P.count - 1) u := by
    rw [sh.npt (m + 1) (by omega), if_neg (by omega), if_neg (by omega)]
  have ni : ∀ i, i < m → N.pt i = P.pt ((a + i) % P.count) := fun i hi => by rw [sh.npt i (by omega), if_pos hi]
  intro i hi
  rw [nc] at hi
  by_cases him : i < m
  · refine Or.inr ⟨(a + i) % P.count, Nat.mod_lt _ hn, fun f => ?_⟩
    unfold AtEdge
    rw [ni i him, Nat.mod_add_mod, nc, Nat.mod_eq_of_lt (show i + 1 < m + 2 by omega)]
    by_cases hl : i + 1 < m
    · rw [ni _ hl, show a + (i + 1) = a + i + 1 by omega]
    · rw [show i + 1 = m by omega, nm]
      unfold cross3
      rw [show a + m - 1 = a + i by omega]
      constructor
      · rintro ⟨f1, f2⟩
        rw [show f.side (P.pt ((a + i) % P.count)) = f.side (lerp3 0 (P.pt ((a + i) % P.count))
          (P.pt ((a + i + 1) % P.count))) by rw [lerp3_zero]] at f1
        exact side_line sh.cut.t0.ne f1 f2
      · rintro ⟨f1, f2⟩
        exact ⟨f1, by rw [side_lerp3, f1, f2]; ring⟩
  · by_cases him' : i = m
    · subst him'
      left
      unfold AtEdge
      rw [nc, Nat.mod_eq_of_lt (by omega), nm, nm1]
      exact ⟨s2, s1⟩
    · obtain rfl : i = m + 1 := by omega
      refine Or.inr ⟨(a + P.count - 1) % P.count, Nat.mod_lt _ hn, fun f => ?_⟩
      unfold AtEdge
      rw [nm1, nc, Nat.mod_self, ni 0 (by omega), Nat.mod_add_mod, show a + P.count - 1 + 1 = a + 0 + P.count by omega,
        Nat.add_mod_right]
      unfold cross3
      rw [show a + P.count - 1 + 1 = a + 0 + P.count by omega, Nat.add_mod_right]
      constructor
      · rintro ⟨f1, f2⟩
        rw [show f.side (P.pt ((a + 0) % P.count)) = f.side (lerp3 1 (P.pt ((a + P.count - 1) % P.count))
            (P.pt ((a + 0) % P.count))) by rw [lerp3_one]] at f2
        exact side_line sh.cut.u1.ne f1 f2
      · rintro ⟨f1, f2⟩
        exact ⟨by rw [side_lerp3, f1, f2]; ring, f2⟩

theorem pos_edges (h : IsConvexPolygon P) (sh : SplitShape P N Q g a m b k t u) : EdgesFrom g P Q := by
  have hn := h.count_pos
  have s2 := SplitShape.s2_side h sh
  have s1 := SplitShape.s1_side h sh
  have side0 := SplitShape.pt_side h
  have hm := sh.cut.m1
  have hk := sh.cut.k1
  have qc := sh.qcount
  have g1 := sh.cut.gap1
  have g2 := sh.cut.gap2
  have fpos : ∀ i, b ≤ i → i < b + k → 0 < g.side (P.pt (i % P.count)) := by
    intro i a1 a2
    rw [← SplitShape.aff_pt h (side0 i)]; exact sh.cut.pos i a1 a2
  have q0 : Q.pt 0 = cross3 P (a + m - 1) t := by rw [sh.qpt 0 (by omega), if_pos rfl]
  have qk : Q.pt (k + 1) = cross3 P (a + P.count - 1) u := by
    rw [sh.qpt (k + 1) (by omega), if_neg (by omega), if_neg (by omega)]
  have qi : ∀ i, 1 ≤ i → i ≤ k → Q.pt i = P.pt ((b + i - 1) % P.count) := fun i h1 h2 => by
    rw [sh.qpt i (by omega), if_neg (by omega), if_pos h2]
  intro i hi
  rw [qc] at hi
  rcases Nat.eq_zero_or_pos i with rfl | hi1
  · refine Or.inr ⟨(b - 1) % P.count, Nat.mod_lt _ hn, fun f => ?_⟩
    unfold AtEdge
    rw [q0, qc, Nat.mod_eq_of_lt (show 0 + 1 < k + 2 by omega), qi 1 le_rfl hk, Nat.mod_add_mod, show b + 1 - 1 = b - 1 + 1 by omega]
    unfold cross3
    rcases g2 with g2 | ⟨g2, htt⟩
    · have ht1 : t ≠ 1 := by
        rintro rfl
        unfold cross3 at s2
        rw [lerp3_one, show a + m - 1 + 1 = b by omega] at s2
        linarith [fpos b le_rfl (by omega)]
      rw [show a + m - 1 = b - 1 by omega]
      constructor
      · rintro ⟨f1, f2⟩
        rw [show f.side (P.pt ((b - 1 + 1) % P.count)) = f.side (lerp3 1 (P.pt ((b - 1) % P.count))
          (P.pt ((b - 1 + 1) % P.count))) by rw [lerp3_one]] at f2
        exact side_line ht1 f1 f2
      · rintro ⟨f1, f2⟩
        exact ⟨by rw [side_lerp3, f1, f2]; ring, f2⟩
    · rw [htt, lerp3_one, show a + m - 1 + 1 = b - 1 by omega]
  · by_cases hik : i ≤ k
    · refine Or.inr ⟨(b + i - 1) % P.count, Nat.mod_lt _ hn, fun f => ?_⟩
      unfold AtEdge
      rw [qi i hi1 hik, Nat.mod_add_mod, qc, Nat.mod_eq_of_lt (show i + 1 < k + 2 by omega)]
      by_cases hl : i < k
      · rw [qi (i + 1) (by omega) (by omega), show b + (i + 1) - 1 = b + i - 1 + 1 by omega]
      · obtain rfl : i = k := by omega
        rw [qk]
        rcases g1 with g1 | ⟨g1, hu⟩
        · have hu : (0 : ℚ) ≠ u := by
            rintro rfl
            unfold cross3 at s1
            rw [lerp3_zero, g1] at s1
            linarith [fpos (b + i - 1) (by omega) (by omega)]
          unfold cross3
          rw [g1]
          constructor
          · rintro ⟨f1, f2⟩
            rw [show f.side (P.pt ((b + i - 1) % P.count)) = f.side (lerp3 0 (P.pt ((b + i - 1) % P.count))
              (P.pt ((b + i - 1 + 1) % P.count))) by rw [lerp3_zero]] at f1
            exact side_line hu f1 f2
          · rintro ⟨f1, f2⟩
            exact ⟨f1, by rw [side_lerp3, f1, f2]; ring⟩
        · unfold cross3
          rw [hu, lerp3_zero, show a + P.count - 1 = b + i - 1 + 1 by omega]
    · obtain rfl : i = k + 1 := by omega
      left
      unfold AtEdge
      rw [qc, Nat.mod_self, q0, qk]
      exact ⟨s1, s2⟩

end parts

/-- The edges of the pieces are on the lines of the polygon's edges or on the plane. -/
def RouteEdges (ref : PlaneRef) (p : BPoly) : Routed → Prop
  | .both N Q => EdgesFrom ref.plane p.poly N.poly ∧ EdgesFrom ref.plane p.poly Q.poly
  | .neg N => EdgesFrom ref.plane p.poly N.poly
  | .pos Q => EdgesFrom ref.plane p.poly Q.poly
  | .on => True

theorem route_edges {anc : Anc} {p : BPoly} (h : PieceOK anc p) (hon : OnOK anc p) (ref : PlaneRef) (check : Bool) {o : Routed}
    (ho : route check ref p = some o) : RouteEdges ref p o := by
  have hok := (route_spec h hon ref check).1 o ho
  cases o with
  | on => trivial
  | neg N => exact (EdgesFrom.refl _ _).of_same hok.2.2.2.1
  | pos Q => exact (EdgesFrom.refl _ _).of_same hok.2.2.2.1
  | both N' Q' =>
    have hn := h.convex.count_pos
    obtain ⟨s, e1, e2, e3, e4⟩ := splitInfo_spec h ref.plane
    have hN := (emitNeg_iff hn e3).2 hok.1
    have hP := (emitPos_iff hn e3).2 hok.2.1
    obtain ⟨N, Q, a, m, b, k, t, u, c1, sh, _⟩ := h.convex.splitChildren bspOps ref.plane (e4 hN hP) hN hP
    unfold route at ho
    rw [if_neg hn.ne', e1] at ho
    simp only [e2] at ho
    rw [if_neg (by simp), if_pos hN, if_pos hP] at ho
    unfold BPoly.splitChildren at ho
    rw [c1] at ho
    cases hT : p.splitTrackers s.ranges N Q with
    | none => simp [hT] at ho
    | some T =>
      simp only [hT, Option.map_some] at ho
      have mk : setChildBoundary ⟨N, T.1, p.id, p.onNode⟩ ⟨Q, T.2, p.id, p.onNode⟩ ref =
          some (mark ⟨N, T.1, p.id, p.onNode⟩ ⟨some ref, false⟩ m, mark ⟨Q, T.2, p.id, p.onNode⟩ ⟨some ref, true⟩ (k + 1)) := by
        unfold setChildBoundary mark
        have := sh.cut.m1
        have := sh.cut.k1
        simp only [sh.ncount, sh.qcount]
        rw [if_neg (by omega)]
        simp
      rw [mk] at ho
      simp only [Option.map_some, Option.some.injEq, Routed.both.injEq] at ho
      rw [← ho.1, ← ho.2]
      exact ⟨(neg_edges h.convex sh).of_same (mark_same ⟨N, T.1, p.id, p.onNode⟩ (c := ⟨some ref, false⟩) rfl m).1,
        (pos_edges h.convex sh).of_same (mark_same ⟨Q, T.2, p.id, p.onNode⟩ (c := ⟨some ref, true⟩) rfl (k + 1)).1⟩

theorem pushSides_edges {anc : Anc} {ref : PlaneRef} {l : List BPoly} (h : ∀ p ∈ l, BorderOK anc p) {k : List BPoly × List BPoly}
    (hk : pushSides ref l = some k) : ∀ x, x ∈ k.1 ∨ x ∈ k.2 → ∃ p ∈ l, EdgesFrom ref.plane p.poly x.poly := by
  induction l generalizing k with
  | nil => rw [← Option.some.inj hk]; simp
  | cons p l ih =>
    have hb := h p (by simp)
    unfold pushSides at hk
    cases hr : route false ref p with
    | none => rw [hr] at hk; simp at hk
    | some o =>
      rw [hr] at hk
      have he := route_edges hb.toPieceOK (Or.inr hb.on) ref false hr
      have up : ∀ {k' : List BPoly × List BPoly}, pushSides ref l = some k' → ∀ x, x ∈ k'.1 ∨ x ∈ k'.2 → ∃ y ∈ p :: l, EdgesFrom ref.plane y.poly x.poly := by
        intro k' hk' x hx
        obtain ⟨y, hy, h'⟩ := ih (fun x hx => h x (by simp [hx])) hk' x hx
        exact ⟨y, by simp [hy], h'⟩
      cases o with
      | on => simp at hk
      | both N Q =>
        obtain ⟨k', hk', rfl⟩ := Option.map_eq_some_iff.1 hk
        rintro x (hx | hx)
        · rcases List.mem_cons.1 hx with rfl | hx
          · exact ⟨p, by simp, he.1⟩
          · exact up hk' x (Or.inl hx)
        · rcases List.mem_cons.1 hx with rfl | hx
          · exact ⟨p, by simp, he.2⟩
          · exact up hk' x (Or.inr hx)
      | neg N =>
        obtain ⟨k', hk', rfl⟩ := Option.map_eq_some_iff.1 hk
        rintro x (hx | hx)
        · rcases List.mem_cons.1 hx with rfl | hx
          · exact ⟨p, by simp, he⟩
          · exact up hk' x (Or.inl hx)
        · exact up hk' x (Or.inr hx)
      | pos Q =>
        obtain ⟨k', hk', rfl⟩ := Option.map_eq_some_iff.1 hk
        rintro x (hx | hx)
        · exact up hk' x (Or.inl hx)
        · rcases List.mem_cons.1 hx with rfl | hx
          · exact ⟨p, by simp, he⟩
          · exact up hk' x (Or.inr hx)

/-! ### The measure -/

/-- Line `E` (the predicate "the plane contains the line") is on a plane of an ancestor that does not
contain the plane `h`. -/
def Used (anc : Anc) (h : HS3) (E : HS3 → Prop) : Prop := ∃ b ∈ anc, E b.1.plane ∧ ¬ Through b.1.plane h

/-- Every edge is on a line of `L` or used. -/
def LinesOK (anc : Anc) (h : HS3) (L : List (HS3 → Prop)) (l : List BPoly) : Prop :=
  ∀ p ∈ l, ∀ i, i < p.poly.count → (∃ E ∈ L, ∀ f, AtEdge p.poly i f ↔ E f) ∨ Used anc h (AtEdge p.poly i)

open Classical in
/-- The number of lines that are not used. -/
noncomputable def unused (anc : Anc) (h : HS3) (L : List (HS3 → Prop)) : Nat := L.countP fun E => decide (¬ Used anc h E)

/-- The paths of the ancestors are different. -/
def PathsOK (anc : Anc) : Prop := (anc.map fun a => a.1.path).Pairwise (· ≠ ·) ∧ ∀ a ∈ anc, a.1.path.length < anc.length

theorem Used.append {anc : Anc} {h : HS3} {E : HS3 → Prop} (hu : Used anc h E) (x : PlaneRef × Bool) : Used (anc ++ [x]) h E := by
  obtain ⟨b, hb, h'⟩ := hu
  exact ⟨b, by simp [hb], h'⟩

theorem LinesOK.child {anc : Anc} {h : HS3} {L : List (HS3 → Prop)} {l : List BPoly} (hl : LinesOK anc h L l) {x : PlaneRef × Bool}
    (hx : ¬ Through x.1.plane h) {k : List BPoly} (hk : ∀ y ∈ k, ∃ p ∈ l, EdgesFrom x.1.plane p.poly y.poly) :
    LinesOK (anc ++ [x]) h L k := by
  intro y hy i hi
  obtain ⟨p, hp, he⟩ := hk y hy
  rcases he i hi with he | ⟨j, hj, he⟩
  · exact Or.inr ⟨x, by simp, he, hx⟩
  · rcases hl p hp j hj with ⟨E, hE, h'⟩ | ⟨b, hb, h1, h2⟩
    · exact Or.inl ⟨E, hE, fun f => (he f).trans (h' f)⟩
    · exact Or.inr ⟨b, by simp [hb], (he _).2 h1, h2⟩

theorem unused_lt {anc : Anc} {h : HS3} {L : List (HS3 → Prop)} {x : PlaneRef × Bool} {E : HS3 → Prop} (hE : E ∈ L)
    (h1 : ¬ Used anc h E) (h2 : E x.1.plane) (h3 : ¬ Through x.1.plane h) : unused (anc ++ [x]) h L < unused anc h L := by
  classical
  unfold unused
  induction L with
  | nil => simp at hE
  | cons F L ih =>
    have le : ∀ L : List (HS3 → Prop), L.countP (fun E => decide (¬ Used (anc ++ [x]) h E)) ≤ L.countP fun E => decide (¬ Used anc h E) := by
      intro L
      apply List.countP_mono_left
      intro E _ hh
      rw [decide_eq_true_eq] at hh ⊢
      exact fun hc => hh (hc.append x)
    have step : (if decide (¬ Used (anc ++ [x]) h F) = true then 1 else 0) ≤ if decide (¬ Used anc h F) = true then 1 else 0 := by
      by_cases hc : Used anc h F
      · have := hc.append x
        simp [hc, this]
      · simp only [hc, not_false_eq_true, decide_true, if_true]; split <;> omega
    rw [List.countP_cons, List.countP_cons]
    rcases List.mem_cons.1 hE with rfl | hE
    · have u : Used (anc ++ [x]) h E := ⟨x, by simp, h2, h3⟩
      have := le L
      simp only [u, h1, not_true, not_false_eq_true, decide_false, decide_true, if_true, Bool.false_eq_true, if_false]
      omega
    · have := ih hE
      omega

/-- The edge found by the search is on no other ancestor's plane. -/
theorem split_unused {anc : Anc} (hpath : PathsOK anc) {h : HS3} {drop : Fin 3} {l : List BPoly} (hf : FaceOK anc h drop l) {p : BPoly} (hp : p ∈ l)
    {i : Nat} {e : Edge EdgeInfo} (he : p.poly.edges[i]? = some e) (hs : sameSplit e.data.first e.data.edgeLast = true) :
    ¬ Used anc h (AtEdge p.poly i) := by
  have hb := (hf p hp).1
  have hpl := (hf p hp).2.1
  rintro ⟨b, hb1, hb2, hb3⟩
  have hb3' : ¬ Through b.1.plane p.poly.plane := fun ht => hb3 fun q hq => ht q ((hpl q).2 hq)
  obtain ⟨_, h2, h3, _⟩ := hb.edges i e he
  obtain ⟨l', a, r, hanc, ht, hn, _⟩ := hb.on
  have hi : i < p.poly.count := (List.getElem?_eq_some_iff.1 he).1
  have ha : AtEdge p.poly i a.1.plane := ⟨ht.vertex hb.convex hi, ht.vertex hb.convex (Nat.mod_lt _ hb.convex.count_pos)⟩
  have hmem : a ∈ anc := by rw [hanc]; simp
  rcases h3 with ⟨_, h3⟩ | ⟨l1, a1, r1, e1, c1, n1, f1⟩
  · exact absurd ha (h3 a hmem)
  rcases h2 with ⟨_, h2⟩ | ⟨l2, a2, r2, e2, c2, n2, f2⟩
  · exact absurd ha (h2 a hmem)
  rw [f1, f2] at hs
  have hpeq : a1.1.path = a2.1.path := by simpa [sameSplit] using hs
  -- the highest and the deepest ancestor are the same one
  have hlen : l1.length = l2.length := by
    by_contra hc
    have g1 : (anc.map fun a => a.1.path)[l1.length]? = some a1.1.path := by rw [e1]; simp
    have g2 : (anc.map fun a => a.1.path)[l2.length]? = some a2.1.path := by rw [e2]; simp
    obtain ⟨k1, k1'⟩ := List.getElem?_eq_some_iff.1 g1
    obtain ⟨k2, k2'⟩ := List.getElem?_eq_some_iff.1 g2
    rcases Nat.lt_or_gt_of_ne hc with hlt | hlt
    · exact List.pairwise_iff_getElem.1 hpath.1 _ _ k1 k2 hlt (by rw [k1', k2', hpeq])
    · exact List.pairwise_iff_getElem.1 hpath.1 _ _ k2 k1 hlt (by rw [k1', k2', hpeq])
  obtain ⟨rfl, hrest⟩ := List.append_inj (e1.symm.trans e2) hlen
  obtain ⟨rfl, rfl⟩ := List.cons.inj hrest
  have only : ∀ c ∈ anc, AtEdge p.poly i c.1.plane → c = a1 := by
    intro c hc hat
    rw [e1] at hc
    rcases List.mem_append.1 hc with hc | hc
    · exact absurd hat (n1 c hc)
    · rcases List.mem_cons.1 hc with hc | hc
      · exact hc
      · exact absurd hat (n2 c hc)
  have := (only a hmem ha).trans (only b hb1 hb2).symm
  rw [this] at ht
  exact hb3' ht

theorem PathsOK.append {anc : Anc} (h : PathsOK anc) {path : List Bool} (hp : path.length = anc.length) (g : HS3) (s : Bool) :
    PathsOK (anc ++ [(⟨path, g⟩, s)]) := by
  constructor
  · rw [List.map_append, List.pairwise_append]
    refine ⟨h.1, by simp, ?_⟩
    intro x hx y hy
    obtain ⟨a, ha, rfl⟩ := List.mem_map.1 hx
    simp only [List.map_cons, List.map_nil, List.mem_singleton] at hy
    rw [hy]
    have := h.2 a ha
    intro hc
    rw [hc] at this
    omega
  · intro a ha
    rw [List.length_append, List.length_singleton]
    rcases List.mem_append.1 ha with ha | ha
    · have := h.2 a ha; omega
    · rw [List.mem_singleton.1 ha]; simp only; omega

theorem FaceOK.not_through {anc : Anc} {h : HS3} {drop : Fin 3} {l : List BPoly} (hf : FaceOK anc h drop l) {p : BPoly} (hp : p ∈ l) {g : HS3}
    (hg : ¬ Through g p.poly.plane) : ¬ Through g h := fun ht => hg fun q hq => ht q (((hf p hp).2.1 q).1 hq)

theorem partitionVec_defined {v : IsInside} (hv : Lawful v) {h : HS3} {drop : Fin 3} {posNormal : Bool} {init : List Info} {L : List (HS3 → Prop)} (fuel : Nat) :
    ∀ {anc : Anc} {path : List Bool} {l : List BPoly} {c : List Info}, PathsOK anc → path.length = anc.length → FaceOK anc h drop l → LinesOK anc h L l →
    (∀ p ∈ l, p.tracker = none ∧ p.id < init.length) → St init c → Flags l c → unused anc h L < fuel →
    ∃ r, partitionVec v drop posNormal init fuel path l c = some r := by
  induction fuel with
  | zero => intro anc path l c _ _ _ _ _ _ _ hlt; omega
  | succ fuel ih =>
    intro anc path l c hpo hpl hf hL hids hc hfl hlt
    unfold partitionVec
    by_cases hp : (!(v c).2) = true
    · rw [if_pos hp]; exact ⟨_, rfl⟩
    rw [if_neg hp]
    obtain ⟨o, o1, o2, o3⟩ := searchMid_all l
    rw [o1]
    cases o with
    | none =>
      simp only
      obtain ⟨r, hr⟩ := (peel_spec (drop := drop) (posNormal := posNormal) hv hc.len _ rfl).2 fun p hp => ⟨(hids p hp).2, (hf p hp).2.2⟩
      have hl : processLeaf v drop posNormal l (v c).1 c = some (.leaf :: r.1, r.2) := by unfold processLeaf; rw [hr]; rfl
      rw [hl]
      obtain ⟨_, a2, a3⟩ := runOK_leaf hv hf (o2 rfl) hc.len hc.pwn hl
      obtain ⟨c', b1, _⟩ := restorePwn_spec a2 (fun id => (a3 id).trans (hc.int id))
      simp only at b1 ⊢
      rw [b1]
      exact ⟨_, rfl⟩
    | some e =>
      simp only
      obtain ⟨p, hp, hpe⟩ := o3 e rfl
      obtain ⟨i, hi, hsame⟩ := searchEdge_some hpe
      obtain ⟨s1, s2⟩ := splitPlane_spec (hf p hp).1.convex (hf p hp).2.2 hi
      have hth := hf.through hp s2
      obtain ⟨p1, p2⟩ := pushSides_spec (ref := ⟨path, splitPlane e drop⟩) hth
      obtain ⟨k, hk⟩ := p2 fun p hp => (hids p hp).1
      have ho := p1 k hk
      have hedge := pushSides_edges (fun p hp => (hf p hp).1) hk
      rw [hk]
      simp only
      have hun := split_unused hpo hf hp hi hsame
      have hix : i < p.poly.count := (List.getElem?_eq_some_iff.1 hi).1
      have hng := hf.not_through hp s2
      obtain ⟨E, hE, hEf⟩ := (hL p hp i hix).resolve_right hun
      have hunE : ¬ Used anc h E := by
        rintro ⟨b, hb1, hb2, hb3⟩
        exact hun ⟨b, hb1, (hEf _).2 hb2, hb3⟩
      have hdec : ∀ s, unused (anc ++ [(⟨path, splitPlane e drop⟩, s)]) h L < fuel := by
        intro s
        have := unused_lt (x := ((⟨path, splitPlane e drop⟩ : PlaneRef), s)) hE hunE ((hEf _).1 s1) hng
        omega
      have idsk : ∀ (k' : List BPoly) (x : PlaneRef × Bool), (∀ y ∈ k', BorderOK (anc ++ [x]) y ∧ ∃ p ∈ l, y.poly.plane = p.poly.plane ∧ y.id = p.id ∧
          (p.tracker = none → y.tracker = none)) → ∀ y ∈ k', y.tracker = none ∧ y.id < init.length := by
        intro k' x hk' y hy
        obtain ⟨_, z, hz, _, h2, h3⟩ := hk' y hy
        exact ⟨h3 (hids z hz).1, by rw [h2]; exact (hids z hz).2⟩
      have hi1 := idsk k.1 _ ho.neg
      have hi2 := idsk k.2 _ ho.pos
      obtain ⟨c1, hc1⟩ := (setPolygons_spec hc).2 fun y hy => (hi1 y hy).2
      obtain ⟨t1, t2⟩ := (setPolygons_spec hc).1 c1 hc1
      rw [hc1]
      simp only
      have plen : ∀ s : Bool, (path ++ [s]).length = (anc ++ [((⟨path, splitPlane e drop⟩ : PlaneRef), s)]).length := by intro s; simp [hpl]
      obtain ⟨r1, hr1⟩ := ih (hpo.append hpl _ _) (plen false) (hf.child ho.neg)
        (hL.child (x := (⟨path, splitPlane e drop⟩, false)) hng fun y hy => hedge y (Or.inl hy)) hi1 t1 t2 (hdec false)
      obtain ⟨_, u2⟩ := partitionVec_spec hv fuel (hf.child ho.neg) t1 t2 r1 hr1
      rw [hr1]
      simp only
      obtain ⟨c2, hc2⟩ := (setPolygons_spec u2).2 fun y hy => (hi2 y hy).2
      obtain ⟨t3, t4⟩ := (setPolygons_spec u2).1 c2 hc2
      rw [hc2]
      simp only
      obtain ⟨r2, hr2⟩ := ih (hpo.append hpl _ _) (plen true) (hf.child ho.pos)
        (hL.child (x := (⟨path, splitPlane e drop⟩, true)) hng fun y hy => hedge y (Or.inr hy)) hi2 t3 t4 (hdec true)
      rw [hr2]
      exact ⟨_, rfl⟩

/-- The lines of the edges of the polygons. -/
def allLines (l : List BPoly) : List (HS3 → Prop) := l.flatMap fun p => (List.range p.poly.count).map fun i => AtEdge p.poly i

theorem linesOK_all (anc : Anc) (h : HS3) (l : List BPoly) : LinesOK anc h (allLines l) l := by
  intro p hp i hi
  left
  refine ⟨AtEdge p.poly i, ?_, fun _ => Iff.rfl⟩
  unfold allLines
  rw [List.mem_flatMap]
  exact ⟨p, hp, List.mem_map.2 ⟨i, by simpa using hi, rfl⟩⟩

/-- The total number of edges. -/
def edgeTotal (l : List BPoly) : Nat := (l.map fun p => p.poly.count).sum

theorem allLines_length (l : List BPoly) : (allLines l).length = edgeTotal l := by
  unfold allLines edgeTotal
  induction l with
  | nil => rfl
  | cons p l ih => simp only [List.flatMap_cons, List.length_append, List.length_map, List.length_range, ih, List.map_cons, List.sum_cons]

theorem unused_le (anc : Anc) (h : HS3) (L : List (HS3 → Prop)) : unused anc h L ≤ L.length := by
  classical
  unfold unused; exact List.countP_le_length

/-- The partitioner terminates, without failing an assertion. -/
theorem partition_defined {v : IsInside} (hv : Lawful v) {anc : Anc} {h : HS3} {drop : Fin 3} {posNormal : Bool} {init : List Info} {fuel : Nat}
    {path : List Bool} {l : List BPoly} (hpo : PathsOK anc) (hpl : path.length = anc.length) (hf : FaceOK anc h drop l)
    (hids : ∀ p ∈ l, p.tracker = none ∧ 0 < (init.getD p.id {}).border) (hint : ∀ i ∈ init, i.interior = 0)
    (hfuel : edgeTotal l < fuel) : ∃ tr, partition v drop posNormal init fuel path l = some tr := by
  have hids' : ∀ p ∈ l, ∃ i, init[p.id]? = some i ∧ i.border ≠ 0 := by
    intro p hp
    have := (hids p hp).2
    rw [List.getD_eq_getElem?_getD] at this
    cases hg : init[p.id]? with
    | none => rw [hg] at this; simp at this
    | some i => rw [hg] at this; exact ⟨i, rfl, by simp at this; omega⟩
  have hlt : ∀ p ∈ l, p.id < init.length := by
    intro p hp
    obtain ⟨i, hi, _⟩ := hids' p hp
    exact (List.getElem?_eq_some_iff.1 hi).1
  unfold partition
  rw [if_neg (by rw [infoMatches_spec.2 hids']; simp)]
  by_cases hp : (!(v init).2) = true
  · rw [if_pos hp]; exact ⟨_, rfl⟩
  rw [if_neg hp]
  cases hs : searchFirst l with
  | none =>
    simp only
    obtain ⟨r, hr⟩ := (peel_spec (drop := drop) (posNormal := posNormal) hv (c := init) rfl _ rfl).2 fun p hp => ⟨hlt p hp, (hf p hp).2.2⟩
    unfold processLeaf
    rw [hr]
    exact ⟨_, rfl⟩
  | some e =>
    simp only
    obtain ⟨p, hp, hpe⟩ := searchFirst_some hs
    obtain ⟨i, hi, hsame⟩ := searchEdge_some hpe
    obtain ⟨s1, s2⟩ := splitPlane_spec (hf p hp).1.convex (hf p hp).2.2 hi
    have hth := hf.through hp s2
    obtain ⟨p1, p2⟩ := pushSides_spec (ref := ⟨path, splitPlane e drop⟩) hth
    obtain ⟨k, hk⟩ := p2 fun p hp => (hids p hp).1
    have ho := p1 k hk
    have hedge := pushSides_edges (fun p hp => (hf p hp).1) hk
    have hng := hf.not_through hp s2
    rw [hk]
    simp only
    have hL := linesOK_all anc h l
    have hdec : ∀ s, unused (anc ++ [(⟨path, splitPlane e drop⟩, s)]) h (allLines l) < fuel := by
      intro s
      have := unused_le (anc ++ [(⟨path, splitPlane e drop⟩, s)]) h (allLines l)
      rw [allLines_length] at this
      omega
    have hc : St init init := by
      refine ⟨rfl, fun _ => rfl, fun id => ?_⟩
      cases hid : init[id]? with
      | none => rfl
      | some j => simpa using hint j (List.mem_of_getElem? hid)
    have idsk : ∀ (k' : List BPoly) (x : PlaneRef × Bool), (∀ y ∈ k', BorderOK (anc ++ [x]) y ∧ ∃ p ∈ l, y.poly.plane = p.poly.plane ∧ y.id = p.id ∧
        (p.tracker = none → y.tracker = none)) → ∀ y ∈ k', y.tracker = none ∧ y.id < init.length := by
      intro k' x hk' y hy
      obtain ⟨_, z, hz, _, h2, h3⟩ := hk' y hy
      exact ⟨h3 (hids z hz).1, by rw [h2]; exact hlt z hz⟩
    have hi1 := idsk k.1 _ ho.neg
    have hi2 := idsk k.2 _ ho.pos
    obtain ⟨c1, hc1⟩ := (setPolygons_spec hc).2 fun y hy => (hi1 y hy).2
    obtain ⟨t1, t2⟩ := (setPolygons_spec hc).1 c1 hc1
    rw [hc1]
    simp only
    have plen : ∀ s : Bool, (path ++ [s]).length = (anc ++ [((⟨path, splitPlane e drop⟩ : PlaneRef), s)]).length := by intro s; simp [hpl]
    obtain ⟨r1, hr1⟩ := partitionVec_defined hv (posNormal := posNormal) fuel (hpo.append hpl _ _) (plen false) (hf.child ho.neg)
      (hL.child (x := (⟨path, splitPlane e drop⟩, false)) hng fun y hy => hedge y (Or.inl hy)) hi1 t1 t2 (hdec false)
    obtain ⟨_, u2⟩ := partitionVec_spec hv fuel (hf.child ho.neg) t1 t2 r1 hr1
    rw [hr1]
    simp only
    obtain ⟨c2, hc2⟩ := (setPolygons_spec u2).2 fun y hy => (hi2 y hy).2
    obtain ⟨t3, t4⟩ := (setPolygons_spec u2).1 c2 hc2
    rw [hc2]
    simp only
    obtain ⟨r2, hr2⟩ := partitionVec_defined hv (posNormal := posNormal) fuel (hpo.append hpl _ _) (plen true) (hf.child ho.pos)
      (hL.child (x := (⟨path, splitPlane e drop⟩, true)) hng fun y hy => hedge y (Or.inr hy)) hi2 t3 t4 (hdec true)
    rw [hr2]
    exact ⟨_, rfl⟩

end Walnut.Bsp
