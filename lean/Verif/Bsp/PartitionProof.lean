/-
The plane partitioner's geometry: the split planes and the regions of the polygons in the
partitioner's leaves.
-/
import Verif.Bsp.PartitionSpec
import Verif.Bsp.RouteProof
import Verif.Poly.Hull

namespace Walnut.Bsp
open Walnut.Geom Walnut.Poly Walnut.Props

variable {D : Type}

/-- In the polygon's plane, a plane through an edge is a multiple of the edge's turn. -/
theorem edge_multiple {P : Polygon EdgeInfo} (h : IsConvexPolygon P) {f : HS3} {i : Nat} (hi : i < P.count) (hf : AtEdge P i f) :
    ∃ l : ℚ, ∀ q, P.plane.side q = 0 → f.side q = l * ar (ring2 P i) (ring2 P (i + 1)) (pr P.plane P.drop q) := by
  have hn := h.count_pos
  have e1 := SplitShape.aff_pt (g := f) h (SplitShape.pt_side h i)
  have e2 := SplitShape.aff_pt (g := f) h (SplitShape.pt_side h (i + 1))
  have aq : ∀ q, P.plane.side q = 0 → _ := fun q hq => SplitShape.aff_pt (g := f) h hq
  rw [Nat.mod_eq_of_lt hi, hf.1] at e1
  rw [hf.2] at e2
  have hne : ring2 P i ≠ ring2 P (i + 1) := h.ring.ne (by omega) (by have := h.three; omega)
  have r1 : pr P.plane P.drop (P.pt i) = ring2 P i := by unfold ring2; rw [Nat.mod_eq_of_lt hi]
  have r2 : pr P.plane P.drop (P.pt ((i + 1) % P.count)) = ring2 P (i + 1) := rfl
  rw [r1] at e1
  rw [r2] at e2
  unfold aff at *
  unfold ar
  generalize ring2 P i = a at *
  generalize ring2 P (i + 1) = b at *
  generalize ca P.plane f P.drop = α at *
  generalize cb P.plane f P.drop = β at *
  generalize cc P.plane f P.drop = γ at *
  have hd : b.1 - a.1 ≠ 0 ∨ b.2 - a.2 ≠ 0 := by
    by_contra hc
    push Not at hc
    exact hne (Prod.ext (by linarith) (by linarith))
  have d1 : α * (b.1 - a.1) + β * (b.2 - a.2) = 0 := by linear_combination e2 - e1
  rcases hd with hd | hd
  · refine ⟨β / (b.1 - a.1), fun q hq => ?_⟩
    rw [← aq q hq]
    field_simp
    linear_combination (b.1 - a.1) * e1 + ((pr P.plane P.drop q).1 - a.1) * d1
  · refine ⟨-α / (b.2 - a.2), fun q hq => ?_⟩
    rw [← aq q hq]
    field_simp
    linear_combination (b.2 - a.2) * e1 + ((pr P.plane P.drop q).2 - a.2) * d1

/-- A point of the plane, on the polygon's side of a plane through an edge, is left of the
edge. -/
theorem left_of_edge {P : Polygon EdgeInfo} (h : IsConvexPolygon P) {f : HS3} {i : Nat} (hi : i < P.count) (hf : AtEdge P i f)
    (ht : ¬ Through f P.plane) {s : Bool} (hs : ∀ x ∈ P.region, onSide f s x) {q : Q3} (hq : P.plane.side q = 0) (hq' : onSide f s q) :
    0 ≤ ar (ring2 P i) (ring2 P (i + 1)) (pr P.plane P.drop q) := by
  obtain ⟨l, hl⟩ := edge_multiple h hi hf
  have hne : ring2 P i ≠ ring2 P (i + 1) := h.ring.ne (by omega) (by have := h.three; omega)
  obtain ⟨m, _, hm⟩ := h.ring.off hne
  have hm0 := hl _ (SplitShape.pt_side h m)
  have rm : pr P.plane P.drop (P.pt (m % P.count)) = ring2 P m := rfl
  rw [rm] at hm0
  have hpos : 0 < ar (ring2 P i) (ring2 P (i + 1)) (ring2 P m) := by
    have := SplitShape.region_edge h (SplitShape.mem_pt h m) i
    rw [rm] at this
    exact lt_of_le_of_ne this (Ne.symm hm)
  have hsm := hs _ (SplitShape.mem_pt h m)
  have l0 : l ≠ 0 := by
    rintro rfl
    exact ht fun x hx => by rw [hl x hx, zero_mul]
  unfold onSide at hsm hq'
  rw [hm0] at hsm
  rw [hl q hq] at hq'
  cases s <;> simp only [Bool.false_eq_true, if_false, if_true] at hsm hq'
  · have : l < 0 := lt_of_le_of_ne (by by_contra hc; push Not at hc; linarith [mul_pos hc hpos]) l0
    by_contra hc
    push Not at hc
    linarith [mul_pos_of_neg_of_neg this hc]
  · have : 0 < l := lt_of_le_of_ne (by by_contra hc; push Not at hc; linarith [mul_neg_of_neg_of_pos hc hpos]) l0.symm
    by_contra hc
    push Not at hc
    linarith [mul_neg_of_pos_of_neg this hc]

/-- An edge whose first and last coincident planes are different is on an ancestor's plane that does
not contain the polygon. -/
theorem edge_ancestor {anc : Anc} {p : BPoly} (h : BorderOK anc p) {i : Nat} {e : Edge EdgeInfo} (he : p.poly.edges[i]? = some e)
    (hne : sameSplit e.data.first e.data.edgeLast = false) : ∃ b ∈ anc, AtEdge p.poly i b.1.plane ∧ ¬ Through b.1.plane p.poly.plane := by
  obtain ⟨_, h2, h3, _⟩ := h.edges i e he
  obtain ⟨l, a, r, hanc, ht, hn, _⟩ := h.on
  have hi : i < p.poly.count := (List.getElem?_eq_some_iff.1 he).1
  have hcnt := h.convex.count_pos
  have ha : AtEdge p.poly i a.1.plane := ⟨ht.vertex h.convex hi, ht.vertex h.convex (Nat.mod_lt _ hcnt)⟩
  have hmem : a ∈ anc := by rw [hanc]; simp
  have uniq : ∀ b ∈ anc, Through b.1.plane p.poly.plane → b = a := by
    intro b hb hbt
    rw [hanc] at hb
    by_contra hc
    refine hn b ?_ hbt
    simp only [List.mem_append, List.mem_cons] at hb ⊢
    tauto
  rcases h3 with ⟨_, h3⟩ | ⟨l1, a1, r1, e1, c1, _, f1⟩
  · exact absurd ha (h3 a hmem)
  rcases h2 with ⟨_, h2⟩ | ⟨l2, a2, r2, e2, c2, _, f2⟩
  · exact absurd ha (h2 a hmem)
  have m1 : a1 ∈ anc := by rw [e1]; simp
  have m2 : a2 ∈ anc := by rw [e2]; simp
  by_cases t1 : Through a1.1.plane p.poly.plane
  · by_cases t2 : Through a2.1.plane p.poly.plane
    · rw [uniq a1 m1 t1] at f1
      rw [uniq a2 m2 t2] at f2
      rw [f1, f2] at hne
      simp [sameSplit] at hne
    · exact ⟨a2, m2, c2, t2⟩
  · exact ⟨a1, m1, c1, t1⟩

theorem searchEdge_none {p : BPoly} (h : searchEdge p = none) {i : Nat} {e : Edge EdgeInfo} (he : p.poly.edges[i]? = some e) :
    sameSplit e.data.first e.data.edgeLast = false := by
  unfold searchEdge at h
  rw [List.find?_eq_none] at h
  have := h e (List.mem_of_getElem? he)
  simpa using this

theorem searchEdge_some {p : BPoly} {e : Edge EdgeInfo} (h : searchEdge p = some e) :
    ∃ i : Nat, p.poly.edges[i]? = some e ∧ sameSplit e.data.first e.data.edgeLast = true := by
  unfold searchEdge at h
  obtain ⟨i, hi⟩ := List.mem_iff_getElem?.1 (List.mem_of_find?_eq_some h)
  exact ⟨i, hi, by simpa using List.find?_some h⟩

/-- In a leaf of the partitioner every polygon covers the whole face of the cell. -/
theorem leaf_region {anc : Anc} {p : BPoly} (h : BorderOK anc p) (hs : searchEdge p = none) (q : Q3) :
    q ∈ p.poly.region ↔ p.poly.plane.side q = 0 ∧ q ∈ Cell anc := by
  constructor
  · exact fun hq => ⟨SplitShape.region_plane h.convex hq, h.cell hq⟩
  · rintro ⟨h1, h2⟩
    refine h.convex.mem_of_edges h1 fun j => ?_
    have hn := h.convex.count_pos
    have e1 : ring2 p.poly j = ring2 p.poly (j % p.poly.count) := by unfold ring2; rw [Nat.mod_mod]
    have e2 : ring2 p.poly (j + 1) = ring2 p.poly (j % p.poly.count + 1) := by unfold ring2; rw [Nat.mod_add_mod]
    rw [e1, e2]
    have hj : j % p.poly.count < p.poly.count := Nat.mod_lt _ hn
    obtain ⟨e, he⟩ : ∃ e, p.poly.edges[j % p.poly.count]? = some e := ⟨_, List.getElem?_eq_getElem hj⟩
    obtain ⟨b, b1, b2, b3⟩ := edge_ancestor h he (searchEdge_none hs he)
    exact left_of_edge h.convex hj b2 b3 (fun x hx => h.cell hx b b1) h1 (h2 b b1)

/-- The plane through an edge, parallel to an axis that is not parallel to the polygon. -/
theorem splitPlane_spec {P : Polygon EdgeInfo} (h : IsConvexPolygon P) {drop : Fin 3} (hd : P.plane.n.comp drop ≠ 0) {i : Nat}
    {e : Edge EdgeInfo} (he : P.edges[i]? = some e) :
    AtEdge P i (splitPlane e drop) ∧ ¬ Through (splitPlane e drop) P.plane := by
  have hi : i < P.count := (List.getElem?_eq_some_iff.1 he).1
  have hl := h.line i hi
  have hline : P.lineD i = e.line := by
    unfold Polygon.lineD; rw [he]
  rw [hline] at hl
  have o1 := h.onPlane i hi
  have o2 := h.onPlane _ (Nat.mod_lt (i + 1) h.count_pos)
  have hne : P.pt i ≠ P.pt ((i + 1) % P.count) := by
    have := h.ring.ne (a := i) (b := i + 1) (by omega) (by have := h.three; omega)
    intro hc
    apply this
    unfold ring2
    rw [Nat.mod_eq_of_lt hi, hc]
  obtain ⟨s, s0, hdir⟩ := hl.dir
  have hon := hl.on
  unfold AtEdge
  generalize P.pt i = a at *
  generalize P.pt ((i + 1) % P.count) = b at *
  have side : ∀ q : Q3, (splitPlane e drop).side q = s * ((b (drop + 1) - a (drop + 1)) * (q (drop + 2) - a (drop + 2)) -
      (b (drop + 2) - a (drop + 2)) * (q (drop + 1) - a (drop + 1))) := by
    intro q
    have m0 := congrFun hon 0
    have m1 := congrFun hon 1
    have m2 := congrFun hon 2
    have d0 := hdir 0
    have d1 := hdir 1
    have d2 := hdir 2
    rw [HS3.side_eq]
    unfold splitPlane HS3.extrude PL.project2D
    simp only [crossQ, V3.q_zero, V3.q_one, V3.q_two] at *
    obtain rfl | rfl | rfl := fin3 drop
    · simp [V2.perp, V3.dropDimension, V3.set, V3.zero, V3.comp, fin3_eqs] at *
      linear_combination -m0 + (q 2 - a 2) * d1 - (q 1 - a 1) * d2
    · simp [V2.perp, V3.dropDimension, V3.set, V3.zero, V3.comp, fin3_eqs] at *
      linear_combination -m1 + (q 0 - a 0) * d2 - (q 2 - a 2) * d0
    · simp [V2.perp, V3.dropDimension, V3.set, V3.zero, V3.comp, fin3_eqs] at *
      linear_combination -m2 + (q 1 - a 1) * d0 - (q 0 - a 0) * d1
  refine ⟨⟨by rw [side]; ring, by rw [side]; ring⟩, fun ht => hne ?_⟩
  -- a point of the plane above a point next to `a`
  have hd' : (P.plane.n.comp drop : ℚ) ≠ 0 := by exact_mod_cast hd
  have comp : ∀ x y : ℚ, (b (drop + 1) - a (drop + 1)) * y - (b (drop + 2) - a (drop + 2)) * x = 0 := by
    intro x y
    have := ht (fun j => if j = drop then a drop - (P.plane.n.comp (drop + 1) * x + P.plane.n.comp (drop + 2) * y) / P.plane.n.comp drop
      else if j = drop + 1 then a (drop + 1) + x else a (drop + 2) + y) (by
        rw [HS3.side_eq] at o1 ⊢
        obtain rfl | rfl | rfl := fin3 drop <;> simp [V3.comp, fin3_eqs] at hd' o1 ⊢ <;> field_simp <;> linarith)
    rw [side] at this
    have := (mul_eq_zero.1 this).resolve_left s0.ne'
    obtain rfl | rfl | rfl := fin3 drop <;> simp [fin3_eqs] at this ⊢ <;> linarith
  have c1 := comp 0 1
  have c2 := comp 1 0
  rw [HS3.side_eq] at o1 o2
  obtain rfl | rfl | rfl := fin3 drop <;> simp [V3.comp, fin3_eqs] at hd' c1 c2
  · have e1 : a 1 = b 1 := by linarith
    have e2 : a 2 = b 2 := by linarith
    refine q3_ext (mul_left_cancel₀ (show (P.plane.n.x : ℚ) ≠ 0 from by exact_mod_cast hd') ?_) e1 e2
    rw [e1, e2] at o1; linarith
  · have e1 : a 2 = b 2 := by linarith
    have e2 : a 0 = b 0 := by linarith
    refine q3_ext e2 (mul_left_cancel₀ (show (P.plane.n.y : ℚ) ≠ 0 from by exact_mod_cast hd') ?_) e1
    rw [e1, e2] at o1; linarith
  · have e1 : a 0 = b 0 := by linarith
    have e2 : a 1 = b 1 := by linarith
    refine q3_ext e1 e2 (mul_left_cancel₀ (show (P.plane.n.z : ℚ) ≠ 0 from by exact_mod_cast hd') ?_)
    rw [e1, e2] at o1; linarith


/-! ### The searches -/

theorem searchFirst_none {l : List BPoly} (h : searchFirst l = none) : ∀ p ∈ l, searchEdge p = none := by
  induction l with
  | nil => simp
  | cons p l ih =>
    unfold searchFirst at h
    cases hp : searchEdge p with
    | some e => rw [hp] at h; simp at h
    | none =>
      rw [hp] at h
      intro x hx
      rcases List.mem_cons.1 hx with rfl | hx
      · exact hp
      · exact ih h x hx

theorem searchFirst_some {l : List BPoly} {e : Edge EdgeInfo} (h : searchFirst l = some e) : ∃ p ∈ l, searchEdge p = some e := by
  induction l with
  | nil => simp [searchFirst] at h
  | cons p l ih =>
    unfold searchFirst at h
    cases hp : searchEdge p with
    | some e' => rw [hp] at h; exact ⟨p, by simp, by rw [hp, ← h]⟩
    | none =>
      rw [hp] at h
      obtain ⟨x, hx, he⟩ := ih h
      exact ⟨x, by simp [hx], he⟩

/-- The search from the middle looks at every polygon. -/
theorem searchMid_spec (l : List BPoly) (r : Nat) (hr : r ≤ l.length / 2) :
    ∃ o, searchMid l (l.length / 2) r = some o ∧
      (o = none → ∀ i p, l[i]? = some p → l.length / 2 + (l.length / 2 - r) ≤ i ∨ i < r → searchEdge p = none) ∧
      (∀ e, o = some e → ∃ p ∈ l, searchEdge p = some e) := by
  induction r with
  | zero =>
    unfold searchMid
    by_cases hodd : l.length % 2 = 1
    · rw [if_pos hodd]
      have hlt : l.length / 2 + l.length / 2 < l.length := by omega
      rw [List.getElem?_eq_getElem hlt]
      refine ⟨_, rfl, fun hn i p hp hi => ?_, fun e he => ⟨_, List.getElem_mem hlt, he⟩⟩
      have hil := (List.getElem?_eq_some_iff.1 hp).1
      obtain rfl : i = l.length / 2 + l.length / 2 := by omega
      rw [List.getElem?_eq_getElem hlt] at hp
      rw [← Option.some.inj hp]; exact hn
    · rw [if_neg hodd]
      refine ⟨_, rfl, fun hn i p hp hi => ?_, by simp⟩
      have hil := (List.getElem?_eq_some_iff.1 hp).1
      omega
  | succ r ih =>
    obtain ⟨o, h1, h2, h3⟩ := ih (by omega)
    unfold searchMid
    have a1 : l.length / 2 + (l.length / 2 - (r + 1)) < l.length := by omega
    have a2 : l.length / 2 - (l.length / 2 - (r + 1)) - 1 < l.length := by omega
    rw [List.getElem?_eq_getElem a1, List.getElem?_eq_getElem a2]
    simp only
    cases s1 : searchEdge l[l.length / 2 + (l.length / 2 - (r + 1))] with
    | some e => exact ⟨_, rfl, by simp, fun e' he' => ⟨_, List.getElem_mem a1, by rw [s1, ← Option.some.inj he']⟩⟩
    | none =>
      cases s2 : searchEdge l[l.length / 2 - (l.length / 2 - (r + 1)) - 1] with
      | some e => exact ⟨_, rfl, by simp, fun e' he' => ⟨_, List.getElem_mem a2, by rw [s2, ← Option.some.inj he']⟩⟩
      | none =>
        refine ⟨o, h1, fun hn i p hp hi => ?_, h3⟩
        by_cases c1 : i = l.length / 2 + (l.length / 2 - (r + 1))
        · subst c1
          rw [List.getElem?_eq_getElem a1] at hp
          rw [← Option.some.inj hp]; exact s1
        · by_cases c2 : i = l.length / 2 - (l.length / 2 - (r + 1)) - 1
          · subst c2
            rw [List.getElem?_eq_getElem a2] at hp
            rw [← Option.some.inj hp]; exact s2
          · exact h2 hn i p hp (by omega)

theorem searchMid_all (l : List BPoly) : ∃ o, searchMid l (l.length / 2) (l.length / 2) = some o ∧
    (o = none → ∀ p ∈ l, searchEdge p = none) ∧ (∀ e, o = some e → ∃ p ∈ l, searchEdge p = some e) := by
  obtain ⟨o, h1, h2, h3⟩ := searchMid_spec l (l.length / 2) le_rfl
  refine ⟨o, h1, fun hn p hp => ?_, h3⟩
  obtain ⟨i, hi⟩ := List.mem_iff_getElem?.1 hp
  exact h2 hn i p hi (by omega)

/-! ### Splitting -/

/-- The pieces on both sides of a plane that does not contain the polygons. -/
structure SidesOK (anc : Anc) (ref : PlaneRef) (l : List BPoly) (k : List BPoly × List BPoly) : Prop where
  neg : ∀ x ∈ k.1, BorderOK (anc ++ [(ref, false)]) x ∧ ∃ p ∈ l, x.poly.plane = p.poly.plane ∧ x.id = p.id ∧ (p.tracker = none → x.tracker = none)
  pos : ∀ x ∈ k.2, BorderOK (anc ++ [(ref, true)]) x ∧ ∃ p ∈ l, x.poly.plane = p.poly.plane ∧ x.id = p.id ∧ (p.tracker = none → x.tracker = none)
  stackNeg : ∀ q, ref.plane.side q < 0 → stackAt q k.1 = stackAt q l ∧ stackAt q k.2 = []
  stackPos : ∀ q, 0 < ref.plane.side q → stackAt q k.2 = stackAt q l ∧ stackAt q k.1 = []

theorem stackAt_cons_mem {q : Q3} {p : BPoly} (l : List BPoly) (h : q ∈ p.poly.region) : stackAt q (p :: l) = facet p :: stackAt q l := by
  unfold stackAt; simp [h]

theorem stackAt_cons_not {q : Q3} {p : BPoly} (l : List BPoly) (h : q ∉ p.poly.region) : stackAt q (p :: l) = stackAt q l := by
  unfold stackAt; simp [h]

theorem stackAt_cons_congr {q : Q3} {p x : BPoly} {l k : List BPoly} (h : q ∈ x.poly.region ↔ q ∈ p.poly.region) (hf : facet x = facet p)
    (hs : stackAt q k = stackAt q l) : stackAt q (x :: k) = stackAt q (p :: l) := by
  by_cases hq : q ∈ p.poly.region
  · rw [stackAt_cons_mem _ hq, stackAt_cons_mem _ (h.2 hq), hf, hs]
  · rw [stackAt_cons_not _ hq, stackAt_cons_not _ (fun hc => hq (h.1 hc)), hs]

theorem pushSides_spec {anc : Anc} {ref : PlaneRef} {l : List BPoly} (h : ∀ p ∈ l, BorderOK anc p ∧ ¬ Through ref.plane p.poly.plane) :
    (∀ k, pushSides ref l = some k → SidesOK anc ref l k) ∧ ((∀ p ∈ l, p.tracker = none) → ∃ k, pushSides ref l = some k) := by
  induction l with
  | nil =>
    refine ⟨fun k hk => ?_, fun _ => ⟨_, rfl⟩⟩
    rw [← Option.some.inj hk]
    exact ⟨by simp, by simp, fun q _ => ⟨rfl, rfl⟩, fun q _ => ⟨rfl, rfl⟩⟩
  | cons p l ih =>
    obtain ⟨i1, i2⟩ := ih fun x hx => h x (by simp [hx])
    obtain ⟨hb, ht⟩ := h p (by simp)
    obtain ⟨r1, r2⟩ := route_spec hb.toPieceOK (Or.inr hb.on) ref false
    have up : ∀ x : BPoly, (∃ p ∈ l, x.poly.plane = p.poly.plane ∧ x.id = p.id ∧ (p.tracker = none → x.tracker = none)) →
        ∃ y ∈ p :: l, x.poly.plane = y.poly.plane ∧ x.id = y.id ∧ (y.tracker = none → x.tracker = none) := by
      rintro x ⟨y, hy, h'⟩
      exact ⟨y, by simp [hy], h'⟩
    constructor
    · intro k hk
      unfold pushSides at hk
      cases hr : route false ref p with
      | none => rw [hr] at hk; simp at hk
      | some o =>
        rw [hr] at hk
        have hok := r1 o hr
        cases o with
        | on => simp at hk
        | both N Q =>
          obtain ⟨k', hk', rfl⟩ := Option.map_eq_some_iff.1 hk
          obtain ⟨s1, s2, s3, s4⟩ := i1 k' hk'
          obtain ⟨o1, o2, o3, o4, o5, o6, o7, o8, o9, o10, o11, o12, o13⟩ := hok
          refine ⟨?_, ?_, ?_, ?_⟩
          · intro x hx
            rcases List.mem_cons.1 hx with rfl | hx
            · exact ⟨hb.step o3 o5 o9 ht, p, by simp, o5, o7, fun hn => (o13 hn).1⟩
            · exact ⟨(s1 x hx).1, up x (s1 x hx).2⟩
          · intro x hx
            rcases List.mem_cons.1 hx with rfl | hx
            · exact ⟨hb.step o4 o6 o10 ht, p, by simp, o6, o8, fun hn => (o13 hn).2⟩
            · exact ⟨(s2 x hx).1, up x (s2 x hx).2⟩
          · intro q hq
            refine ⟨stackAt_cons_congr ?_ ?_ (s3 q hq).1, ?_⟩
            · rw [o11]; exact ⟨fun hh => hh.1, fun hh => ⟨hh, hq.le⟩⟩
            · unfold facet; rw [o5, o7]
            · rw [stackAt_cons_not]
              · exact (s3 q hq).2
              · rw [o12]; rintro ⟨_, hh⟩; exact absurd hq (not_lt.2 hh)
          · intro q hq
            refine ⟨stackAt_cons_congr ?_ ?_ (s4 q hq).1, ?_⟩
            · rw [o12]; exact ⟨fun hh => hh.1, fun hh => ⟨hh, hq.le⟩⟩
            · unfold facet; rw [o6, o8]
            · rw [stackAt_cons_not]
              · exact (s4 q hq).2
              · rw [o11]; rintro ⟨_, hh⟩; exact absurd hq (not_lt.2 hh)
        | neg N =>
          obtain ⟨k', hk', rfl⟩ := Option.map_eq_some_iff.1 hk
          obtain ⟨s1, s2, s3, s4⟩ := i1 k' hk'
          obtain ⟨o1, o2, o3, o4, o5, o6, o7⟩ := hok
          have side : ∀ q ∈ p.poly.region, ref.plane.side q ≤ 0 := fun q hq => region_onSide (s := false) (fun i hi => o2 i hi) q hq
          refine ⟨?_, fun x hx => ⟨(s2 x hx).1, up x (s2 x hx).2⟩, ?_, ?_⟩
          · intro x hx
            rcases List.mem_cons.1 hx with rfl | hx
            · exact ⟨hb.step o3 o4.plane o6 ht, p, by simp, o4.plane, o5, fun hn => o7.trans hn⟩
            · exact ⟨(s1 x hx).1, up x (s1 x hx).2⟩
          · intro q hq
            refine ⟨stackAt_cons_congr ?_ ?_ (s3 q hq).1, (s3 q hq).2⟩
            · rw [o4.region]
            · unfold facet; rw [o4.plane, o5]
          · intro q hq
            have hout : q ∉ p.poly.region := fun hh => absurd hq (not_lt.2 (side q hh))
            refine ⟨?_, ?_⟩
            · rw [stackAt_cons_not _ hout]; exact (s4 q hq).1
            · rw [stackAt_cons_not _ (by rw [o4.region]; exact hout)]; exact (s4 q hq).2
        | pos Q =>
          obtain ⟨k', hk', rfl⟩ := Option.map_eq_some_iff.1 hk
          obtain ⟨s1, s2, s3, s4⟩ := i1 k' hk'
          obtain ⟨o1, o2, o3, o4, o5, o6, o7⟩ := hok
          have side : ∀ q ∈ p.poly.region, 0 ≤ ref.plane.side q := fun q hq => region_onSide (s := true) (fun i hi => o2 i hi) q hq
          refine ⟨fun x hx => ⟨(s1 x hx).1, up x (s1 x hx).2⟩, ?_, ?_, ?_⟩
          · intro x hx
            rcases List.mem_cons.1 hx with rfl | hx
            · exact ⟨hb.step o3 o4.plane o6 ht, p, by simp, o4.plane, o5, fun hn => o7.trans hn⟩
            · exact ⟨(s2 x hx).1, up x (s2 x hx).2⟩
          · intro q hq
            have hout : q ∉ p.poly.region := fun hh => absurd hq (not_lt.2 (side q hh))
            refine ⟨?_, ?_⟩
            · rw [stackAt_cons_not _ hout]; exact (s3 q hq).1
            · rw [stackAt_cons_not _ (by rw [o4.region]; exact hout)]; exact (s3 q hq).2
          · intro q hq
            refine ⟨stackAt_cons_congr ?_ ?_ (s4 q hq).1, (s4 q hq).2⟩
            · rw [o4.region]
            · unfold facet; rw [o4.plane, o5]
    · intro htr
      obtain ⟨k, hk⟩ := i2 fun x hx => htr x (by simp [hx])
      obtain ⟨o, ho⟩ := r2 (htr p (by simp))
      unfold pushSides
      rw [ho, hk]
      cases o with
      | on => exact absurd (through_of_vertices hb.convex _ (r1 _ ho)) ht
      | both N Q => exact ⟨_, rfl⟩
      | neg N => exact ⟨_, rfl⟩
      | pos Q => exact ⟨_, rfl⟩

end Walnut.Bsp
