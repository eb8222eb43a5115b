/-
The polygon factory makes one polygon of the vertices of a strictly convex polygon.
-/
import Verif.Mono.ConvexPiece
import Verif.Props.Extrude

namespace Walnut.Mono
open Walnut.Geom Walnut.Props

theorem orient_convex {drop mono : Fin 3} {vs : List HP3} (hT : Tame drop vs) (hM : MinFree drop vs) {s : Int} (hs : s = 1 ∨ s = -1) {x y : HP3} {P Q : List HP3}
    (hc : Turning drop s (x :: P ++ y :: Q)) (hmem : ∀ v ∈ x :: P ++ y :: Q, v ∈ vs) (hy : ∀ v ∈ x :: P ++ y :: Q, v.pt mono ≤ y.pt mono) (hne : P ≠ [] ∨ Q ≠ []) :
    ∃ verts, orientBuild drop mono (x :: P ++ [y]) (x :: Q.reverse ++ [y]) = some [⟨-s, verts⟩] ∧ verts ~r x :: P ++ y :: Q := by
  have mx := hmem x (by simp)
  have my := hmem y (by simp)
  obtain ⟨a, r1, ea, ha⟩ : ∃ a r1, P ++ [y] = a :: r1 ∧ (P = [] ∧ a = y ∨ ∃ P', P = a :: P') := by
    cases P with
    | nil => exact ⟨y, [], rfl, .inl ⟨rfl, rfl⟩⟩
    | cons p P => exact ⟨p, P ++ [y], rfl, .inr ⟨P, rfl⟩⟩
  obtain ⟨b, r2, eb, hb⟩ : ∃ b r2, Q.reverse ++ [y] = b :: r2 ∧ (Q = [] ∧ b = y ∨ b ∈ Q) := by
    cases hq : Q.reverse with
    | nil => exact ⟨y, [], rfl, .inl ⟨by simpa using hq, rfl⟩⟩
    | cons p P => exact ⟨p, P ++ [y], rfl, .inr (by rw [← List.mem_reverse, hq]; simp)⟩
  have hsub : [x, a, b].Sublist (x :: P ++ y :: Q) := by
    refine List.Sublist.cons_cons _ ?_
    rcases ha with ⟨rfl, rfl⟩ | ⟨P', rfl⟩
    · refine List.Sublist.cons_cons _ (List.singleton_sublist.2 ?_)
      rcases hb with ⟨rfl, -⟩ | hb
      · simp at hne
      · exact hb
    · refine List.Sublist.cons_cons _ (List.singleton_sublist.2 ?_)
      rcases hb with ⟨rfl, rfl⟩ | hb
      · simp
      · simp [hb]
  have ma : a ∈ vs := hmem a (hsub.subset (by simp))
  have mb : b ∈ vs := hmem b (hsub.subset (by simp))
  have hturn := hc x a b hsub
  have tw := (hT.twist mx ma mb).1
  have hxx : x.eq x = true := (hT.eq mx mx).2 rfl
  have cmp : ∀ v ∈ x :: P ++ y :: Q, ¬ y.compareComponent mono v < 0 := by
    intro v hv
    rw [hT.comp my (hmem v hv)]
    exact not_lt.2 (hy v hv)
  rcases hs with rfl | rfl
  · have hpos : 0 < T drop x a b := by simpa using hturn
    have hp := tw.2.2.2 hpos
    have hd : detect drop mono (x :: P ++ [y]) (x :: Q.reverse ++ [y]) = some (some false) := by
      rw [List.cons_append, List.cons_append, ea, eb]
      simp only [detect, hxx, Bool.not_true, Bool.false_eq_true, if_false]
      rw [if_pos (by omega)]
      simp; omega
    have e : (x :: Q.reverse).reverse ++ (P ++ [y]) = Q ++ (x :: P ++ [y]) := by simp
    have e' : x :: P ++ y :: Q = (x :: P ++ [y]) ++ Q := by simp
    have hmem2 : ∀ v ∈ Q ++ (x :: P ++ [y]), v ∈ vs := fun v hv => hmem v (by
      simp only [List.mem_append, List.mem_cons, List.not_mem_nil, or_false] at hv ⊢; tauto)
    obtain ⟨verts, h1, h2⟩ := decompose_convex hT hM (mono := mono) (m := x) (y := y) (ts := Q.reverse) (bs := P)
      (fun t ht => cmp t (by simp at ht; simp [ht])) (by simpa [or_comm] using hne) (by rw [e]; exact hmem2)
      (by rw [e]; have := hc; rw [e'] at this; simpa using this.swap)
    refine ⟨verts, ?_, ?_⟩
    · unfold orientBuild
      rw [hd]
      have e1 : (x :: Q.reverse ++ [y]).dropLast = x :: Q.reverse := List.dropLast_concat
      have e2 : (x :: P ++ [y]).tail = P ++ [y] := rfl
      simp only [bind, Option.bind, e1, e2, h1]
      simp [emitRange]
    · rw [e] at h2
      rw [e']
      exact h2.trans List.isRotated_append
  · have hneg : T drop x a b < 0 := by simpa using hturn
    have hp := tw.1.2 hneg
    have hd : detect drop mono (x :: P ++ [y]) (x :: Q.reverse ++ [y]) = some (some true) := by
      rw [List.cons_append, List.cons_append, ea, eb]
      simp only [detect, hxx, Bool.not_true, Bool.false_eq_true, if_false]
      rw [if_pos (by omega)]
      simp; omega
    have e : (x :: P).reverse ++ (Q.reverse ++ [y]) = (y :: Q ++ x :: P).reverse := by simp
    have hmem2 : ∀ v ∈ (y :: Q ++ x :: P).reverse, v ∈ vs := fun v hv => hmem v (by
      simp only [List.mem_reverse, List.mem_append, List.mem_cons] at hv ⊢; tauto)
    obtain ⟨verts, h1, h2⟩ := decompose_convex hT hM (mono := mono) (m := x) (y := y) (ts := P) (bs := Q.reverse)
      (fun t ht => cmp t (by simp [ht])) (by simpa using hne) (by rw [e]; exact hmem2)
      (by rw [e]; simpa using hc.swap.reverse)
    refine ⟨verts.reverse, ?_, ?_⟩
    · unfold orientBuild
      rw [hd]
      have e1 : (x :: P ++ [y]).dropLast = x :: P := List.dropLast_concat
      have e2 : (x :: Q.reverse ++ [y]).tail = Q.reverse ++ [y] := rfl
      simp only [bind, Option.bind, e1, e2, h1]
      simp [emitRange]
    · rw [e] at h2
      have := h2.reverse
      rw [List.reverse_reverse] at this
      exact this.trans List.isRotated_append

/-- The edges of a closed polyline. -/
def ringEdges (l : List HP3) : List (HP3 × PL) := List.zipWith (fun p q => (p, PL.ofHomoPoints p q)) l (l.rotate 1)

theorem emitEdges_ring {first : HP3} (hf : first.w ≠ 0) : ∀ (r : List HP3) (prev : HP3), (∀ v ∈ prev :: r, v.w ≠ 0) →
    (prev :: r ++ [first]).IsChain (fun p q => p.pt ≠ q.pt) →
    emitEdges first prev r = List.zipWith (fun p q => (p, PL.ofHomoPoints p q)) (prev :: r) (r ++ [first])
  | [], prev, hw, hc => by
    have h : prev.pt ≠ first.pt := by simpa using hc
    have v : (PL.ofHomoPoints prev first).isValid = true := by
      by_contra hcon; exact h ((line_valid (hw prev (by simp)) hf).1.1 (by simpa using hcon))
    simp [emitEdges, v]
  | p :: r, prev, hw, hc => by
    simp only [List.cons_append, List.isChain_cons_cons] at hc
    have v : (PL.ofHomoPoints prev p).isValid = true := by
      by_contra hcon; exact hc.1 ((line_valid (hw prev (by simp)) (hw p (by simp))).1.1 (by simpa using hcon))
    rw [emitEdges]
    simp only [v, if_true]
    rw [emitEdges_ring hf r p (fun v hv => hw v (by simp at hv ⊢; tauto)) (by simpa using hc.2)]
    rfl

theorem turning_distinct {drop : Fin 3} {s : ℚ} {l : List HP3} (hl : 3 ≤ l.length) (hc : Turning drop s l) : l.Pairwise fun p q => p.pt ≠ q.pt := by
  rw [List.pairwise_iff_getElem]
  intro i j hi hj hij
  have gi : l[i]? = some l[i] := List.getElem?_eq_getElem hi
  have gj : l[j]? = some l[j] := List.getElem?_eq_getElem hj
  have key : ∀ {x y z : HP3}, [x, y, z].Sublist l → x.pt ≠ y.pt ∧ y.pt ≠ z.pt ∧ x.pt ≠ z.pt := by
    intro x y z h
    refine T_ne (drop := drop) fun e => ?_
    have := hc x y z h
    rw [e, mul_zero] at this
    exact lt_irrefl _ this
  by_cases h1 : j + 1 < l.length
  · exact (key (sublist_three gi gj (List.getElem?_eq_getElem h1) hij (by omega))).1
  · by_cases h2 : 0 < i
    · exact (key (sublist_three (List.getElem?_eq_getElem (show 0 < l.length by omega)) gi gj h2 hij)).2.1
    · exact (key (sublist_three gi (List.getElem?_eq_getElem (show i + 1 < l.length by omega)) gj (by omega) (by omega))).2.2

theorem emitEdges_turning {drop : Fin 3} {s : ℚ} {v : HP3} {r : List HP3} (hl : 3 ≤ (v :: r).length) (hw : ∀ x ∈ v :: r, x.w ≠ 0) (hc : Turning drop s (v :: r)) :
    emitEdges v v r = ringEdges (v :: r) := by
  have hp := turning_distinct hl hc
  rw [emitEdges_ring (hw v (by simp)) r v hw ?_]
  · simp [ringEdges]
  · refine List.IsChain.append hp.isChain (by simp) ?_
    intro x hx y hy
    simp only [List.head?_cons, Option.mem_def, Option.some.injEq] at hy
    subst hy
    have hr : r ≠ [] := by rintro rfl; simp at hl
    rw [List.getLast?_cons_of_ne_nil hr] at hx
    exact ((List.pairwise_cons.1 hp).1 x (List.mem_of_getLast? hx)).symm

/-- The polygon has these vertices, in this order: they are on its plane, its normal is a positive multiple of `n`, and its
edges are the lines through them. -/
structure IsCell (P : OutPoly) (n : Q3) (vs : List HP3) : Prop where
  edges : ∃ l, l ~r vs ∧ P.edges = ringEdges l
  normal : ∃ k : ℚ, 0 < k ∧ ∀ i, P.plane.n.q i = k * n i
  side : ∀ v ∈ vs, P.plane.side v.pt = 0
  drop : P.plane.n.comp P.drop ≠ 0

/-- Any three vertices, in the order of the list, are counter-clockwise seen from the side to which `n` points. -/
def CounterClockwise (n : Q3) (vs : List HP3) : Prop :=
  ∀ x y z, [x, y, z].Sublist vs → ∃ μ : ℚ, 0 < μ ∧ ∀ i, crossQ (subQ y.pt x.pt) (subQ z.pt x.pt) i = μ * n i

theorem CounterClockwise.swap {n : Q3} {l l' : List HP3} (h : CounterClockwise n (l ++ l')) : CounterClockwise n (l' ++ l) := by
  intro x y z hx
  obtain ⟨r1, r2, e, h1, h2⟩ := List.sublist_append_iff.1 hx
  have key := h2.append h1
  have rot : ∀ a b c : Q3, ∀ i, crossQ (subQ b a) (subQ c a) i = crossQ (subQ c b) (subQ a b) i := by
    intro a b c i
    fin_cases i <;> simp [crossQ, subQ] <;> ring
  match r1, r2, e with
  | [], [_, _, _], e => cases e; exact h x y z (by simpa using key)
  | [_], [_, _], e =>
    cases e
    obtain ⟨μ, hμ, hh⟩ := h y z x (by simpa using key)
    exact ⟨μ, hμ, fun i => by rw [rot, hh]⟩
  | [_, _], [_], e =>
    cases e
    obtain ⟨μ, hμ, hh⟩ := h z x y (by simpa using key)
    exact ⟨μ, hμ, fun i => by rw [← rot, hh]⟩
  | [_, _, _], [], e => cases e; exact h x y z (by simpa using key)

theorem CounterClockwise.rotated {n : Q3} {l l' : List HP3} (h : CounterClockwise n l) (hr : l ~r l') : CounterClockwise n l' := by
  obtain ⟨n, rfl⟩ := hr
  rcases Nat.eq_zero_or_pos l.length with h0 | h0
  · rw [List.length_eq_zero_iff] at h0; subst h0; simpa using h
  · rw [← List.rotate_mod, List.rotate_eq_drop_append_take (Nat.mod_lt _ h0).le]
    apply CounterClockwise.swap
    rwa [List.take_append_drop]

theorem ccw_plane {n : Q3} {vs : List HP3} (h3 : 3 ≤ vs.length) (hc : CounterClockwise n vs) {p v : HP3} (hp : vs[vs.length - 1]? = some p) (hv : v ∈ vs) :
    dotQ n (subQ v.pt p.pt) = 0 := by
  obtain ⟨i, hi⟩ := List.getElem?_of_mem hv
  have hil : i < vs.length := by
    by_contra hh; rw [List.getElem?_eq_none (by omega)] at hi; cases hi
  have g0 : vs[0]? = some vs[0] := List.getElem?_eq_getElem _
  have done : ∀ {a b c : HP3} {μ : ℚ}, 0 < μ → (∀ i, crossQ (subQ b.pt a.pt) (subQ c.pt a.pt) i = μ * n i) →
      dotQ n (subQ a.pt c.pt) = 0 ∧ dotQ n (subQ b.pt c.pt) = 0 := by
    intro a b c μ hμ h
    have h0 := h 0
    have h1 := h 1
    have h2 := h 2
    simp only [crossQ_zero, crossQ_one, crossQ_two, subQ] at h0 h1 h2
    constructor
    · apply mul_left_cancel₀ hμ.ne'
      simp only [dotQ, subQ]
      linear_combination -(a.pt 0 - c.pt 0) * h0 - (a.pt 1 - c.pt 1) * h1 - (a.pt 2 - c.pt 2) * h2
    · apply mul_left_cancel₀ hμ.ne'
      simp only [dotQ, subQ]
      linear_combination -(b.pt 0 - c.pt 0) * h0 - (b.pt 1 - c.pt 1) * h1 - (b.pt 2 - c.pt 2) * h2
  by_cases h1 : i = vs.length - 1
  · rw [h1, hp] at hi
    cases hi
    simp [dotQ, subQ]
  · by_cases h0 : i = 0
    · obtain ⟨μ, hμ, h⟩ := hc _ _ _ (sublist_three (h0 ▸ hi) (List.getElem?_eq_getElem (show 1 < vs.length by omega)) hp (by omega) (by omega))
      exact (done hμ h).1
    · obtain ⟨μ, hμ, h⟩ := hc _ _ _ (sublist_three g0 hi hp (by omega) (by omega))
      exact (done hμ h).2

/-- The factory makes exactly one polygon of the vertices of a strictly convex polygon: that polygon. -/
theorem factory_convex {vs : List HP3} (hu : Usable vs) (hM : ∀ drop, MinFree drop vs) {n : Q3} (hn : n ≠ 0) (h3 : 3 ≤ vs.length) (hc : CounterClockwise n vs) :
    ∃ P, IsCell P n vs ∧ ∀ out, FactoryBuild vs out ↔ out = [P] := by
  have hpos := (hu 0).pos
  have hw : ∀ v ∈ vs, v.w ≠ 0 := fun v hv => by have := hpos v hv; omega
  have hm : ∀ v ∈ vs, v.w ≠ -2 ^ 63 := fun v hv => by have := hpos v hv; omega
  have whole : seg vs 0 vs.length = vs := by simp [seg]
  have gl : vs[vs.length - 1]? = some vs[vs.length - 1] := List.getElem?_eq_getElem _
  have g0 : vs[0]? = some vs[0] := List.getElem?_eq_getElem _
  have g1 : vs[1]? = some vs[1] := List.getElem?_eq_getElem _
  obtain ⟨r, hr, hcase⟩ := planarRange_spec hw hm (show 0 + 1 < vs.length by omega) le_rfl gl g0
  rw [whole] at hcase
  generalize hp1 : vs[vs.length - 1] = p1 at *
  generalize hp2 : vs[0] = p2 at *
  generalize hp3 : vs[1] = q1 at *
  have crossrot : ∀ a b c : Q3, ∀ i, crossQ (subQ b a) (subQ c a) i = crossQ (subQ c b) (subQ a b) i := by
    intro a b c i
    fin_cases i <;> simp [crossQ, subQ] <;> ring
  -- the plane
  obtain ⟨hverts, hf1, hf2, k, hk, hnorm, hall⟩ : r.verts = vs ∧ r.first = vs.length - 1 ∧ r.last = vs.length - 1 ∧
      ∃ k : ℚ, 0 < k ∧ (∀ i, (r.plane.n.comp i : ℚ) = k * n i) ∧ ∀ v ∈ vs, r.plane.side v.pt = 0 := by
    rcases hcase with ⟨-, -, -, -, -, hal⟩ | ⟨hval, ⟨p3, hp3m, k, hk, hside⟩, hon, -, hrest⟩
    · exfalso
      obtain ⟨μ, hμ, h⟩ := hc _ _ _ (sublist_three g0 g1 gl (by omega) (by omega))
      have h2 := hal q1 (List.mem_of_getElem? g1)
      apply hn
      funext i
      have e := h i
      rw [← crossrot p1.pt p2.pt q1.pt, h2 i] at e
      have := (mul_eq_zero.1 e.symm).resolve_left hμ.ne'
      simpa using this
    · have hnp : ∀ i, (r.plane.n.comp i : ℚ) = k * crossQ (subQ p2.pt p1.pt) (subQ p3.pt p1.pt) i := normal_of_side hside
      obtain ⟨j, hj⟩ := List.getElem?_of_mem hp3m
      have hjl : j < vs.length := by
        by_contra hh; rw [List.getElem?_eq_none (by omega)] at hj; cases hj
      have bad : (∀ i, crossQ (subQ p2.pt p1.pt) (subQ p3.pt p1.pt) i = 0) → False := by
        intro hz
        have z : ∀ i, r.plane.n.comp i = 0 := fun i => by
          have := hnp i; rw [hz i, mul_zero] at this; exact_mod_cast this
        have z0 := z 0
        have z1 := z 1
        have z2 := z 2
        simp [V3.comp] at z0 z1 z2
        simp [planeValid, V3.isZero, z0, z1, z2] at hval
      have j0 : j ≠ 0 := by
        rintro rfl
        rw [g0] at hj
        cases hj
        exact bad fun i => by fin_cases i <;> simp [crossQ, subQ] <;> ring
      have jl : j ≠ vs.length - 1 := by
        rintro rfl
        rw [gl] at hj
        cases hj
        exact bad fun i => by fin_cases i <;> simp [crossQ, subQ]
      obtain ⟨μ, hμ, h⟩ := hc _ _ _ (sublist_three g0 hj gl (by omega) (by omega))
      have hcr : ∀ i, crossQ (subQ p2.pt p1.pt) (subQ p3.pt p1.pt) i = μ * n i := fun i => by rw [crossrot]; exact h i
      have hzero : ∀ v ∈ vs, r.plane.side v.pt = 0 := by
        intro v hv
        have d := ccw_plane h3 hc gl hv
        rw [hside]
        have : orient p1.pt p2.pt p3.pt v.pt = μ * dotQ n (subQ v.pt p1.pt) := by
          simp only [orient, dotQ, hcr]; ring
        rw [this, d]; ring
      have hnn : ∀ i, (r.plane.n.comp i : ℚ) = k * μ * n i := fun i => by rw [hnp, hcr]; ring
      rcases hrest with ⟨e1, e2, e3⟩ | ⟨i, j, u, v, -, -, -, -, -, -, gu, -, hu', -⟩
      · exact ⟨e1, e2, e3, k * μ, mul_pos hk hμ, hnn, hzero⟩
      · exact absurd (hzero u (List.mem_of_getElem? gu)) hu'
  obtain ⟨drop, hdrop⟩ : ∃ d, r.plane.n.firstNonzeroDimension = some d := by
    cases e : r.plane.n.firstNonzeroDimension with
    | some d => exact ⟨d, rfl⟩
    | none =>
      exfalso
      have z := first_none e
      apply hn
      funext i
      have := hnorm i
      rw [z] at this
      have z2 : ((V3.comp ⟨0, 0, 0⟩ i : Int) : ℚ) = 0 := by fin_cases i <;> simp [V3.comp]
      rw [z2] at this
      simpa using (mul_eq_zero.1 this.symm).resolve_left hk.ne'
  have hd := Props.first_nonzero hdrop
  have hnd : n drop ≠ 0 := by
    intro e
    have := hnorm drop
    rw [e, mul_zero] at this
    exact hd (by exact_mod_cast this)
  -- the direction of the turns in the projection
  obtain ⟨s, hs, hsn⟩ : ∃ s : Int, (s = 1 ∨ s = -1) ∧ 0 < (s : ℚ) * n drop := by
    rcases lt_or_gt_of_ne hnd with h | h
    · exact ⟨-1, .inr rfl, by simpa using h⟩
    · exact ⟨1, .inl rfl, by simpa using h⟩
  have hturn : Turning drop s vs := by
    intro x y z hx
    obtain ⟨μ, hμ, h⟩ := hc x y z hx
    rw [T, turnAt_eq_cross, h drop]
    have := mul_pos hμ hsn
    linarith
  obtain ⟨m, x, P, y, Q, hmr, hfl, hch, hrot, hmax⟩ := convex_range (monoOf_ne drop) hpos h3 hturn
  have hmemQ : ∀ v ∈ x :: P ++ y :: Q, v ∈ vs := fun v hv => hrot.mem_iff.1 hv
  have hPQ : P ≠ [] ∨ Q ≠ [] := by
    by_contra hcon
    push Not at hcon
    have := hrot.perm.length_eq
    simp [hcon.1, hcon.2] at this
    omega
  obtain ⟨verts, hob, hvr⟩ := orient_convex (mono := monoOf drop) (hu drop) (hM drop) hs (hturn.rotated hrot.symm) hmemQ (fun v hv => hmax v (hmemQ v hv)) hPQ
  have hvv : verts ~r vs := hvr.trans hrot
  have hsame : SameSign (-s) (-n drop) := by
    rcases hs with rfl | rfl
    · have : 0 < n drop := by simpa using hsn
      refine ⟨?_, ?_, ?_⟩
      · constructor <;> intro <;> [linarith; decide]
      · constructor <;> intro h <;> [simp at h; (exfalso; linarith)]
      · constructor <;> intro h <;> [simp at h; (exfalso; linarith)]
    · have : n drop < 0 := by simpa using hsn
      refine ⟨?_, ?_, ?_⟩
      · constructor <;> intro h <;> [simp at h; (exfalso; linarith)]
      · constructor <;> intro h <;> [simp at h; (exfalso; linarith)]
      · constructor <;> intro <;> [linarith; decide]
  obtain ⟨hne0, hflip⟩ := same_orientation (by rcases hs with rfl | rfl <;> simp) hsame hk (hnorm drop) hnd
  obtain ⟨v, rest, rfl⟩ : ∃ v rest, verts = v :: rest := by
    cases verts with
    | nil => have := hvv.perm.length_eq; simp at this; omega
    | cons v rest => exact ⟨v, rest, rfl⟩
  have hedges : emitEdges v v rest = ringEdges (v :: rest) :=
    emitEdges_turning (by rw [hvv.perm.length_eq]; exact h3) (fun x hx => hw x (hvv.mem_iff.1 hx)) (hturn.rotated hvv.symm)
  have hplane : (⟨r.plane.n.scale 1, r.plane.d⟩ : HS3) = r.plane := by
    cases hrp : r.plane with
    | mk n d => cases n; simp [V3.scale]
  have hstep : factoryStep r.plane drop vs 0 vs.length = some ([⟨r.plane, drop, ringEdges (v :: rest)⟩], m.first, m.last) := by
    have hob' : orientBuild drop (monoOf drop) m.chains.1 m.chains.2 = some [⟨-s, v :: rest⟩] := by rw [hch]; exact hob
    simp [factoryStep, hmr, hob', emitAll, emitOriented, hne0, hflip, hedges, hplane]
  refine ⟨⟨r.plane, drop, ringEdges (v :: rest)⟩, ⟨⟨_, hvv, rfl⟩, ⟨k, hk, fun i => hnorm i⟩, hall, hd⟩, fun out => ⟨fun hf => ?_, fun e => ?_⟩⟩
  · obtain ⟨r', o, rest', hr', hb, hrest, rfl⟩ := outer_step hf (by omega)
    rw [hr] at hr'
    cases hr'
    rw [hf1, hf2] at hrest
    rw [outer_done hrest, List.append_nil]
    simp only [PlaneBuild, hdrop, hverts] at hb
    generalize hl : vs.length = l at hb
    generalize hz : (0 : Nat) = z at hb
    cases hb with
    | done => omega
    | step hne1 hs1 hr1 =>
      rw [← hl, ← hz, hstep] at hs1
      cases hs1
      rw [hfl] at hr1
      generalize m.last = q at hr1
      generalize hq : q = q' at hr1
      cases hr1 with
      | done => rfl
      | step hne2 => exact absurd rfl hne2
  · subst e
    have l1 : FactoryLoop r.plane drop vs m.first m.last [] := by rw [hfl]; exact .done _
    have l2 := FactoryLoop.step (by omega) hstep l1
    have l3 : PlaneBuild r.plane r.verts [⟨r.plane, drop, ringEdges (v :: rest)⟩] := by
      simp only [PlaneBuild, hdrop, hverts]; exact l2
    have := OuterLoop.step (vs := vs) (i := 0) (j := vs.length) (by omega) hr l3 (by rw [hf1, hf2]; exact .done _)
    exact this

/-- Also for triangles, without the restriction on the cross products. -/
theorem factory_cell {vs : List HP3} (hu : Usable vs) (hM : vs.length = 3 ∨ ∀ drop, MinFree drop vs) {n : Q3} (hn : n ≠ 0) (h3 : 3 ≤ vs.length) (hc : CounterClockwise n vs) :
    ∃ P, IsCell P n vs ∧ ∀ out, FactoryBuild vs out ↔ out = [P] := by
  rcases hM with hl | hM
  · obtain ⟨a, b, c, rfl⟩ : ∃ a b c, vs = [a, b, c] := List.length_eq_three.1 hl
    obtain ⟨μ, hμ, h⟩ := hc a b c (List.Sublist.refl _)
    obtain ⟨P, hP, hout⟩ := factory_triangle hu fun hal => hn (by
      funext i
      have := h i
      rw [hal i] at this
      simpa using (mul_eq_zero.1 this.symm).resolve_left hμ.ne')
    refine ⟨P, ⟨?_, ?_, ?_, hP.drop⟩, hout⟩
    · obtain ⟨x, y, z, hr, he⟩ := hP.edges
      refine ⟨[x, y, z], ?_, by rw [he]; rfl⟩
      rcases hr with ⟨rfl, rfl, rfl⟩ | ⟨rfl, rfl, rfl⟩ | ⟨rfl, rfl, rfl⟩
      · exact List.IsRotated.refl _
      · exact ⟨2, rfl⟩
      · exact ⟨1, rfl⟩
    · obtain ⟨k, hk, hn⟩ := hP.normal
      exact ⟨k * μ, mul_pos hk hμ, fun i => by rw [hn, h]; ring⟩
    · intro v hv
      simp only [List.mem_cons, List.not_mem_nil, or_false] at hv
      rcases hv with rfl | rfl | rfl
      · exact hP.side.1
      · exact hP.side.2.1
      · exact hP.side.2.2
  · exact factory_convex hu hM hn h3 hc

end Walnut.Mono
