/-
Where a polygon goes at a node, and that the pieces keep everything the specification
asks for.
-/
import Verif.Bsp.EdgeProof

namespace Walnut.Bsp
open Walnut.Geom Walnut.Poly Walnut.Props

/-- `GetSplitInfo` of the parent class classifies the vertices. -/
theorem splitInfo_spec {anc : Anc} {p : BPoly} (h : PieceOK anc p) (g : HS3) :
    ∃ s, p.splitInfo g = some s ∧ s.isValid p.poly.count = true ∧ SideRanges p.poly g s.ranges ∧
      (s.ranges.emitNeg = true → s.ranges.emitPos = true → p.poly.splitInfo g = some s) := by
  unfold BPoly.splitInfo
  obtain ⟨s, h1, h2, _, h4, _⟩ := h.convex.splitInfo g
  cases hT : p.tracker with
  | none => exact ⟨s, h1, h2, h4, fun _ _ => h1⟩
  | some T =>
    obtain ⟨s', e1, e2, e3⟩ := C31_split_info p.poly h.convex T (h.tracker T hT) g
    refine ⟨s', e1, ?_, ?_, e3⟩
    · unfold splitInfoBox at e1
      simp only at e1
      split_ifs at e1
      · rw [← Option.some.inj e1]
        simp [SplitInfo.isValid, Ranges.isValid, Ranges.emitNeg, Ranges.emitPos]
      · rw [← Option.some.inj e1]
        simp [SplitInfo.isValid, Ranges.isValid, Ranges.emitNeg, Ranges.emitPos]
      · rw [h1] at e1; rw [← Option.some.inj e1]; exact h2
    · unfold splitInfoBox at e1
      simp only at e1
      split_ifs at e1
      · rw [← Option.some.inj e1] at e2 ⊢
        exact ⟨by simp, by simp, fun i hi => (e2 i hi).1, fun i hi => (e2 i hi).2,
          by simp [Ranges.isValid, Ranges.emitNeg, Ranges.emitPos]⟩
      · rw [← Option.some.inj e1] at e2 ⊢
        exact ⟨by simp, by simp, fun i hi => (e2 i hi).1, fun i hi => (e2 i hi).2,
          by simp [Ranges.isValid, Ranges.emitNeg, Ranges.emitPos]⟩
      · rw [h1] at e1; rw [← Option.some.inj e1]; exact h4

theorem emitNeg_iff {P : Polygon EdgeInfo} {g : HS3} {r : Ranges} (hn : 0 < P.count) (h : SideRanges P g r) :
    r.emitNeg = true ↔ ∃ i, i < P.count ∧ g.side (P.pt i) < 0 := by
  constructor
  · intro he
    have hne : r.neg.1 ≠ r.neg.2 := by simpa [Ranges.emitNeg] using he
    have := h.neg_le
    exact ⟨r.neg.1 % P.count, Nat.mod_lt _ hn, (h.neg _ (Nat.mod_lt _ hn)).mpr ⟨r.neg.1, le_rfl, by omega, rfl⟩⟩
  · rintro ⟨i, hi, hs⟩
    obtain ⟨k, k1, k2, _⟩ := (h.neg i hi).mp hs
    have : r.neg.1 ≠ r.neg.2 := by omega
    simpa [Ranges.emitNeg] using this

theorem emitPos_iff {P : Polygon EdgeInfo} {g : HS3} {r : Ranges} (hn : 0 < P.count) (h : SideRanges P g r) :
    r.emitPos = true ↔ ∃ i, i < P.count ∧ 0 < g.side (P.pt i) := by
  constructor
  · intro he
    have hne : r.pos.1 ≠ r.pos.2 := by simpa [Ranges.emitPos] using he
    have := h.pos_le
    exact ⟨r.pos.1 % P.count, Nat.mod_lt _ hn, (h.pos _ (Nat.mod_lt _ hn)).mpr ⟨r.pos.1, le_rfl, by omega, rfl⟩⟩
  · rintro ⟨i, hi, hs⟩
    obtain ⟨k, k1, k2, _⟩ := (h.pos i hi).mp hs
    have : r.pos.1 ≠ r.pos.2 := by omega
    simpa [Ranges.emitPos] using this

/-- The vertices and edges outside of a range. -/
theorem outside_range {n : Nat} {Z : Nat → Prop} {r : Nat × Nat} (h1 : r.1 < r.2) (h2 : r.2 ≤ r.1 + n)
    (hz : ∀ i, i < n → (Z i ↔ ¬ InRange r n i)) {i : Nat} (hi : i < n) :
    ((∃ pos, r.2 ≤ pos ∧ pos < n + r.1 ∧ pos % n = i) ↔ Z i) ∧
    ((∃ pos, r.2 ≤ pos ∧ pos < n + r.1 - 1 ∧ pos % n = i) ↔ Z i ∧ Z ((i + 1) % n)) := by
  have hn : 0 < n := by omega
  have out : ∀ pos, r.2 ≤ pos → pos < n + r.1 → Z (pos % n) := by
    intro pos p1 p2
    rw [hz _ (Nat.mod_lt _ hn)]
    rintro ⟨k, k1, k2, k3⟩
    have : pos = k := by
      have e1 := Nat.div_add_mod pos n
      have e2 := Nat.div_add_mod k n
      rw [k3] at e2
      have : pos / n = k / n := by
        by_contra hne
        rcases Nat.lt_or_gt_of_ne hne with hlt | hlt
        · have := Nat.mul_le_mul_left n (show pos / n + 1 ≤ k / n from hlt)
          rw [Nat.mul_add] at this; omega
        · have := Nat.mul_le_mul_left n (show k / n + 1 ≤ pos / n from hlt)
          rw [Nat.mul_add] at this; omega
      rw [this] at e1; omega
    omega
  have back : ∀ i, i < n → Z i → ∃ pos, r.2 ≤ pos ∧ pos < n + r.1 ∧ pos % n = i := by
    intro i hi hZ
    obtain ⟨j, j1, j2, j3⟩ := Poly.exists_rep r.1 i hi
    refine ⟨j, ?_, by omega, j3⟩
    by_contra hc
    push Not at hc
    exact (hz i hi).1 hZ ⟨j, j1, hc, j3⟩
  refine ⟨⟨fun ⟨pos, p1, p2, p3⟩ => p3 ▸ out pos p1 p2, back i hi⟩, ⟨?_, ?_⟩⟩
  · rintro ⟨pos, p1, p2, rfl⟩
    refine ⟨out pos p1 (by omega), ?_⟩
    rw [Nat.mod_add_mod]
    exact out (pos + 1) (by omega) (by omega)
  · rintro ⟨z1, z2⟩
    obtain ⟨pos, p1, p2, rfl⟩ := back i hi z1
    refine ⟨pos, p1, ?_, rfl⟩
    by_contra hc
    have e : pos + 1 = r.1 + n := by omega
    rw [Nat.mod_add_mod, e, Nat.add_mod_right, hz _ (Nat.mod_lt _ hn)] at z2
    exact z2 ⟨r.1, le_rfl, h1, rfl⟩

/-- What every piece inside or on the border of a cell satisfies. -/
def OnOK (anc : Anc) (p : BPoly) : Prop :=
  (p.onNode.split = none ∧ ∀ a ∈ anc, ¬ Through a.1.plane p.poly.plane) ∨
    ∃ l a r, anc = l ++ a :: r ∧ Through a.1.plane p.poly.plane ∧
    (∀ b ∈ l ++ r, ¬ Through b.1.plane p.poly.plane) ∧ p.onNode = ⟨some a.1, a.2⟩ ∧
    (if a.2 then dotQ p.poly.plane.n.q a.1.plane.n.q < 0 else 0 < dotQ p.poly.plane.n.q a.1.plane.n.q)

theorem OnOK.hon {anc : Anc} {p : BPoly} (h : OnOK anc p) (hc : IsConvexPolygon p.poly) (hs : p.onNode.split.isSome) :
    ∃ a ∈ anc, ∀ i, i < p.poly.count → a.1.plane.side (p.poly.pt i) = 0 := by
  rcases h with ⟨h, _⟩ | ⟨l, a, r, rfl, ht, _⟩
  · rw [h] at hs; simp at hs
  · exact ⟨a, by simp, fun i hi => ht.vertex hc hi⟩

theorem cell_append {anc : Anc} {x : PlaneRef × Bool} {R : Set Q3} (h : R ⊆ Cell anc) (hx : ∀ q ∈ R, onSide x.1.plane x.2 q) :
    R ⊆ Cell (anc ++ [x]) := by
  intro q hq a ha
  rcases List.mem_append.1 ha with ha | ha
  · exact h hq a ha
  · rw [List.mem_singleton.1 ha]; exact hx q hq

/-- A polygon that stays whole: all marked vertices are on the plane. -/
theorem kept_piece {anc : Anc} {p p' : BPoly} {ref : PlaneRef} {s : Bool} {E V : Nat → Prop} (h : PieceOK anc p)
    (hon : OnOK anc p) (hu : Updated p p' ⟨some ref, s⟩ E V)
    (hE : ∀ i, i < p.poly.count → (E i ↔ AtEdge p.poly i ref.plane))
    (hV : ∀ i, i < p.poly.count → (V i ↔ AtVertex p.poly i ref.plane))
    (hs : ∀ i, i < p.poly.count → onSide ref.plane s (p.poly.pt i)) : PieceOK (anc ++ [(ref, s)]) p' := by
  refine ⟨hu.same.convex h.convex, fun T hT => hu.same.tracker (h.tracker T (hu.tracker ▸ hT)), ?_,
    hu.edgesOK hE hV h.edges (hon.hon h.convex)⟩
  rw [hu.same.region]
  exact cell_append h.cell (region_onSide hs)

/-! ### The two parts of a polygon -/

/-- `setBoundary` on one edge followed by `setCreated` on it. -/
def mark (N : BPoly) (c : SplitSide) (f : Nat) : BPoly := (N.setBoundary c f (f + 2)).setCreated c f

theorem mark_same (N : BPoly) {c : SplitSide} (hc : c.split.isSome) (f : Nat) :
    Same N.poly (mark N c f).poly ∧ (mark N c f).tracker = N.tracker ∧ (mark N c f).id = N.id ∧ (mark N c f).onNode = N.onNode := by
  have hu := setBoundary_updated N hc (first := f) (last := f + 2) (by omega)
  refine ⟨hu.same.trans (same_of_edges rfl rfl fun i => ?_), hu.tracker, hu.id, hu.onNode⟩
  unfold mark BPoly.setCreated
  simp only [modify_get]
  cases (N.setBoundary c f (f + 2)).poly.edges[i]? with
  | none => by_cases hm : f = i <;> simp [hm]
  | some e => by_cases hm : f = i <;> simp [hm, mapData, shape]

theorem mark_edgesOK {anc : Anc} (N : BPoly) (ref : PlaneRef) (s : Bool) {f : Nat} (hf : f < N.poly.count) (h2 : 2 ≤ N.poly.count)
    (hother : ∀ i e, N.poly.edges[i]? = some e → i ≠ f → Deepest anc (AtEdge N.poly i) e.data.edgeLast ∧
      Highest anc (AtEdge N.poly i) e.data.first ∧ Among anc (AtEdge N.poly i) e.data.createdBy ∧ ¬ AtEdge N.poly i ref.plane)
    (hvert : ∀ i e, N.poly.edges[i]? = some e → i ≠ f → i ≠ (f + 1) % N.poly.count →
      Deepest anc (AtVertex N.poly i) e.data.vertexLast ∧ ¬ AtVertex N.poly i ref.plane)
    (hnew : AtEdge N.poly f ref.plane)
    (hfirst : ∀ e, N.poly.edges[f]? = some e → e.data.first.split = none)
    (hhigh : Highest (anc ++ [(ref, s)]) (AtEdge N.poly f) (if N.onNode.split.isSome then N.onNode else ⟨some ref, s⟩)) :
    EdgesOK (anc ++ [(ref, s)]) (mark N ⟨some ref, s⟩ f).poly := by
  have hc : (⟨some ref, s⟩ : SplitSide).split.isSome = true := rfl
  have hu := setBoundary_updated N hc (first := f) (last := f + 2) (by omega)
  obtain ⟨hsame, _⟩ := mark_same N hc f
  have fmod : f % N.poly.count = f := Nat.mod_eq_of_lt hf
  have hE : ∀ i, (∃ pos, f ≤ pos ∧ pos < f + 2 - 1 ∧ pos % N.poly.count = i) ↔ i = f := by
    intro i
    constructor
    · rintro ⟨pos, p1, p2, rfl⟩
      rw [show pos = f by omega, fmod]
    · rintro rfl; exact ⟨i, le_rfl, by omega, fmod⟩
  have hV : ∀ i, (∃ pos, f ≤ pos ∧ pos < f + 2 ∧ pos % N.poly.count = i) ↔ i = f ∨ i = (f + 1) % N.poly.count := by
    intro i
    constructor
    · rintro ⟨pos, p1, p2, rfl⟩
      by_cases hp : pos = f
      · left; rw [hp, fmod]
      · right; congr 1; omega
    · rintro (rfl | rfl)
      · exact ⟨i, le_rfl, by omega, fmod⟩
      · exact ⟨f + 1, by omega, by omega, rfl⟩
  intro i e' he'
  have hi : i < N.poly.count := by
    rw [← hsame.count]; exact (List.getElem?_eq_some_iff.1 he').1
  obtain ⟨e, he⟩ : ∃ e, N.poly.edges[i]? = some e := ⟨_, List.getElem?_eq_getElem hi⟩
  obtain ⟨e'', he'', u0, u1, u2, u3, u4⟩ := hu.edge i e he
  rw [hE] at u1 u2
  rw [hV] at u3 u4
  have hm : e'.data.first = e''.data.first ∧ e'.data.edgeLast = e''.data.edgeLast ∧ e'.data.vertexLast = e''.data.vertexLast ∧
      e'.data.createdBy = if f = i then ⟨some ref, s⟩ else e''.data.createdBy := by
    unfold mark BPoly.setCreated at he'
    simp only [modify_get] at he'
    rw [he''] at he'
    by_cases hfi : f = i
    · rw [if_pos hfi] at he' ⊢
      rw [← Option.some.inj he']
      exact ⟨rfl, rfl, rfl, rfl⟩
    · rw [if_neg hfi] at he' ⊢
      rw [← Option.some.inj he']
      exact ⟨rfl, rfl, rfl, rfl⟩
  obtain ⟨m1, m2, m3, m4⟩ := hm
  have eV : AtVertex (mark N ⟨some ref, s⟩ f).poly i = AtVertex N.poly i := by funext h; unfold AtVertex; rw [hsame.pt]
  have eE : AtEdge (mark N ⟨some ref, s⟩ f).poly i = AtEdge N.poly i := by
    funext h; unfold AtEdge; rw [hsame.pt, hsame.pt, hsame.count]
  rw [eV, eE, m1, m2, m3, m4]
  have hne : f ≠ (f + 1) % N.poly.count := by
    intro h
    rcases Nat.lt_or_ge (f + 1) N.poly.count with h' | h'
    · rw [Nat.mod_eq_of_lt h'] at h; omega
    · rw [show f + 1 = N.poly.count by omega, Nat.mod_self] at h; omega
  by_cases hfi : i = f
  · subst hfi
    obtain ⟨v1, v2⟩ := u1 rfl
    rw [v1, v2, u3 (Or.inl rfl), if_pos rfl, if_pos (by rw [hfirst e he]; rfl)]
    exact ⟨Deepest.last hnew.1, Deepest.last hnew, hhigh, Or.inr ⟨(ref, s), by simp, hnew, rfl⟩⟩
  · obtain ⟨v1, v2⟩ := u2 hfi
    obtain ⟨o1, o2, o3, o4⟩ := hother i e he hfi
    rw [v1, v2, if_neg (Ne.symm hfi), u0]
    refine ⟨?_, o1.skip o4, o2.skip o4, o3.append⟩
    by_cases hl : i = (f + 1) % N.poly.count
    · rw [u3 (Or.inr hl)]
      apply Deepest.last
      rw [hl]; exact hnew.2
    · rw [u4 (by tauto)]
      obtain ⟨w1, w2⟩ := hvert i e he hfi hl
      exact w1.skip w2

/-- No ancestor above the one that contains the polygon goes through the new edge. -/
theorem new_highest {anc : Anc} {p : BPoly} (h : PieceOK anc p) (hon : OnOK anc p) {ref : PlaneRef} {s : Bool} {x y : Q3} (hxy : x ≠ y)
    (hx : p.poly.plane.side x = 0) (hy : p.poly.plane.side y = 0) (gx : ref.plane.side x = 0) (gy : ref.plane.side y = 0)
    (hneg : ∃ i, i < p.poly.count ∧ ref.plane.side (p.poly.pt i) < 0) (hpos : ∃ i, i < p.poly.count ∧ 0 < ref.plane.side (p.poly.pt i)) :
    Highest (anc ++ [(ref, s)]) (fun f => f.side x = 0 ∧ f.side y = 0) (if p.onNode.split.isSome then p.onNode else ⟨some ref, s⟩) := by
  have key : ∀ a ∈ anc, (a.1.plane.side x = 0 ∧ a.1.plane.side y = 0) → Through a.1.plane p.poly.plane := by
    intro a ha hc
    exact cut_face h.convex hxy hx hy gx gy hc.1 hc.2 (s := a.2) (fun i hi => h.cell (pt_mem hi) a ha) hneg hpos
  rcases hon with ⟨h0, hn⟩ | ⟨l, a, r, rfl, ht, hn, ho, _⟩
  · rw [if_neg (by rw [h0]; simp)]
    exact Highest.last (fun a ha hc => hn a ha (key a ha hc)) ⟨gx, gy⟩
  · rw [if_pos (by rw [ho]; rfl), ho]
    exact Or.inr ⟨l, a, r ++ [(ref, s)], by simp, ⟨ht x hx, ht y hy⟩,
      fun b hb hc => hn b (by simp [hb]) (key b (by simp [hb]) hc), rfl⟩

section parts
variable {anc : Anc} {p : BPoly} {ref : PlaneRef} {N Q : Polygon EdgeInfo} {a m b k : Nat} {t u : ℚ}

theorem neg_part (h : PieceOK anc p) (hon : OnOK anc p) (sh : SplitShape p.poly N Q ref.plane a m b k t u)
    (cd : ChildData bspOps p.poly N Q a m b k) {TN : Option Tracker} (hT : ∀ T, TN = some T → TrackerOK N T) :
    PieceOK (anc ++ [(ref, false)]) (mark ⟨N, TN, p.id, p.onNode⟩ ⟨some ref, false⟩ m) := by
  obtain ⟨hsame, ht, _, _⟩ := mark_same ⟨N, TN, p.id, p.onNode⟩ (c := ⟨some ref, false⟩) rfl m
  have cN := SplitShape.neg_isConvex h.convex sh
  have rN := SplitShape.neg_region h.convex sh
  have hn := h.convex.count_pos
  have s2 := SplitShape.s2_side h.convex sh
  have s1 := SplitShape.s1_side h.convex sh
  have l2 := SplitShape.cross_side h.convex (a + m - 1) t
  have l1 := SplitShape.cross_side h.convex (a + p.poly.count - 1) u
  have side0 := SplitShape.pt_side h.convex
  have hm := sh.cut.m1
  have hk := sh.cut.k1
  have nc := sh.ncount
  have fneg : ∀ i, a ≤ i → i < a + m → ref.plane.side (p.poly.pt (i % p.poly.count)) < 0 := by
    intro i a1 a2
    rw [← SplitShape.aff_pt h.convex (side0 i)]; exact sh.cut.neg i a1 a2
  have fpos : ∀ i, b ≤ i → i < b + k → 0 < ref.plane.side (p.poly.pt (i % p.poly.count)) := by
    intro i a1 a2
    rw [← SplitShape.aff_pt h.convex (side0 i)]; exact sh.cut.pos i a1 a2
  have nm : N.pt m = cross3 p.poly (a + m - 1) t := by rw [sh.npt m (by omega), if_neg (by omega), if_pos rfl]
  have nm1 : N.pt (m + 1) = cross3 p.poly (a + p.poly.count - 1) u := by
    rw [sh.npt (m + 1) (by omega), if_neg (by omega), if_neg (by omega)]
  have ni : ∀ i, i < m → N.pt i = p.poly.pt ((a + i) % p.poly.count) := fun i hi => by rw [sh.npt i (by omega), if_pos hi]
  -- the edges copied from the polygon
  have eE : ∀ i, i < m → ∀ f, AtEdge N i f ↔ AtEdge p.poly ((a + i) % p.poly.count) f := by
    intro i hi f
    unfold AtEdge
    rw [ni i hi, Nat.mod_add_mod, nc, Nat.mod_eq_of_lt (show i + 1 < m + 2 by omega)]
    by_cases hl : i + 1 < m
    · rw [ni _ hl, show a + (i + 1) = a + i + 1 by omega]
    · rw [show i + 1 = m by omega, nm]
      unfold cross3
      rw [show a + m - 1 = a + i by omega]
      constructor
      · rintro ⟨f1, f2⟩
        rw [show f.side (p.poly.pt ((a + i) % p.poly.count)) = f.side (lerp3 0 (p.poly.pt ((a + i) % p.poly.count))
          (p.poly.pt ((a + i + 1) % p.poly.count))) by rw [lerp3_zero]] at f1
        exact side_line sh.cut.t0.ne f1 f2
      · rintro ⟨f1, f2⟩
        exact ⟨f1, by rw [side_lerp3, f1, f2]; ring⟩
  have eL : ∀ f, AtEdge N (m + 1) f ↔ AtEdge p.poly ((a + p.poly.count - 1) % p.poly.count) f := by
    intro f
    unfold AtEdge
    rw [nm1, nc, Nat.mod_self, ni 0 (by omega), Nat.mod_add_mod, show a + p.poly.count - 1 + 1 = a + 0 + p.poly.count by omega,
      Nat.add_mod_right]
    unfold cross3
    rw [show a + p.poly.count - 1 + 1 = a + 0 + p.poly.count by omega, Nat.add_mod_right]
    constructor
    · rintro ⟨f1, f2⟩
      rw [show f.side (p.poly.pt ((a + 0) % p.poly.count)) = f.side (lerp3 1 (p.poly.pt ((a + p.poly.count - 1) % p.poly.count))
          (p.poly.pt ((a + 0) % p.poly.count))) by rw [lerp3_one]] at f2
      exact side_line sh.cut.u1.ne f1 f2
    · rintro ⟨f1, f2⟩
      exact ⟨by rw [side_lerp3, f1, f2]; ring, f2⟩
  refine ⟨hsame.convex cN, fun T hT' => hsame.tracker (hT T (by rw [ht] at hT'; exact hT')), ?_, ?_⟩
  · rw [hsame.region, rN]
    exact cell_append (fun q hq => h.cell hq.1) fun q hq => hq.2
  · refine mark_edgesOK _ _ _ (by simp only [nc]; omega) (by simp only [nc]; omega) ?_ ?_ ?_ ?_ ?_
    · intro i e he hne
      simp only at he ⊢
      have hi : i < m + 2 := by rw [← nc]; exact (List.getElem?_eq_some_iff.1 he).1
      by_cases him : i < m
      · rw [sh.nedge i him] at he
        obtain ⟨_, o2, o3, o4⟩ := h.edges _ _ he
        refine ⟨o2.congr fun x _ => (eE i him _).symm, o3.congr fun x _ => (eE i him _).symm, o4.congr fun x _ => (eE i him _).symm, ?_⟩
        intro hc
        have := hc.1
        rw [ni i him] at this
        linarith [fneg (a + i) (by omega) (by omega)]
      · obtain rfl : i = m + 1 := by omega
        obtain ⟨e1, f, e2, e3, e4⟩ := cd.nOld
        obtain rfl : e = e1 := by rw [he] at e2; exact Option.some.inj e2
        obtain ⟨_, o2, o3, o4⟩ := h.edges _ _ e3
        have hd : e.data.edgeLast = f.data.edgeLast ∧ e.data.first = f.data.first ∧ e.data.createdBy = f.data.createdBy := by
          rcases e4 with e4 | ⟨_, e4⟩ <;> rw [e4] <;> exact ⟨rfl, rfl, rfl⟩
        rw [hd.1, hd.2.1, hd.2.2]
        refine ⟨o2.congr fun x _ => (eL _).symm, o3.congr fun x _ => (eL _).symm, o4.congr fun x _ => (eL _).symm, ?_⟩
        intro hc
        have := hc.2
        rw [nc, Nat.mod_self, ni 0 (by omega)] at this
        linarith [fneg (a + 0) (by omega) (by omega)]
    · intro i e he hne hne'
      simp only at he hne' ⊢
      have hi : i < m + 2 := by rw [← nc]; exact (List.getElem?_eq_some_iff.1 he).1
      rw [nc, Nat.mod_eq_of_lt (by omega)] at hne'
      have him : i < m := by omega
      rw [sh.nedge i him] at he
      obtain ⟨o1, _⟩ := h.edges _ _ he
      refine ⟨o1.congr fun x _ => ?_, ?_⟩
      · unfold AtVertex; rw [ni i him]
      · unfold AtVertex
        rw [ni i him]
        exact (fneg (a + i) (by omega) (by omega)).ne
    · unfold AtEdge
      simp only
      rw [nc, Nat.mod_eq_of_lt (by omega), nm, nm1]
      exact ⟨s2, s1⟩
    · intro e he
      simp only at he
      obtain ⟨e1, d, e2, e3⟩ := cd.nNew
      obtain rfl : e = e1 := by rw [he] at e2; exact Option.some.inj e2
      rcases e3 with ⟨_, e3⟩ | ⟨_, _, e3⟩ <;> rw [e3] <;> rfl
    · have := new_highest (s := false) h hon (ref := ref) (x := N.pt m) (y := N.pt (m + 1))
        (cN.distinct m (m + 1) (by omega) (by omega)) (by rw [nm]; exact l2) (by rw [nm1]; exact l1) (by rw [nm]; exact s2)
        (by rw [nm1]; exact s1) ⟨_, Nat.mod_lt _ hn, fneg a le_rfl (by omega)⟩ ⟨_, Nat.mod_lt _ hn, fpos b le_rfl (by omega)⟩
      have e : AtEdge N m = fun f => f.side (N.pt m) = 0 ∧ f.side (N.pt (m + 1)) = 0 := by
        funext f
        unfold AtEdge
        rw [nc, Nat.mod_eq_of_lt (by omega)]
      simp only [e]
      exact this

theorem pos_part (h : PieceOK anc p) (hon : OnOK anc p) (sh : SplitShape p.poly N Q ref.plane a m b k t u)
    (cd : ChildData bspOps p.poly N Q a m b k) {TQ : Option Tracker} (hT : ∀ T, TQ = some T → TrackerOK Q T) :
    PieceOK (anc ++ [(ref, true)]) (mark ⟨Q, TQ, p.id, p.onNode⟩ ⟨some ref, true⟩ (k + 1)) := by
  obtain ⟨hsame, ht, _, _⟩ := mark_same ⟨Q, TQ, p.id, p.onNode⟩ (c := ⟨some ref, true⟩) rfl (k + 1)
  have cQ := SplitShape.pos_isConvex h.convex sh
  have rQ := SplitShape.pos_region h.convex sh
  have hn := h.convex.count_pos
  have s2 := SplitShape.s2_side h.convex sh
  have s1 := SplitShape.s1_side h.convex sh
  have l2 := SplitShape.cross_side h.convex (a + m - 1) t
  have l1 := SplitShape.cross_side h.convex (a + p.poly.count - 1) u
  have side0 := SplitShape.pt_side h.convex
  have hm := sh.cut.m1
  have hk := sh.cut.k1
  have qc := sh.qcount
  have g1 := sh.cut.gap1
  have g2 := sh.cut.gap2
  have fneg : ∀ i, a ≤ i → i < a + m → ref.plane.side (p.poly.pt (i % p.poly.count)) < 0 := by
    intro i a1 a2
    rw [← SplitShape.aff_pt h.convex (side0 i)]; exact sh.cut.neg i a1 a2
  have fpos : ∀ i, b ≤ i → i < b + k → 0 < ref.plane.side (p.poly.pt (i % p.poly.count)) := by
    intro i a1 a2
    rw [← SplitShape.aff_pt h.convex (side0 i)]; exact sh.cut.pos i a1 a2
  have q0 : Q.pt 0 = cross3 p.poly (a + m - 1) t := by rw [sh.qpt 0 (by omega), if_pos rfl]
  have qk : Q.pt (k + 1) = cross3 p.poly (a + p.poly.count - 1) u := by
    rw [sh.qpt (k + 1) (by omega), if_neg (by omega), if_neg (by omega)]
  have qi : ∀ i, 1 ≤ i → i ≤ k → Q.pt i = p.poly.pt ((b + i - 1) % p.poly.count) := fun i h1 h2 => by
    rw [sh.qpt i (by omega), if_neg (by omega), if_pos h2]
  -- the edges copied from the polygon
  have eE : ∀ i, 1 ≤ i → i ≤ k → ∀ f, AtEdge Q i f ↔ AtEdge p.poly ((b + i - 1) % p.poly.count) f := by
    intro i hi1 hi f
    unfold AtEdge
    rw [qi i hi1 hi, Nat.mod_add_mod, qc, Nat.mod_eq_of_lt (show i + 1 < k + 2 by omega)]
    by_cases hl : i < k
    · rw [qi (i + 1) (by omega) (by omega), show b + (i + 1) - 1 = b + i - 1 + 1 by omega]
    · obtain rfl : i = k := by omega
      rw [qk]
      rcases g1 with g1 | ⟨g1, hu⟩
      · have hu : (0 : ℚ) ≠ u := by
          rintro rfl
          unfold cross3 at s1
          rw [lerp3_zero, g1] at s1
          linarith [fpos (b + i - 1) (by omega) (by omega)]
        unfold cross3
        rw [g1]
        constructor
        · rintro ⟨f1, f2⟩
          rw [show f.side (p.poly.pt ((b + i - 1) % p.poly.count)) = f.side (lerp3 0 (p.poly.pt ((b + i - 1) % p.poly.count))
            (p.poly.pt ((b + i - 1 + 1) % p.poly.count))) by rw [lerp3_zero]] at f1
          exact side_line hu f1 f2
        · rintro ⟨f1, f2⟩
          exact ⟨f1, by rw [side_lerp3, f1, f2]; ring⟩
      · unfold cross3
        rw [hu, lerp3_zero, show a + p.poly.count - 1 = b + i - 1 + 1 by omega]
  have eL : ∀ f, AtEdge Q 0 f ↔ AtEdge p.poly ((b - 1) % p.poly.count) f := by
    intro f
    unfold AtEdge
    rw [q0, qc, Nat.mod_eq_of_lt (show 0 + 1 < k + 2 by omega), qi 1 le_rfl hk, Nat.mod_add_mod, show b + 1 - 1 = b - 1 + 1 by omega]
    unfold cross3
    rcases g2 with g2 | ⟨g2, htt⟩
    · have ht1 : t ≠ 1 := by
        rintro rfl
        unfold cross3 at s2
        rw [lerp3_one, show a + m - 1 + 1 = b by omega] at s2
        linarith [fpos b le_rfl (by omega)]
      rw [show a + m - 1 = b - 1 by omega]
      constructor
      · rintro ⟨f1, f2⟩
        rw [show f.side (p.poly.pt ((b - 1 + 1) % p.poly.count)) = f.side (lerp3 1 (p.poly.pt ((b - 1) % p.poly.count))
          (p.poly.pt ((b - 1 + 1) % p.poly.count))) by rw [lerp3_one]] at f2
        exact side_line ht1 f1 f2
      · rintro ⟨f1, f2⟩
        exact ⟨by rw [side_lerp3, f1, f2]; ring, f2⟩
    · rw [htt, lerp3_one, show a + m - 1 + 1 = b - 1 by omega]
  refine ⟨hsame.convex cQ, fun T hT' => hsame.tracker (hT T (by rw [ht] at hT'; exact hT')), ?_, ?_⟩
  · rw [hsame.region, rQ]
    exact cell_append (fun q hq => h.cell hq.1) fun q hq => hq.2
  · refine mark_edgesOK _ _ _ (by simp only [qc]; omega) (by simp only [qc]; omega) ?_ ?_ ?_ ?_ ?_
    · intro i e he hne
      simp only at he ⊢
      have hi : i < k + 2 := by rw [← qc]; exact (List.getElem?_eq_some_iff.1 he).1
      rcases Nat.eq_zero_or_pos i with rfl | hi0
      · obtain ⟨e1, f, e2, e3, e4⟩ := cd.qOld
        obtain rfl : e = e1 := by rw [he] at e2; exact Option.some.inj e2
        obtain ⟨_, o2, o3, o4⟩ := h.edges _ _ e3
        have hd : e.data.edgeLast = f.data.edgeLast ∧ e.data.first = f.data.first ∧ e.data.createdBy = f.data.createdBy := by
          rcases e4 with e4 | ⟨_, e4⟩ <;> rw [e4] <;> exact ⟨rfl, rfl, rfl⟩
        rw [hd.1, hd.2.1, hd.2.2]
        refine ⟨o2.congr fun x _ => (eL _).symm, o3.congr fun x _ => (eL _).symm, o4.congr fun x _ => (eL _).symm, ?_⟩
        intro hc
        have := hc.2
        rw [qc, Nat.mod_eq_of_lt (by omega), qi (0 + 1) (by omega) (by omega)] at this
        linarith [fpos (b + (0 + 1) - 1) (by omega) (by omega)]
      · have hik : i ≤ k := by omega
        rw [sh.qedge i hi0 hik] at he
        obtain ⟨_, o2, o3, o4⟩ := h.edges _ _ he
        refine ⟨o2.congr fun x _ => (eE i hi0 hik _).symm, o3.congr fun x _ => (eE i hi0 hik _).symm,
          o4.congr fun x _ => (eE i hi0 hik _).symm, ?_⟩
        intro hc
        have := hc.1
        rw [qi i hi0 hik] at this
        linarith [fpos (b + i - 1) (by omega) (by omega)]
    · intro i e he hne hne'
      simp only at he hne' ⊢
      have hi : i < k + 2 := by rw [← qc]; exact (List.getElem?_eq_some_iff.1 he).1
      rw [qc, Nat.mod_self] at hne'
      have hik : i ≤ k := by omega
      rw [sh.qedge i (by omega) hik] at he
      obtain ⟨o1, _⟩ := h.edges _ _ he
      refine ⟨o1.congr fun x _ => ?_, ?_⟩
      · unfold AtVertex; rw [qi i (by omega) hik]
      · unfold AtVertex
        rw [qi i (by omega) hik]
        exact (fpos (b + i - 1) (by omega) (by omega)).ne'
    · unfold AtEdge
      simp only
      rw [qc, Nat.mod_self, q0, qk]
      exact ⟨s1, s2⟩
    · intro e he
      simp only at he
      obtain ⟨e1, d, e2, e3⟩ := cd.qNew
      obtain rfl : e = e1 := by rw [he] at e2; exact Option.some.inj e2
      rcases e3 with ⟨_, e3⟩ | ⟨_, _, e3⟩ <;> rw [e3] <;> rfl
    · have := new_highest (s := true) h hon (ref := ref) (x := Q.pt (k + 1)) (y := Q.pt 0)
        (cQ.distinct 0 (k + 1) (by omega) (by omega)).symm (by rw [qk]; exact l1) (by rw [q0]; exact l2) (by rw [qk]; exact s1)
        (by rw [q0]; exact s2) ⟨_, Nat.mod_lt _ hn, fneg a le_rfl (by omega)⟩ ⟨_, Nat.mod_lt _ hn, fpos b le_rfl (by omega)⟩
      have e : AtEdge Q (k + 1) = fun f => f.side (Q.pt (k + 1)) = 0 ∧ f.side (Q.pt 0) = 0 := by
        funext f
        unfold AtEdge
        rw [qc, Nat.mod_self]
      simp only [e]
      exact this

end parts

end Walnut.Bsp

namespace Walnut.Bsp
open Walnut.Geom Walnut.Poly Walnut.Props

/-! ### The outcome of comparing a polygon with a plane -/

/-- The pieces of `p` that the two sides of the plane `ref` receive. -/
def RouteOK (anc : Anc) (ref : PlaneRef) (p : BPoly) : Routed → Prop
  | .both N Q =>
    (∃ i, i < p.poly.count ∧ ref.plane.side (p.poly.pt i) < 0) ∧ (∃ i, i < p.poly.count ∧ 0 < ref.plane.side (p.poly.pt i)) ∧
    PieceOK (anc ++ [(ref, false)]) N ∧ PieceOK (anc ++ [(ref, true)]) Q ∧
    N.poly.plane = p.poly.plane ∧ Q.poly.plane = p.poly.plane ∧ N.id = p.id ∧ Q.id = p.id ∧
    N.onNode = p.onNode ∧ Q.onNode = p.onNode ∧
    N.poly.region = p.poly.region ∩ {q | ref.plane.side q ≤ 0} ∧ Q.poly.region = p.poly.region ∩ {q | 0 ≤ ref.plane.side q} ∧
    (p.tracker = none → N.tracker = none ∧ Q.tracker = none)
  | .neg N =>
    (∃ i, i < p.poly.count ∧ ref.plane.side (p.poly.pt i) < 0) ∧ (∀ i, i < p.poly.count → ref.plane.side (p.poly.pt i) ≤ 0) ∧
    PieceOK (anc ++ [(ref, false)]) N ∧ Same p.poly N.poly ∧ N.id = p.id ∧ N.onNode = p.onNode ∧ N.tracker = p.tracker
  | .pos Q =>
    (∃ i, i < p.poly.count ∧ 0 < ref.plane.side (p.poly.pt i)) ∧ (∀ i, i < p.poly.count → 0 ≤ ref.plane.side (p.poly.pt i)) ∧
    PieceOK (anc ++ [(ref, true)]) Q ∧ Same p.poly Q.poly ∧ Q.id = p.id ∧ Q.onNode = p.onNode ∧ Q.tracker = p.tracker
  | .on => ∀ i, i < p.poly.count → ref.plane.side (p.poly.pt i) = 0

theorem route_spec {anc : Anc} {p : BPoly} (h : PieceOK anc p) (hon : OnOK anc p) (ref : PlaneRef) (check : Bool) :
    (∀ o, route check ref p = some o → RouteOK anc ref p o) ∧
    (p.tracker = none → ∃ o, route check ref p = some o) := by
  have hn := h.convex.count_pos
  obtain ⟨s, e1, e2, e3, e4⟩ := splitInfo_spec h ref.plane
  have eN := emitNeg_iff hn e3
  have eP := emitPos_iff hn e3
  unfold route
  rw [if_neg hn.ne', e1]
  simp only [e2]
  rw [if_neg (by simp)]
  by_cases hN : s.ranges.emitNeg = true
  · rw [if_pos hN]
    by_cases hP : s.ranges.emitPos = true
    · rw [if_pos hP]
      obtain ⟨N, Q, a, m, b, k, t, u, c1, sh, _, _, _, _, cd⟩ := h.convex.splitChildren bspOps ref.plane (e4 hN hP) hN hP
      have hm := sh.cut.m1
      have hk := sh.cut.k1
      have nc := sh.ncount
      have qc := sh.qcount
      have tr : ∀ T', p.splitTrackers s.ranges N Q = some T' → (∀ T, T'.1 = some T → TrackerOK N T) ∧ (∀ T, T'.2 = some T → TrackerOK Q T) ∧
          (p.tracker = none → T'.1 = none ∧ T'.2 = none) := by
        intro T' hT'
        unfold BPoly.splitTrackers at hT'
        cases hT : p.tracker with
        | none => rw [hT] at hT'; rw [← Option.some.inj hT']; simp
        | some T =>
          rw [hT] at hT'
          obtain ⟨x, x1, x2⟩ := Option.map_eq_some_iff.1 hT'
          have := (C31_split bspOps p.poly h.convex T (h.tracker T hT) ref.plane (e4 hN hP) hN hP c1).1 x.1 x.2 x1
          rw [← x2]
          refine ⟨fun T hh => ?_, fun T hh => ?_, by simp⟩
          · rw [← Option.some.inj hh]; exact this.1
          · rw [← Option.some.inj hh]; exact this.2
      have mk : ∀ T' : Option Tracker × Option Tracker, setChildBoundary ⟨N, T'.1, p.id, p.onNode⟩ ⟨Q, T'.2, p.id, p.onNode⟩ ref =
          some (mark ⟨N, T'.1, p.id, p.onNode⟩ ⟨some ref, false⟩ m, mark ⟨Q, T'.2, p.id, p.onNode⟩ ⟨some ref, true⟩ (k + 1)) := by
        intro T'
        unfold setChildBoundary mark
        simp only [nc, qc]
        rw [if_neg (by omega)]
        simp
      have child : p.splitChildren s = (p.splitTrackers s.ranges N Q).map
          fun t => (⟨N, t.1, p.id, p.onNode⟩, ⟨Q, t.2, p.id, p.onNode⟩) := by
        unfold BPoly.splitChildren; rw [c1]
      constructor
      · intro o ho
        rw [child] at ho
        cases hT' : p.splitTrackers s.ranges N Q with
        | none => rw [hT'] at ho; simp at ho
        | some T' =>
          obtain ⟨t1, t2, t3⟩ := tr T' hT'
          rw [hT'] at ho
          simp only [Option.map_some] at ho
          rw [mk T'] at ho
          simp only [Option.map_some, Option.some.injEq] at ho
          subst ho
          obtain ⟨sN, n1, n2, n3⟩ := mark_same ⟨N, T'.1, p.id, p.onNode⟩ (c := ⟨some ref, false⟩) rfl m
          obtain ⟨sQ, q1, q2, q3⟩ := mark_same ⟨Q, T'.2, p.id, p.onNode⟩ (c := ⟨some ref, true⟩) rfl (k + 1)
          refine ⟨eN.1 hN, eP.1 hP, neg_part h hon sh cd t1, pos_part h hon sh cd t2, sN.plane.trans sh.nplane, sQ.plane.trans sh.qplane,
            n2, q2, n3, q3, sN.region.trans (SplitShape.neg_region h.convex sh), sQ.region.trans (SplitShape.pos_region h.convex sh), ?_⟩
          intro hnone
          exact ⟨n1.trans (t3 hnone).1, q1.trans (t3 hnone).2⟩
      · intro hnone
        rw [child]
        unfold BPoly.splitTrackers
        rw [hnone]
        simp only [Option.map_some]
        rw [mk (none, none)]
        exact ⟨_, rfl⟩
    · rw [if_neg hP]
      have hle : ∀ i, i < p.poly.count → ref.plane.side (p.poly.pt i) ≤ 0 := by
        intro i hi
        by_contra hc
        push Not at hc
        exact hP (eP.2 ⟨i, hi, hc⟩)
      refine ⟨fun o ho => ?_, fun _ => ⟨_, rfl⟩⟩
      rw [← Option.some.inj ho]
      have hne : s.ranges.neg.1 ≠ s.ranges.neg.2 := by simpa [Ranges.emitNeg] using hN
      have hrange := e3.neg_le
      have hu := setBoundary_updated p (c := ⟨some ref, false⟩) rfl (first := s.ranges.neg.2) (last := p.poly.count + s.ranges.neg.1) (by omega)
      have hz : ∀ i, i < p.poly.count → (ref.plane.side (p.poly.pt i) = 0 ↔ ¬ InRange s.ranges.neg p.poly.count i) := by
        intro i hi
        rw [← e3.neg i hi]
        have := hle i hi
        constructor
        · intro e; linarith
        · intro e; push Not at e; exact le_antisymm this e
      have key := fun i (hi : i < p.poly.count) => outside_range (by omega) hrange.2 hz hi
      have pk : PieceOK (anc ++ [(ref, false)]) (p.setBoundaryExcept ⟨some ref, false⟩ s.ranges.neg) :=
        kept_piece h hon hu (fun i hi => (key i hi).2) (fun i hi => (key i hi).1) (fun i hi => hle i hi)
      exact ⟨eN.1 hN, hle, pk, hu.same, hu.id, hu.onNode, hu.tracker⟩
  · rw [if_neg hN]
    by_cases hP : s.ranges.emitPos = true
    · rw [if_pos hP]
      have hle : ∀ i, i < p.poly.count → 0 ≤ ref.plane.side (p.poly.pt i) := by
        intro i hi
        by_contra hc
        push Not at hc
        exact hN (eN.2 ⟨i, hi, hc⟩)
      refine ⟨fun o ho => ?_, fun _ => ⟨_, rfl⟩⟩
      rw [← Option.some.inj ho]
      have hne : s.ranges.pos.1 ≠ s.ranges.pos.2 := by simpa [Ranges.emitPos] using hP
      have hrange := e3.pos_le
      have hu := setBoundary_updated p (c := ⟨some ref, true⟩) rfl (first := s.ranges.pos.2) (last := p.poly.count + s.ranges.pos.1) (by omega)
      have hz : ∀ i, i < p.poly.count → (ref.plane.side (p.poly.pt i) = 0 ↔ ¬ InRange s.ranges.pos p.poly.count i) := by
        intro i hi
        rw [← e3.pos i hi]
        have := hle i hi
        constructor
        · intro e; linarith
        · intro e; push Not at e; exact le_antisymm e this
      have key := fun i (hi : i < p.poly.count) => outside_range (by omega) hrange.2 hz hi
      have pk : PieceOK (anc ++ [(ref, true)]) (p.setBoundaryExcept ⟨some ref, true⟩ s.ranges.pos) :=
        kept_piece h hon hu (fun i hi => (key i hi).2) (fun i hi => (key i hi).1) (fun i hi => hle i hi)
      exact ⟨eP.1 hP, hle, pk, hu.same, hu.id, hu.onNode, hu.tracker⟩
    · rw [if_neg hP]
      refine ⟨fun o ho => ?_, fun _ => ⟨_, rfl⟩⟩
      rw [← Option.some.inj ho]
      intro i hi
      apply le_antisymm
      · by_contra hc; push Not at hc; exact hP (eP.2 ⟨i, hi, hc⟩)
      · by_contra hc; push Not at hc; exact hN (eN.2 ⟨i, hi, hc⟩)

/-- A polygon on the plane becomes a border polygon of the child it faces away from. -/
theorem onPlane_border {anc : Anc} {p : BPoly} (h : ContentOK anc p) {ref : PlaneRef} (hg : ref.plane.n ≠ ⟨0, 0, 0⟩)
    (hz : ∀ i, i < p.poly.count → ref.plane.side (p.poly.pt i) = 0) :
    BorderOK (anc ++ [(ref, onPlanePos p ref.plane)]) (onPlane ref p) ∧ Same p.poly (onPlane ref p).poly ∧
      (onPlane ref p).id = p.id ∧ (onPlane ref p).tracker = p.tracker := by
  have hn := h.convex.count_pos
  have hu := setBoundary_updated p (c := ⟨some ref, onPlanePos p ref.plane⟩) rfl (first := 0) (last := p.poly.count + 1) (by omega)
  have ht : Through ref.plane p.poly.plane := through_of_vertices h.convex _ hz
  have hE : ∀ i, i < p.poly.count → ((∃ pos, 0 ≤ pos ∧ pos < p.poly.count + 1 - 1 ∧ pos % p.poly.count = i) ↔ AtEdge p.poly i ref.plane) := by
    intro i hi
    exact ⟨fun _ => ⟨hz i hi, hz _ (Nat.mod_lt _ hn)⟩, fun _ => ⟨i, by omega, by omega, Nat.mod_eq_of_lt hi⟩⟩
  have hV : ∀ i, i < p.poly.count → ((∃ pos, 0 ≤ pos ∧ pos < p.poly.count + 1 ∧ pos % p.poly.count = i) ↔ AtVertex p.poly i ref.plane) := by
    intro i hi
    exact ⟨fun _ => hz i hi, fun _ => ⟨i, by omega, by omega, Nat.mod_eq_of_lt hi⟩⟩
  have hk := kept_piece h.toPieceOK (Or.inl h.off) hu hE hV (fun i hi => by
    unfold onSide; rw [hz i hi]; split <;> exact le_rfl)
  refine ⟨⟨⟨hk.convex, hk.tracker, hk.cell, hk.edges⟩, ?_⟩, hu.same, hu.id, hu.tracker⟩
  refine ⟨anc, (ref, onPlanePos p ref.plane), [], rfl, ?_, ?_, rfl, ?_⟩
  · show Through ref.plane (p.setBoundary _ _ _).poly.plane
    rw [hu.same.plane]; exact ht
  · intro b hb
    show ¬ Through b.1.plane (p.setBoundary _ _ _).poly.plane
    rw [hu.same.plane]; exact h.off.2 b (by simpa using hb)
  · show if onPlanePos p ref.plane then dotQ (p.setBoundary _ _ _).poly.plane.n.q ref.plane.n.q < 0
      else 0 < dotQ (p.setBoundary _ _ _).poly.plane.n.q ref.plane.n.q
    rw [hu.same.plane]
    obtain ⟨l, hl, _⟩ := ht.parallel h.convex.drop
    have l0 : l ≠ 0 := by
      rintro rfl
      apply hg
      have a1 := hl 0
      have a2 := hl 1
      have a3 := hl 2
      simp only [V3.q_zero, V3.q_one, V3.q_two, zero_mul] at a1 a2 a3
      have b1 : ref.plane.n.x = 0 := by exact_mod_cast a1
      have b2 : ref.plane.n.y = 0 := by exact_mod_cast a2
      have b3 : ref.plane.n.z = 0 := by exact_mod_cast a3
      cases hh : ref.plane.n; rw [hh] at b1 b2 b3; simp at b1 b2 b3; rw [b1, b2, b3]
    have sq := comp_sq_pos p.poly.plane h.convex.drop
    have hd : dotQ p.poly.plane.n.q ref.plane.n.q = l * (p.poly.plane.n.x * p.poly.plane.n.x + p.poly.plane.n.y * p.poly.plane.n.y + p.poly.plane.n.z * p.poly.plane.n.z) := by
      unfold dotQ
      rw [hl 0, hl 1, hl 2]
      simp only [V3.q_zero, V3.q_one, V3.q_two]; ring
    have hcomp : (ref.plane.n.comp p.poly.drop : ℚ) = l * p.poly.plane.n.comp p.poly.drop := by
      obtain e | e | e := fin3 p.poly.drop <;> rw [e]
      · exact hl 0
      · exact hl 1
      · exact hl 2
    have hdrop : (p.poly.plane.n.comp p.poly.drop : ℚ) ≠ 0 := by exact_mod_cast h.convex.drop
    have hiff : onPlanePos p ref.plane = true ↔ l < 0 := by
      unfold onPlanePos hasDifferentSign
      have c1 : (p.poly.plane.n.comp p.poly.drop < 0) ↔ (p.poly.plane.n.comp p.poly.drop : ℚ) < 0 := by exact_mod_cast Iff.rfl
      have c2 : (ref.plane.n.comp p.poly.drop < 0) ↔ (l * p.poly.plane.n.comp p.poly.drop : ℚ) < 0 := by
        rw [← hcomp]; exact_mod_cast Iff.rfl
      have : (decide (p.poly.plane.n.comp p.poly.drop < 0) != decide (ref.plane.n.comp p.poly.drop < 0)) = true ↔
        ¬ ((p.poly.plane.n.comp p.poly.drop < 0) ↔ (ref.plane.n.comp p.poly.drop < 0)) := by
        simp [bne_iff_ne]
      rw [this, c1, c2]
      rcases lt_or_gt_of_ne hdrop with d | d <;> rcases lt_or_gt_of_ne l0 with l1 | l1
      · have := mul_pos_of_neg_of_neg l1 d
        exact iff_of_true (fun hh => by have := hh.1 d; linarith) l1
      · have := mul_neg_of_pos_of_neg l1 d
        exact iff_of_false (not_not.2 (iff_of_true d this)) (by linarith)
      · have := mul_neg_of_neg_of_pos l1 d
        exact iff_of_true (fun hh => by have := hh.2 this; linarith) l1
      · have := mul_pos l1 d
        exact iff_of_false (not_not.2 (iff_of_false (by linarith) (by linarith))) (by linarith)
    rw [hd]
    by_cases hp : onPlanePos p ref.plane = true
    · rw [if_pos hp]; exact mul_neg_of_neg_of_pos (hiff.1 hp) sq
    · rw [if_neg hp]
      have : 0 < l := lt_of_le_of_ne (by by_contra hc; push Not at hc; exact hp (hiff.2 hc)) l0.symm
      exact mul_pos this sq

theorem not_through {P : Polygon EdgeInfo} (h : IsConvexPolygon P) {g : HS3} {i : Nat} (hi : i < P.count) (hs : g.side (P.pt i) ≠ 0) :
    ¬ Through g P.plane := fun ht => hs (ht.vertex h hi)

theorem ContentOK.step {anc : Anc} {p p' : BPoly} (h : ContentOK anc p) {x : PlaneRef × Bool} (h' : PieceOK (anc ++ [x]) p')
    (e1 : p'.poly.plane = p.poly.plane) (e2 : p'.onNode = p.onNode) (hx : ¬ Through x.1.plane p.poly.plane) : ContentOK (anc ++ [x]) p' := by
  refine ⟨h', by rw [e2]; exact h.off.1, fun a ha => ?_⟩
  rw [e1]
  rcases List.mem_append.1 ha with ha | ha
  · exact h.off.2 a ha
  · rw [List.mem_singleton.1 ha]; exact hx

theorem BorderOK.step {anc : Anc} {p p' : BPoly} (h : BorderOK anc p) {x : PlaneRef × Bool} (h' : PieceOK (anc ++ [x]) p')
    (e1 : p'.poly.plane = p.poly.plane) (e2 : p'.onNode = p.onNode) (hx : ¬ Through x.1.plane p.poly.plane) : BorderOK (anc ++ [x]) p' := by
  obtain ⟨l, a, r, rfl, h2, h3, h4, h5⟩ := h.on
  refine ⟨h', l, a, r ++ [x], by simp, by rw [e1]; exact h2, fun b hb => ?_, by rw [e2]; exact h4, by rw [e1]; exact h5⟩
  rw [e1]
  rw [← List.append_assoc] at hb
  rcases List.mem_append.1 hb with hb | hb
  · exact h3 b hb
  · rw [List.mem_singleton.1 hb]; exact hx

end Walnut.Bsp
