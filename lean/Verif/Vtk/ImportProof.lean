import Verif.Vtk.Spec
import Verif.Vtk.Small
import Verif.Mono.ConvexFactory

namespace Walnut.Vtk
open Walnut.Geom Walnut.Poly Walnut.Mono Walnut.Bsp Walnut.Util Walnut.Props

theorem dot_self_pos {v : Q3} (h : v ≠ 0) : 0 < dotQ v v := by
  have : v 0 ≠ 0 ∨ v 1 ≠ 0 ∨ v 2 ≠ 0 := by
    by_contra hc
    push Not at hc
    exact h (funext fun i => by fin_cases i <;> simp [hc])
  simp only [dotQ]
  rcases this with h | h | h
  · have := mul_self_pos.2 h; nlinarith [mul_self_nonneg (v 1), mul_self_nonneg (v 2)]
  · have := mul_self_pos.2 h; nlinarith [mul_self_nonneg (v 0), mul_self_nonneg (v 2)]
  · have := mul_self_pos.2 h; nlinarith [mul_self_nonneg (v 1), mul_self_nonneg (v 0)]

theorem cross_degenerate {p q r : Q3} (h : p = q ∨ p = r ∨ q = r) : crossQ (subQ q p) (subQ r p) = 0 := by
  funext i
  rcases h with rfl | rfl | rfl <;> fin_cases i <;> simp [crossQ, subQ] <;> ring

/-- The three corners of a sublist of the points of vertices. -/
theorem ccw_of_convex {vs : List HP3} (h : StrictlyConvex (vs.map HP3.pt)) : CounterClockwise (Cell.normal (vs.map HP3.pt)) vs := by
  intro x y z hx
  obtain ⟨μ, hμ, e⟩ := h.turns x.pt y.pt z.pt (by simpa using hx.map HP3.pt)
  exact ⟨μ, hμ, fun i => congrFun e i⟩

/-- What the factory makes of a polygon. -/
theorem cell_of {P : OutPoly} {vs : List HP3} (h : IsCell P (Cell.normal (vs.map HP3.pt)) vs) (hw : ∀ v ∈ vs, 0 < v.w)
    (hc : StrictlyConvex (vs.map HP3.pt)) : CellOf (vs.map HP3.pt) (ofOut P) := by
  obtain ⟨l, hr, he⟩ := h.edges
  obtain ⟨k, hk, hnorm⟩ := h.normal
  have hlen : l.length = vs.length := hr.perm.length_eq
  have hcount : (ofOut P).count = l.length := by simp [ofOut, Polygon.count, he, ringEdges]
  have hpos : 3 ≤ l.length := by have := hc.three; simp at this; omega
  have hccw := (ccw_of_convex hc).rotated hr.symm
  have hmem : ∀ i (hi : i < l.length), l[i] ∈ vs := fun i hi => hr.mem_iff.1 (List.getElem_mem hi)
  have hv : ∀ i (hi : i < l.length), (ofOut P).vertexD i = l[i] := by
    intro i hi
    simp [Polygon.vertexD, ofOut, he, ringEdges, hi]
  have hp : ∀ i (hi : i < l.length), (ofOut P).pt i = l[i].pt := fun i hi => by rw [Polygon.pt, hv i hi]
  have hnext : ∀ i, (i + 1) % l.length < l.length := fun i => Nat.mod_lt _ (by omega)
  have hline : ∀ i (hi : i < l.length), (ofOut P).lineD i = PL.ofHomoPoints l[i] (l[(i + 1) % l.length]'(hnext i)) := by
    intro i hi
    simp [Polygon.lineD, ofOut, he, ringEdges, hi, List.getElem_rotate]
  have hturn : ∀ i j m, i < j → j < m → (hm : m < l.length) → 0 < Poly.turn P.plane.n.q ((ofOut P).pt i) ((ofOut P).pt j) ((ofOut P).pt m) := by
    intro i j m h1 h2 hm
    rw [hp i (by omega), hp j (by omega), hp m hm]
    obtain ⟨μ, hμ, e⟩ := hccw _ _ _ (sublist_three (List.getElem?_eq_getElem (show i < l.length by omega)) (List.getElem?_eq_getElem (show j < l.length by omega))
      (List.getElem?_eq_getElem hm) h1 h2)
    have : Poly.turn P.plane.n.q (l[i].pt) (l[j].pt) (l[m].pt) = k * μ * dotQ (Cell.normal (vs.map HP3.pt)) (Cell.normal (vs.map HP3.pt)) := by
      simp only [Poly.turn, dotQ, hnorm]
      have e' : ∀ a, crossQ (fun a => l[j].pt a - l[i].pt a) (fun a => l[m].pt a - l[i].pt a) a = μ * Cell.normal (vs.map HP3.pt) a := e
      simp only [e']; ring
    rw [this]
    exact mul_pos (mul_pos hk hμ) (dot_self_pos hc.normal)
  have hdist : ∀ i j, i < j → j < l.length → (ofOut P).pt i ≠ (ofOut P).pt j := by
    have deg : ∀ n a b : Q3, Poly.turn n a a b = 0 ∧ Poly.turn n a b b = 0 ∧ Poly.turn n a b a = 0 := by
      intro n a b
      refine ⟨?_, ?_, ?_⟩ <;> simp [Poly.turn, dotQ, crossQ] <;> ring
    intro i j h1 h2 e
    by_cases h3 : j + 1 < l.length
    · have := hturn i j (j + 1) h1 (by omega) h3
      rw [e, (deg _ _ _).1] at this
      exact lt_irrefl _ this
    · by_cases h4 : 0 < i
      · have := hturn 0 i j h4 h1 h2
        rw [e, (deg _ _ _).2.1] at this
        exact lt_irrefl _ this
      · have := hturn i (i + 1) j (by omega) (by omega) h2
        rw [e, (deg _ _ _).2.2] at this
        exact lt_irrefl _ this
  refine ⟨⟨h.drop, ?_, ?_, ?_, ?_, ?_, ⟨0, 1, 2, by omega, by omega, by omega, ?_⟩⟩, ?_, k, hk, funext hnorm⟩
  · intro i hi
    rw [hcount] at hi
    rw [hv i hi]
    have := hw _ (hmem i hi)
    omega
  · intro i hi
    rw [hcount] at hi
    rw [hp i hi]
    exact h.side _ (hmem i hi)
  · intro i hi
    rw [hcount] at hi ⊢
    rw [hline i hi]
    have hne : l[i].pt ≠ (l[(i + 1) % l.length]'(hnext i)).pt := by
      rw [← hp i hi, ← hp _ (hnext i)]
      by_cases hl : i + 1 < l.length
      · rw [Nat.mod_eq_of_lt hl]; exact hdist i (i + 1) (by omega) hl
      · have : i + 1 = l.length := by omega
        rw [this, Nat.mod_self]
        exact (hdist 0 i (by omega) hi).symm
    rw [hp i hi, hp _ (hnext i)]
    have w1 := hw _ (hmem i hi)
    have w2 := hw _ (hmem _ (hnext i))
    obtain ⟨l1, l2⟩ := line_valid (a := l[i]) (b := l[(i + 1) % l.length]'(hnext i)) (by omega) (by omega)
    exact l2 (by by_contra hcon; exact hne (l1.1 (by simpa using hcon)))
  · intro i j m h1 h2 h3
    rw [hcount] at h3
    exact (hturn i j m h1 h2 h3).le
  · intro i j h1 h2
    rw [hcount] at h2
    exact hdist i j h1 h2
  · exact hturn 0 1 2 (by omega) (by omega) (by omega)
  · have : (List.range (ofOut P).count).map (ofOut P).pt = l.map HP3.pt := by
      rw [hcount]
      refine List.ext_getElem (by simp) fun i h1 h2 => ?_
      simp at h1 h2
      simp [hp i h2]
    rw [this]
    exact hr.map _

/-! ### Points -/

theorem convert_spec {minExponent : Int} {p : BitVec 64 × BitVec 64 × BitVec 64} {q : Q3} (h : roundedPoint minExponent p = some q) :
    ∃ v, convertPoint minExponent p = some v ∧ 0 < v.w ∧ v.pt = q ∧ Bounded 3000 v := by
  unfold roundedPoint at h
  simp only [Option.bind_eq_bind, Option.bind_eq_some_iff] at h
  obtain ⟨x, hx, y, hy, z, hz, h⟩ := h
  cases h
  obtain ⟨v, hv, hw, hp⟩ := C59_rounded_partial minExponent _ _ _ x y z hx hy hz
  refine ⟨v, ?_, hw, hp, fromDoubles_bounded minExponent hx hy hz hv⟩
  simp [convertPoint, hx, hy, hz, hv]

theorem mapM_spec {α β : Type} {f : α → Option β} : ∀ (l : List α), (∀ a ∈ l, f a ≠ none) → ∃ r, l.mapM f = some r ∧ ∀ i : Nat, r[i]? = l[i]?.bind f
  | [], _ => ⟨[], rfl, by simp⟩
  | a :: l, h => by
    obtain ⟨b, hb⟩ := Option.ne_none_iff_exists'.1 (h a (by simp))
    obtain ⟨r, hr, hi⟩ := mapM_spec l fun a ha => h a (by simp [ha])
    refine ⟨b :: r, by simp [List.mapM_cons, hb, hr], fun i => ?_⟩
    cases i with
    | zero => simp [hb]
    | succ i => simp [hi]

theorem points_spec {minExponent : Int} {data : PolyData} (hf : ∀ p ∈ data.points, roundedPoint minExponent p ≠ none) :
    ∃ pts, convertPoints minExponent data = some pts ∧ (∀ i : Nat, pts[i]? = data.points[i]?.bind (convertPoint minExponent)) ∧ ∀ i q, pointOf minExponent data i = some q →
      ∃ v, pts[i]? = some v ∧ 0 < v.w ∧ v.pt = q ∧ Bounded 3000 v := by
  obtain ⟨r, hr, hi⟩ := mapM_spec (f := convertPoint minExponent) data.points fun p hp => by
    obtain ⟨q, hq⟩ := Option.ne_none_iff_exists'.1 (hf p hp)
    obtain ⟨v, hv, -⟩ := convert_spec hq
    rw [hv]; simp
  refine ⟨r, hr, hi, fun i q hq => ?_⟩
  unfold pointOf at hq
  obtain ⟨p, hp, hq⟩ := Option.bind_eq_some_iff.1 hq
  obtain ⟨v, hv, h⟩ := convert_spec hq
  exact ⟨v, by rw [hi, hp]; exact hv, h⟩

/-- The polygon as it is imported. -/
def oriented (flip : Bool) (c : Cell) : Cell := if flip then c.flipped else c

theorem normal3_swap (x y z : Q3) : normal3 z y x = -normal3 x y z := by
  funext i
  fin_cases i <;> simp [normal3, crossQ, subQ] <;> ring

/-- A polygon seen from the other side. -/
theorem StrictlyConvex.flipped {c : Cell} (h : StrictlyConvex c) : StrictlyConvex c.flipped ∧ ∃ μ : ℚ, 0 < μ ∧ c.flipped.normal = -(μ • c.normal) := by
  have key : ∀ x y z, [x, y, z].Sublist c.flipped → ∃ μ : ℚ, 0 < μ ∧ normal3 x y z = -(μ • c.normal) := by
    intro x y z hs
    obtain ⟨μ, hμ, e⟩ := h.turns z y x (by simpa [Cell.flipped] using hs.reverse)
    exact ⟨μ, hμ, by rw [normal3_swap, e]⟩
  have hl : 3 ≤ c.flipped.length := by simpa [Cell.flipped] using h.three
  obtain ⟨μ, hμ, e⟩ : ∃ μ : ℚ, 0 < μ ∧ c.flipped.normal = -(μ • c.normal) := by
    generalize c.flipped = d at *
    match d, hl with
    | x :: y :: z :: r, _ => exact key x y z (List.Sublist.cons_cons _ (List.Sublist.cons_cons _ (List.Sublist.cons_cons _ (List.nil_sublist _))))
  refine ⟨⟨hl, ?_, fun x y z hs => ?_⟩, μ, hμ, e⟩
  · rw [e]
    exact neg_ne_zero.2 (smul_ne_zero hμ.ne' h.normal)
  · obtain ⟨ν, hν, e'⟩ := key x y z hs
    refine ⟨ν / μ, div_pos hν hμ, ?_⟩
    rw [e', e, smul_neg, smul_smul, div_mul_cancel₀ _ hμ.ne']

theorem oriented_convex {c : Cell} (h : StrictlyConvex c) (flip : Bool) : StrictlyConvex (oriented flip c) := by
  unfold oriented
  split
  · exact h.flipped.1
  · exact h

theorem mapM_points {minExponent : Int} {data : PolyData} {pts : List HP3} (hpts : ∀ i q, pointOf minExponent data i = some q →
      ∃ v, pts[i]? = some v ∧ 0 < v.w ∧ v.pt = q ∧ Bounded 3000 v) : ∀ (cell : List Nat) (c : Cell), cell.map (pointOf minExponent data) = c.map some →
    ∃ vs, cell.mapM (fun i => pts[i]?) = some vs ∧ vs.map HP3.pt = c ∧ ∀ v ∈ vs, 0 < v.w ∧ Bounded 3000 v ∧ ∃ i ∈ cell, pts[i]? = some v
  | [], [], _ => ⟨[], rfl, rfl, by simp⟩
  | [], _ :: _, h => by simp at h
  | _ :: _, [], h => by simp at h
  | i :: cell, p :: c, h => by
    simp only [List.map_cons, List.cons.injEq] at h
    obtain ⟨v, g, w, e, b⟩ := hpts i p h.1
    obtain ⟨vs, h1, h2, h3⟩ := mapM_points hpts cell c h.2
    refine ⟨v :: vs, by simp [List.mapM_cons, g, h1], by simp [e, h2], fun x hx => ?_⟩
    rcases List.mem_cons.1 hx with rfl | hx
    · exact ⟨w, b, i, by simp, g⟩
    · obtain ⟨a, b, j, hj, g⟩ := h3 x hx
      exact ⟨a, b, j, by simp [hj], g⟩

theorem import_cells {minExponent : Int} {data : PolyData} {pts : List HP3} (hget : ∀ i : Nat, pts[i]? = data.points[i]?.bind (convertPoint minExponent))
    (hpts : ∀ i q, pointOf minExponent data i = some q → ∃ v, pts[i]? = some v ∧ 0 < v.w ∧ v.pt = q ∧ Bounded 3000 v) (flip : Bool) {cells : List (List Nat)} {T : List Cell}
    (hc : List.Forall₂ (fun cell c => cell.map (pointOf minExponent data) = c.map some) cells T) (hp : ∀ c ∈ T, StrictlyConvex c)
    (hM : ∀ cell ∈ cells, cell.length = 3 ∨ ∀ i ∈ cell, ∀ j ∈ cell, ∀ k ∈ cell, ∀ p q r, data.points[i]?.bind (convertPoint minExponent) = some p →
      data.points[j]?.bind (convertPoint minExponent) = some q → data.points[k]?.bind (convertPoint minExponent) = some r → ∀ drop, p.twistCross drop q r ≠ -2 ^ 63) :
    ∃ out, (∀ out', ImportCells pts flip cells out' ↔ out' = out) ∧ List.Forall₂ (fun c P => CellOf (oriented flip c) P) T (out.map ofOut) := by
  induction hc with
  | nil => exact ⟨[], fun out' => ⟨fun h => by cases h; rfl, fun h => h ▸ .nil⟩, .nil⟩
  | @cons cell c cells T h1 hr ih =>
    obtain ⟨rest, hrest, hF⟩ := ih (fun t ht => hp t (by simp [ht])) fun cell hcell => hM cell (by simp [hcell])
    have hconv := oriented_convex (hp c (by simp)) flip
    have h1' : (if flip then cell.reverse else cell).map (pointOf minExponent data) = (oriented flip c).map some := by
      unfold oriented Cell.flipped
      split
      · rw [List.map_reverse, h1, List.map_reverse]
      · exact h1
    obtain ⟨vs, hv, hvc, hvs⟩ := mapM_points hpts _ _ h1'
    have hin : ∀ i, i ∈ (if flip then cell.reverse else cell) → i ∈ cell := by
      intro i hi
      split at hi
      · simpa using hi
      · exact hi
    rw [← hvc] at hconv
    have hw : ∀ v ∈ vs, 0 < v.w := fun v hv => (hvs v hv).1
    have hu : Usable vs := usable_of_bounded (k := 3000) (by norm_num) hw fun v hv => (hvs v hv).2.1
    have hM' : vs.length = 3 ∨ ∀ drop, MinFree drop vs := by
      rcases hM cell (by simp) with h | h
      · left
        have e1 := congrArg List.length hvc
        have e2 := congrArg List.length h1'
        simp only [List.length_map] at e1 e2
        rw [e1, ← e2]
        split
        · simpa using h
        · exact h
      · right
        intro drop a ha b hb d hd
        obtain ⟨-, -, i, hi, gi⟩ := hvs a ha
        obtain ⟨-, -, j, hj, gj⟩ := hvs b hb
        obtain ⟨-, -, k, hk, gk⟩ := hvs d hd
        exact h i (hin i hi) j (hin j hj) k (hin k hk) a b d (by rw [← hget, gi]) (by rw [← hget, gj]) (by rw [← hget, gk]) drop
    obtain ⟨P, hP, hout⟩ := factory_cell hu hM' hconv.normal (by simpa using hconv.three) (ccw_of_convex hconv)
    refine ⟨P :: rest, fun out' => ⟨fun h => ?_, fun h => ?_⟩, ?_⟩
    · cases h with
      | cons hv' hb hr' =>
        have hv2 : cellVertices pts flip cell = some vs := hv
        rw [hv2] at hv'
        cases hv'
        rw [(hout _).1 hb, (hrest _).1 hr']
        rfl
    · subst h
      exact .cons hv ((hout _).2 rfl) ((hrest _).2 rfl)
    · refine .cons ?_ hF
      rw [← hvc]
      exact cell_of hP hw hconv

theorem import_spec {minExponent : Int} {data : PolyData} {T : List Cell} (h : CellData minExponent data T) (flip : Bool) :
    ∃ mesh, (∀ out, Imports data minExponent flip out ↔ out = mesh) ∧ List.Forall₂ (fun c P => CellOf (oriented flip c) P) T mesh := by
  obtain ⟨pts, hpts, hget, hp⟩ := points_spec h.finite
  obtain ⟨polys, hpolys, hF⟩ := import_cells hget hp flip h.cells h.convex h.minFree
  refine ⟨polys.map ofOut, fun out => ⟨?_, ?_⟩, hF⟩
  · rintro ⟨pts', polys', strips', h1, h2, h3, rfl⟩
    rw [hpts] at h1
    cases h1
    rw [h.strips] at h3
    cases h3
    rw [(hpolys _).1 h2, List.append_nil]
  · rintro rfl
    exact ⟨pts, polys, [], hpts, (hpolys _).2 rfl, by rw [h.strips]; rfl, by rw [List.append_nil]⟩

end Walnut.Vtk
