/-
C65 (the convex polygon factory).

`FactoryBuild vs out` says that `ConvexPolygonFactory::Build` with the vertices `vs` returns and has
emitted the polygons `out`; `PlaneBuild` is the overload with a plane.
-/
import Verif.Mono.FactoryProof
import Verif.Props.Planar

namespace Walnut.Props
open Walnut.Geom Walnut.Mono

/-- For points on a line in order or not, the quantity of two segments is the one of the joined segment. -/
def AdditiveOnLines (f : Q3 → Q3 → ℚ) : Prop := ∀ a b c, OneLine [a, b, c] → f a b + f b c = f a c

/-- The area of a projection is such a quantity. -/
theorem area_additive (drop : Fin 3) : Antisymmetric (areaForm drop) ∧ AdditiveOnLines (areaForm drop) := by
  constructor
  · intro a b; simp only [areaForm]; ring
  · rintro a b c ⟨p, d, h⟩
    obtain ⟨t1, e1⟩ := h a (by simp)
    obtain ⟨t2, e2⟩ := h b (by simp)
    obtain ⟨t3, e3⟩ := h c (by simp)
    simp only [areaForm, e1, e2, e3]; ring

/-- The vertices the arithmetic works for: a positive denominator, and the numbers of words of all
intermediate results fit into a `size_t`. -/
def Usable (vs : List HP3) : Prop := ∀ drop, Tame drop vs

/-- The positions of the vertices of an emitted polygon. -/
def OutPoly.verts (P : OutPoly) : List Q3 := P.edges.map fun e => e.1.pt

theorem plane_faithful {plane : HS3} {drop : Fin 3} (hd : plane.n.comp drop ≠ 0) {l : List Q3}
    (h : ∀ q ∈ l, plane.side q = 0) : Faithful drop l := by
  intro u hu v hv e1 e2
  have a := h u hu
  have b := h v hv
  rw [HS3.side_eq] at a b
  have hq : ((plane.n.comp drop : Int) : ℚ) ≠ 0 := by exact_mod_cast hd
  fin_cases drop
  · change ((plane.n.x : Int) : ℚ) ≠ 0 at hq
    change u 1 = v 1 at e1
    change u 2 = v 2 at e2
    have : u 0 = v 0 := mul_left_cancel₀ hq (by rw [e1, e2] at a; linarith)
    funext i; fin_cases i <;> assumption
  · change ((plane.n.y : Int) : ℚ) ≠ 0 at hq
    change u 2 = v 2 at e1
    change u 0 = v 0 at e2
    have : u 1 = v 1 := mul_left_cancel₀ hq (by rw [e1, e2] at a; linarith)
    funext i; fin_cases i <;> assumption
  · change ((plane.n.z : Int) : ℚ) ≠ 0 at hq
    change u 0 = v 0 at e1
    change u 1 = v 1 at e2
    have : u 2 = v 2 := mul_left_cancel₀ hq (by rw [e1, e2] at a; linarith)
    funext i; fin_cases i <;> assumption

theorem plane_onLine {plane : HS3} {drop : Fin 3} (hd : plane.n.comp drop ≠ 0) {a b c : Q3}
    (ha : plane.side a = 0) (hb : plane.side b = 0) (hc : plane.side c = 0) (ht : turnAt drop a b c = 0) :
    Aligned a b c := by
  rw [HS3.side_eq] at ha hb hc
  have hq : ((plane.n.comp drop : Int) : ℚ) ≠ 0 := by exact_mod_cast hd
  have eb : (plane.n.x : ℚ) * (b 0 - a 0) + plane.n.y * (b 1 - a 1) + plane.n.z * (b 2 - a 2) = 0 := by linarith
  have ec : (plane.n.x : ℚ) * (c 0 - a 0) + plane.n.y * (c 1 - a 1) + plane.n.z * (c 2 - a 2) = 0 := by linarith
  fin_cases drop
  · change ((plane.n.x : Int) : ℚ) ≠ 0 at hq
    change (b 1 - a 1) * (c 2 - a 2) - (b 2 - a 2) * (c 1 - a 1) = 0 at ht
    intro i; apply mul_left_cancel₀ hq; rw [mul_zero]
    fin_cases i
    · show _ * crossQ (subQ b a) (subQ c a) 0 = 0
      simp only [crossQ_zero, subQ]; rw [ht, mul_zero]
    · show _ * crossQ (subQ b a) (subQ c a) 1 = 0
      simp only [crossQ_one, subQ]
      linear_combination (b 2 - a 2) * ec - (c 2 - a 2) * eb + (plane.n.y : ℚ) * ht
    · show _ * crossQ (subQ b a) (subQ c a) 2 = 0
      simp only [crossQ_two, subQ]
      linear_combination (c 1 - a 1) * eb - (b 1 - a 1) * ec + (plane.n.z : ℚ) * ht
  · change ((plane.n.y : Int) : ℚ) ≠ 0 at hq
    change (b 2 - a 2) * (c 0 - a 0) - (b 0 - a 0) * (c 2 - a 2) = 0 at ht
    intro i; apply mul_left_cancel₀ hq; rw [mul_zero]
    fin_cases i
    · show _ * crossQ (subQ b a) (subQ c a) 0 = 0
      simp only [crossQ_zero, subQ]
      linear_combination (c 2 - a 2) * eb - (b 2 - a 2) * ec + (plane.n.x : ℚ) * ht
    · show _ * crossQ (subQ b a) (subQ c a) 1 = 0
      simp only [crossQ_one, subQ]; rw [ht, mul_zero]
    · show _ * crossQ (subQ b a) (subQ c a) 2 = 0
      simp only [crossQ_two, subQ]
      linear_combination (b 0 - a 0) * ec - (c 0 - a 0) * eb + (plane.n.z : ℚ) * ht
  · change ((plane.n.z : Int) : ℚ) ≠ 0 at hq
    change (b 0 - a 0) * (c 1 - a 1) - (b 1 - a 1) * (c 0 - a 0) = 0 at ht
    intro i; apply mul_left_cancel₀ hq; rw [mul_zero]
    fin_cases i
    · show _ * crossQ (subQ b a) (subQ c a) 0 = 0
      simp only [crossQ_zero, subQ]
      linear_combination (b 1 - a 1) * ec - (c 1 - a 1) * eb + (plane.n.x : ℚ) * ht
    · show _ * crossQ (subQ b a) (subQ c a) 1 = 0
      simp only [crossQ_one, subQ]
      linear_combination (c 0 - a 0) * eb - (b 0 - a 0) * ec + (plane.n.y : ℚ) * ht
    · show _ * crossQ (subQ b a) (subQ c a) 2 = 0
      simp only [crossQ_two, subQ]; rw [ht, mul_zero]

theorem plane_flatAdd {plane : HS3} {drop : Fin 3} (hd : plane.n.comp drop ≠ 0) {vs : List HP3}
    (h : ∀ v ∈ vs, plane.side v.pt = 0) {f : Q3 → Q3 → ℚ} (hf : Antisymmetric f) (hadd : AdditiveOnLines f) :
    FlatAdd drop vs fun a b => f a.pt b.pt := by
  intro a ha b hb c hc ht
  by_cases hab : a.pt = b.pt
  · simp only [hab]
    have := hf b.pt b.pt; linarith
  · have hon := plane_onLine hd (h a ha) (h b hb) (h c hc) ht
    refine hadd _ _ _ (oneLine_of_onLine hab ?_)
    intro v hv; simp at hv
    rcases hv with rfl | rfl | rfl
    · intro i; fin_cases i <;> simp [subQ]
    · intro i; fin_cases i <;> simp [subQ] <;> ring
    · exact hon

theorem first_nonzero {n : V3} {d : Fin 3} (h : n.firstNonzeroDimension = some d) : n.comp d ≠ 0 := by
  unfold V3.firstNonzeroDimension at h
  split at h
  · simp at h; subst h; assumption
  · split at h
    · simp at h; subst h; assumption
    · split at h
      · simp at h; subst h; assumption
      · simp at h

theorem first_none {n : V3} (h : n.firstNonzeroDimension = none) : n = ⟨0, 0, 0⟩ := by
  unfold V3.firstNonzeroDimension at h
  split at h
  · simp at h
  · split at h
    · simp at h
    · split at h
      · simp at h
      · obtain ⟨x, y, z⟩ := n
        simp at *; tauto

theorem outSum_eq (f : Q3 → Q3 → ℚ) (out : List OutPoly) :
    outSum (fun a b => f a.pt b.pt) out = (out.map fun P => loopSum f (OutPoly.verts P)).sum := by
  unfold outSum
  congr 1
  apply List.map_congr_left
  intro P _
  unfold OutPoly.verts
  rw [← loopSum_map, List.map_map]; rfl

/-- C65, with a plane: the boundaries of the emitted polygons add up to the boundary of the input
polygon, for every quantity of directed segments that changes its sign with the direction and is additive
along lines.  With `area_additive`: their areas, in any projection, add up to the area of
the polygon. -/
theorem C65_plane_boundary (plane : HS3) (vs : List HP3) (out : List OutPoly) (h : PlaneBuild plane vs out)
    (hu : Usable vs) (hn : plane.n ≠ ⟨0, 0, 0⟩) (hp : ∀ v ∈ vs, plane.side v.pt = 0)
    (f : Q3 → Q3 → ℚ) (hf : Antisymmetric f) (hadd : AdditiveOnLines f) :
    (out.map fun P => loopSum f (OutPoly.verts P)).sum = loopSum f (vs.map (·.pt)) := by
  unfold PlaneBuild at h
  cases hd : plane.n.firstNonzeroDimension with
  | none => exact absurd (first_none hd) hn
  | some drop =>
    rw [hd] at h
    have hnd := first_nonzero hd
    have hF : Faithful drop (vs.map (·.pt)) := plane_faithful hnd (by
      intro q hq; obtain ⟨v, hv, rfl⟩ := List.mem_map.1 hq; exact hp v hv)
    obtain ⟨-, hs⟩ := loop_sum (hu drop) hF h (Nat.zero_le _) le_rfl
    have := hs f hf (plane_flatAdd hnd hp hf hadd)
    rw [← outSum_eq, ← this, loopSum_map]
    simp [seg]

theorem emitEdges_chain {first : HP3} (hw1 : first.w ≠ 0) : ∀ (r : List HP3) (prev : HP3), prev.w ≠ 0 →
    (∀ v ∈ r, v.w ≠ 0) →
    (emitEdges first prev r).IsChain (fun e e' => Poly.EdgeLine e.2 e.1.pt e'.1.pt) ∧
    (∀ e ∈ (emitEdges first prev r).getLast?, Poly.EdgeLine e.2 e.1.pt first.pt) ∧
    (∀ e ∈ (emitEdges first prev r).head?, e.1 = prev) ∧
    (emitEdges first prev r = [] → prev.pt = first.pt) ∧
    (emitEdges first prev r).IsChain (fun e e' => e.1.pt ≠ e'.1.pt) ∧
    (∀ e ∈ (emitEdges first prev r).getLast?, e.1.pt ≠ first.pt) := by
  intro r
  induction r with
  | nil =>
    intro prev hp _
    obtain ⟨h1, h2⟩ := line_valid hp hw1
    simp only [emitEdges]
    cases hv : (PL.ofHomoPoints prev first).isValid with
    | false => simp [h1.1 hv]
    | true =>
      have : prev.pt ≠ first.pt := fun hc => by rw [h1.2 hc] at hv; simp at hv
      simp [h2 hv, this]
  | cons p r ih =>
    intro prev hp hw
    have hpw : p.w ≠ 0 := hw p (by simp)
    obtain ⟨h1, h2⟩ := line_valid hp hpw
    simp only [emitEdges]
    cases hv : (PL.ofHomoPoints prev p).isValid with
    | false =>
      simp only [Bool.false_eq_true, if_false]
      exact ih prev hp (fun v hv => hw v (by simp [hv]))
    | true =>
      obtain ⟨i1, i2, i3, i4, i5, i6⟩ := ih p hpw (fun v hv => hw v (by simp [hv]))
      have hne : prev.pt ≠ p.pt := fun hc => by rw [h1.2 hc] at hv; simp at hv
      have hl := h2 hv
      simp only [if_true]
      cases hE : emitEdges first p r with
      | nil =>
        have := i4 hE
        rw [this] at hl hne
        simp [hl, hne]
      | cons e E =>
        rw [hE] at i1 i2 i3 i5 i6
        have he : e.1 = p := i3 e rfl
        refine ⟨?_, ?_, by simp, by simp, ?_, ?_⟩
        · rw [List.isChain_cons_cons]
          exact ⟨by rw [he]; exact hl, i1⟩
        · rw [List.getLast?_cons_cons]; exact i2
        · rw [List.isChain_cons_cons]
          exact ⟨by rw [he]; exact hne, i5⟩
        · rw [List.getLast?_cons_cons]; exact i6

/-- The edges are closed: each line runs from the vertex of the edge to the vertex of the next edge, which is
a different point; the next edge of the last one is the first one. -/
def ClosedEdges (P : OutPoly) : Prop :=
  ∀ k e e', P.edges[k]? = some e → P.edges[(k + 1) % P.edges.length]? = some e' →
    Poly.EdgeLine e.2 e.1.pt e'.1.pt ∧ e.1.pt ≠ e'.1.pt

theorem closed_edges {plane : HS3} {drop : Fin 3} {vs : List HP3} {P : OutPoly} (hw : ∀ v ∈ vs, v.w ≠ 0)
    (h : FromPlane plane drop vs P) : ClosedEdges P := by
  obtain ⟨-, -, v, r, he, hm⟩ := h
  have hv := hw v (hm v (by simp))
  obtain ⟨i1, i2, i3, i4, i5, i6⟩ := emitEdges_chain hv r v hv (fun u hu => hw u (hm u (by simp [hu])))
  rw [← he] at i1 i2 i3 i4 i5 i6
  intro k e e' hk hk'
  have hlt : k < P.edges.length := by
    by_contra hc; rw [List.getElem?_eq_none (by omega)] at hk; simp at hk
  by_cases hl : k + 1 = P.edges.length
  · rw [hl, Nat.mod_self] at hk'
    have e1 : P.edges.getLast? = some e := by rw [List.getLast?_eq_getElem?, ← hl]; simpa using hk
    have e2 : P.edges.head? = some e' := by rw [List.head?_eq_getElem?]; exact hk'
    have h1 := i2 e e1
    have h2 := i6 e e1
    have h3 := i3 e' e2
    rw [h3]; exact ⟨h1, h2⟩
  · rw [Nat.mod_eq_of_lt (by omega)] at hk'
    rw [List.isChain_iff_getElem] at i1 i5
    have a1 := i1 k (by omega)
    have a2 := i5 k (by omega)
    rw [List.getElem?_eq_getElem hlt, Option.some.injEq] at hk
    rw [List.getElem?_eq_getElem (by omega), Option.some.injEq] at hk'
    rw [hk, hk'] at a1 a2
    exact ⟨a1, a2⟩

theorem flip_side (h : HS3) (q : Q3) : (HS3.mk (h.n.scale (-1)) (h.d * -1)).side q = -h.side q := by
  simp [HS3.side_eq, V3.scale]; ring

/-- What each polygon emitted for the plane `plane` and the vertices `vs` looks like. -/
structure EmittedFrom (plane : HS3) (vs : List HP3) (P : OutPoly) : Prop where
  /-- its plane is the given one or the opposite one -/
  plane : (∀ q, P.plane.side q = plane.side q) ∨ ∀ q, P.plane.side q = -plane.side q
  drop : P.plane.n.comp P.drop ≠ 0
  /-- its vertices are input vertices -/
  verts : ∀ e ∈ P.edges, e.1 ∈ vs
  onPlane : ∀ e ∈ P.edges, P.plane.side e.1.pt = 0
  edges : ClosedEdges P

theorem emitted_from {plane : HS3} {vs : List HP3} {out : List OutPoly} (h : PlaneBuild plane vs out)
    (hu : Usable vs) (hp : ∀ v ∈ vs, plane.side v.pt = 0) : ∀ P ∈ out, EmittedFrom plane vs P := by
  unfold PlaneBuild at h
  cases hd : plane.n.firstNonzeroDimension with
  | none => rw [hd] at h; simp only at h; subst h; simp
  | some drop =>
    rw [hd] at h
    have hnd := first_nonzero hd
    have hF : Faithful drop (vs.map (·.pt)) := plane_faithful hnd (by
      intro q hq; obtain ⟨v, hv, rfl⟩ := List.mem_map.1 hq; exact hp v hv)
    obtain ⟨hfrom, -⟩ := loop_sum (hu drop) hF h (Nat.zero_le _) le_rfl
    intro P hP
    have hfP := hfrom P hP
    have hside : (∀ q, P.plane.side q = plane.side q) ∨ ∀ q, P.plane.side q = -plane.side q := by
      rcases hfP.plane with e | e <;> rw [e]
      · exact Or.inl fun _ => rfl
      · exact Or.inr fun q => flip_side plane q
    have hv : ∀ e ∈ P.edges, e.1 ∈ vs := by
      obtain ⟨v, r, he, hm⟩ := hfP.source
      intro e hE
      rw [he] at hE
      rcases emitEdges_mem r v e hE with h | h
      · exact hm _ (by simp [h])
      · exact hm _ (by simp [h])
    refine ⟨hside, ?_, hv, ?_, closed_edges (fun v hv => by have := (hu drop).pos v hv; omega) hfP⟩
    · rw [hfP.drop]
      rcases hfP.plane with e | e <;> rw [e]
      · exact hnd
      · have e : (plane.n.scale (-1)).comp drop = -plane.n.comp drop := by
          fin_cases drop <;> simp [V3.scale, V3.comp]
        simp only [e]; omega
    · intro e hE
      have := hp _ (hv e hE)
      rcases hside with h | h <;> rw [h, this]; simp

/-- C65, with a plane: the vertices of each emitted polygon are input vertices and are in its plane, which is
the given one or the opposite one; no two consecutive vertices coincide, and each edge has the line to the next
vertex. -/
theorem C65_polygons (plane : HS3) (vs : List HP3) (out : List OutPoly) (h : PlaneBuild plane vs out)
    (hu : Usable vs) (hp : ∀ v ∈ vs, plane.side v.pt = 0) : ∀ P ∈ out, EmittedFrom plane vs P :=
  emitted_from h hu hp

theorem nodup_get {vs : List HP3} (h : (vs.map (·.pt)).Nodup) {i j : Nat} {a b : HP3} (hi : vs[i]? = some a)
    (hj : vs[j]? = some b) (hij : i < j) : b.pt ≠ a.pt := by
  intro hc
  have li : i < vs.length := by
    by_contra hc; rw [List.getElem?_eq_none (by omega)] at hi; simp at hi
  have := List.nodup_iff_getElem?_ne_getElem?.1 h i j hij (by
    rw [List.length_map]; by_contra hc; rw [List.getElem?_eq_none (by omega)] at hj; simp at hj)
  apply this
  rw [List.getElem?_map, List.getElem?_map, hi, hj]; simp [hc]

theorem cSum_oneLine {l : List HP3} (h : OneLine (l.map (·.pt))) {f : Q3 → Q3 → ℚ} (hadd : AdditiveOnLines f) :
    cSum (fun a b : HP3 => f a.pt b.pt) l = 0 := by
  apply cSum_flat
  intro a ha b hb c hc
  obtain ⟨p, d, h⟩ := h
  refine hadd _ _ _ ⟨p, d, ?_⟩
  intro q hq
  simp at hq
  rcases hq with rfl | rfl | rfl
  · exact h _ (List.mem_map_of_mem ha)
  · exact h _ (List.mem_map_of_mem hb)
  · exact h _ (List.mem_map_of_mem hc)

theorem cutMiddle_mem {all taken rest : List HP3} (h : CutMiddle all taken rest) : ∀ v ∈ taken, v ∈ all := by
  obtain ⟨F, R, B, rfl, rfl, -⟩ := h
  intro v hv; simp at hv ⊢; tauto

theorem outer_sum {vs : List HP3} (hu : Usable vs) {i j : Nat} {out : List OutPoly} (h : OuterLoop vs i j out) :
    i ≤ j → j ≤ vs.length →
    (∀ P ∈ out, ClosedEdges P ∧ (∀ e ∈ P.edges, e.1 ∈ vs ∧ P.plane.side e.1.pt = 0) ∧ P.plane.n.comp P.drop ≠ 0) ∧
    ((vs.map (·.pt)).Nodup → ∀ f, Antisymmetric f → AdditiveOnLines f →
      cSum (fun a b : HP3 => f a.pt b.pt) (seg vs i j) = (out.map fun P => loopSum f (OutPoly.verts P)).sum) := by
  have hw : ∀ v ∈ vs, v.w ≠ 0 := fun v hv => by have := (hu 0).pos v hv; omega
  have hm : ∀ v ∈ vs, v.w ≠ -2 ^ 63 := fun v hv => by have := (hu 0).pos v hv; omega
  induction h with
  | done i => intro _ hj; exact ⟨by simp, fun _ f _ _ => by rw [seg_nil hj]; rfl⟩
  | @step i j r out rest hne hp hb hr ih =>
    intro hij hj
    obtain ⟨r', hr', s1, s2, s3, s4, s5, s6, hc, -⟩ := C52_range vs i j hw hm (by omega) hj
    rw [hp] at hr'; simp only [Option.some.injEq] at hr'; subst hr'
    have hmem : ∀ v ∈ r.verts, v ∈ vs := fun v hv => seg_mem (cutMiddle_mem hc v hv)
    have hu' : Usable r.verts := fun d => (hu d).mono hmem
    obtain ⟨i1, i2⟩ := ih s2 (by omega)
    refine ⟨fun P hP => ?_, fun hnd f hf hadd => ?_⟩
    · rcases List.mem_append.1 hP with h | h
      · obtain ⟨-, e2, e3, e4, e5⟩ := emitted_from hb hu' s6 P h
        exact ⟨e5, fun e he => ⟨hmem _ (e3 e he), e4 e he⟩, e2⟩
      · exact i1 P h
    · rw [List.map_append, List.sum_append, ← i2 hnd f hf hadd]
      have hsum := hc.sum (fun a b : HP3 => f a.pt b.pt) (fun a b => hf _ _)
      have : cSum (fun a b : HP3 => f a.pt b.pt) r.verts = (out.map fun P => loopSum f (OutPoly.verts P)).sum := by
        by_cases hn : r.plane.n = ⟨0, 0, 0⟩
        · have ho : out = [] := by
            unfold PlaneBuild at hb
            rw [show r.plane.n.firstNonzeroDimension = none by rw [hn]; rfl] at hb
            exact hb
          rw [ho]
          have get : ∀ i, i < vs.length → ∃ v, vs[i]? = some v := fun i hi => ⟨_, List.getElem?_eq_getElem hi⟩
          by_cases h1 : j = i + 1
          · subst h1
            obtain ⟨x, hx⟩ := get i (by omega)
            rw [planarRange_one hx] at hp
            simp only [Option.some.injEq] at hp
            rw [← hp]
            have := hf x.pt x.pt
            simp only [cSum, List.cons_append, List.nil_append, pSum, List.map_nil, List.sum_nil]; linarith
          · obtain ⟨p2, hp2⟩ := get i (by omega)
            obtain ⟨p1, hp1⟩ := get (j - 1) (by omega)
            obtain ⟨c1, c2⟩ := C52_collinear_partial vs i j hw hm (by omega) hj r hp p1 p2 hp1 hp2
              (nodup_get hnd hp2 hp1 (by omega))
            rw [c2 hn]
            exact cSum_oneLine (c1.1 hn) hadd
        · rw [C65_plane_boundary r.plane r.verts out hb hu' hn s6 f hf hadd, loopSum_map]
      rw [← this]; exact hsum

/-- C65: whenever `Build` returns, each emitted polygon has input vertices only, all of them in its plane, no two
consecutive ones coincide, and each edge has the line to the next vertex. -/
theorem C65_build (vs : List HP3) (out : List OutPoly) (h : FactoryBuild vs out) (hu : Usable vs) :
    ∀ P ∈ out, ClosedEdges P ∧ (∀ e ∈ P.edges, e.1 ∈ vs ∧ P.plane.side e.1.pt = 0) ∧ P.plane.n.comp P.drop ≠ 0 :=
  (outer_sum hu h (Nat.zero_le _) le_rfl).1

/-- C65, the part about the boundary of a polygon that need not be planar: if no point occurs twice, the boundaries
of the emitted polygons add up to the boundary of the input polygon.

Not proved, because it is false (`C65_closed_false`): the same if a point occurs twice. -/
theorem C65_boundary_partial (vs : List HP3) (out : List OutPoly) (h : FactoryBuild vs out) (hu : Usable vs)
    (hnd : (vs.map (·.pt)).Nodup) (f : Q3 → Q3 → ℚ) (hf : Antisymmetric f) (hadd : AdditiveOnLines f) :
    (out.map fun P => loopSum f (OutPoly.verts P)).sum = loopSum f (vs.map (·.pt)) := by
  rw [← (outer_sum hu h (Nat.zero_le _) le_rfl).2 hnd f hf hadd, loopSum_map]
  simp [seg]

/-! ### counterexamples -/

/-- C65 is false of a polygon whose last vertex repeats the first one: nothing is emitted, although its area is
not zero. -/
theorem C65_closed_false : FactoryBuild closedTriangle [] ∧ area2 2 (closedTriangle.map (·.pt)) ≠ 0 := by
  constructor
  · exact OuterLoop.step (r := ⟨closedTriangle, 4, zeroPlane, 3, 3⟩) (out := []) (rest := []) (by decide)
      (by decide +kernel) rfl (.done 3)
  · simp [area2, closedTriangle, loopSum, pathSum, areaForm, HP3.pt, V3.comp,
      show (2 : Fin 3) + 1 = 0 from rfl, show (2 : Fin 3) + 2 = 1 from rfl]

/-- The dart of C51, for the dimension chosen by the factory. -/
def dart2 : List HP3 := [⟨⟨3, 3, 0⟩, 1⟩, ⟨⟨0, 0, 0⟩, 1⟩, ⟨⟨-3, 5, 0⟩, 1⟩, ⟨⟨0, 1, 0⟩, 1⟩]

/-- The segments from `a` to `b` and from `c` to `d` have no point in common. -/
def Apart2 (a b c d : Q3) : Prop := ∀ s t : ℚ, 0 ≤ s → s ≤ 1 → 0 ≤ t → t ≤ 1 →
  ¬ ∀ i, a i + s * (b i - a i) = c i + t * (d i - c i)

/-- The inner loop of `Build` makes no progress on the dart: nothing is emitted, and the next round has the same
iterators.  No assertion fails. -/
theorem dart2_step : factoryStep ⟨⟨0, 0, -3⟩, 0⟩ 2 dart2 0 4 = some ([], 0, 4) := by decide +kernel

/-- C65: `Build` does not return for every simple polygon.  For the quadrilateral with the vertices (3,3), (0,0), (-3,5)
and (0,1), whose opposite sides have no point in common, it runs forever. -/
theorem C65_terminates_false : (¬ ∃ out, FactoryBuild dart2 out) ∧
    ∀ a b c d, dart2.map (·.pt) = [a, b, c, d] → Apart2 a b c d ∧ Apart2 b c d a := by
  constructor
  · rintro ⟨out, h⟩
    have hp : planarRange dart2 0 4 = some ⟨dart2, 4, ⟨⟨0, 0, -3⟩, 0⟩, 3, 3⟩ := by decide +kernel
    have stuck : ∀ i j out, FactoryLoop ⟨⟨0, 0, -3⟩, 0⟩ 2 dart2 i j out → i = 0 → j = 4 → False := by
      intro i j out h
      induction h with
      | done i => intro h1 h2; omega
      | step hne hs hr ih =>
        rintro rfl rfl
        rw [dart2_step] at hs
        simp only [Option.some.injEq, Prod.mk.injEq] at hs
        exact ih hs.2.1.symm hs.2.2.symm
    unfold FactoryBuild at h
    have outer : ∀ i j out, OuterLoop dart2 i j out → i = 0 → j = 4 → False := by
      intro i j out h
      cases h with
      | done => intro h1 h2; omega
      | step hne hpr hb hr =>
        rintro rfl rfl
        rw [hp] at hpr
        simp only [Option.some.injEq] at hpr
        subst hpr
        exact stuck 0 4 _ hb rfl rfl
    exact outer 0 4 out h rfl rfl
  · intro a b c d h
    simp [dart2] at h
    obtain ⟨rfl, rfl, rfl, rfl⟩ := h
    constructor
    · intro s t h1 h2 h3 h4 h
      have x := h 0
      have y := h 1
      simp [HP3.pt, V3.comp] at x y
      linarith
    · intro s t h1 h2 h3 h4 h
      have x := h 0
      have y := h 1
      simp [HP3.pt, V3.comp] at x y
      linarith

/-- A square with a notch. -/
def notch : List HP3 := [⟨⟨0, 0, 0⟩, 1⟩, ⟨⟨4, 0, 0⟩, 1⟩, ⟨⟨4, 4, 0⟩, 1⟩, ⟨⟨2, 1, 0⟩, 1⟩, ⟨⟨0, 4, 0⟩, 1⟩]

/-- The emitted polygons are not a partition of the input polygon.  For the square with a notch, the factory emits the
whole square with the plane's normal, and the notch with the opposite normal.  (The example also shows that a call
returns, so that the hypotheses of the theorems can hold.) -/
theorem C65_partition_false : ∃ P Q, FactoryBuild notch [P, Q] ∧
    P.plane = ⟨⟨0, 0, 16⟩, 0⟩ ∧ P.edges.map (·.1.v) = [⟨0, 4, 0⟩, ⟨0, 0, 0⟩, ⟨4, 0, 0⟩, ⟨4, 4, 0⟩] ∧
    Q.plane = ⟨⟨0, 0, -16⟩, 0⟩ ∧ Q.edges.map (·.1.v) = [⟨4, 4, 0⟩, ⟨2, 1, 0⟩, ⟨0, 4, 0⟩] := by
  refine ⟨⟨⟨⟨0, 0, 16⟩, 0⟩, 2, [(⟨⟨0, 4, 0⟩, 1⟩, ⟨⟨0, -4, 0⟩, ⟨0, 0, 0⟩⟩), (⟨⟨0, 0, 0⟩, 1⟩, ⟨⟨4, 0, 0⟩, ⟨0, 0, 0⟩⟩),
      (⟨⟨4, 0, 0⟩, 1⟩, ⟨⟨0, 4, 0⟩, ⟨0, 0, 16⟩⟩), (⟨⟨4, 4, 0⟩, 1⟩, ⟨⟨-4, 0, 0⟩, ⟨0, 0, 16⟩⟩)]⟩,
    ⟨⟨⟨0, 0, -16⟩, 0⟩, 2, [(⟨⟨4, 4, 0⟩, 1⟩, ⟨⟨-2, -3, 0⟩, ⟨0, 0, -4⟩⟩), (⟨⟨2, 1, 0⟩, 1⟩, ⟨⟨-2, 3, 0⟩, ⟨0, 0, 8⟩⟩),
      (⟨⟨0, 4, 0⟩, 1⟩, ⟨⟨4, 0, 0⟩, ⟨0, 0, -16⟩⟩)]⟩, ?_, rfl, rfl, rfl, rfl⟩
  refine OuterLoop.step (vs := notch) (i := 0) (j := 5) (r := ⟨notch, 5, ⟨⟨0, 0, 16⟩, 0⟩, 4, 4⟩) (out := [_, _]) (rest := []) (by decide) (by decide +kernel) ?_ (.done 4)
  show FactoryLoop ⟨⟨0, 0, 16⟩, 0⟩ 2 notch 0 5 _
  refine FactoryLoop.step (out := [_]) (rest := [_]) (i' := 2) (j' := 5) (by decide) (by decide +kernel) ?_
  exact FactoryLoop.step (out := [_]) (rest := []) (i' := 4) (j' := 4) (by decide) (by decide +kernel) (.done 4)

/-- The square with a notch meets the other hypotheses of the theorems as well. -/
example : Usable notch ∧ (notch.map (·.pt)).Nodup ∧ ∀ v ∈ notch, (HS3.mk ⟨0, 0, 16⟩ 0).side v.pt = 0 := by
  refine ⟨?_, ?_, ?_⟩
  · intro drop
    exact ⟨by decide, by revert drop; decide +kernel⟩
  · simp [notch]
    refine ⟨⟨?_, ?_, ?_, ?_⟩, ⟨?_, ?_, ?_⟩, ⟨?_, ?_⟩, ?_⟩ <;> intro h <;> have h0 := congrFun h 0 <;> have h1 := congrFun h 1 <;>
      simp [HP3.pt, V3.comp] at h0 h1
  · intro v hv
    simp [notch] at hv
    rcases hv with rfl | rfl | rfl | rfl | rfl <;> simp [HS3.side_eq, HP3.pt, V3.comp]

end Walnut.Props
