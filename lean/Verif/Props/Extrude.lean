/-
C65 for planar polygons, and C56 (extrusion).

`ExtrudeReturns cap dir den out` says that `Extrude(cap, dir, den)` returns the polygons `out`.
-/
import Verif.Mono.ExtrudeProof
import Verif.Mono.FactoryRun
import Verif.Props.Factory
import Verif.Props.Reduce

namespace Walnut.Props
open Walnut.Geom Walnut.Mono

/-- All points are in one plane. -/
def OnePlane (l : List Q3) : Prop := ∃ a u v : Q3, ∀ p ∈ l, ∃ s t : ℚ, ∀ i, p i = a i + s * u i + t * v i

theorem orient_onePlane {l : List Q3} (h : OnePlane l) {a b c d : Q3} (ha : a ∈ l) (hb : b ∈ l) (hc : c ∈ l)
    (hd : d ∈ l) : orient a b c d = 0 := by
  obtain ⟨p, u, v, h⟩ := h
  obtain ⟨s1, t1, e1⟩ := h a ha
  obtain ⟨s2, t2, e2⟩ := h b hb
  obtain ⟨s3, t3, e3⟩ := h c hc
  obtain ⟨s4, t4, e4⟩ := h d hd
  simp only [orient, dotQ, crossQ_zero, crossQ_one, crossQ_two, subQ, e1, e2, e3, e4]
  ring

theorem outer_done {vs : List HP3} {i : Nat} {out : List OutPoly} (h : OuterLoop vs i i out) : out = [] := by
  generalize hj : i = j at h
  cases h with
  | done => rfl
  | step hne => exact absurd rfl hne

theorem outer_step {vs : List HP3} {i j : Nat} {out : List OutPoly} (h : OuterLoop vs i j out) (hne : i ≠ j) :
    ∃ r o rest, planarRange vs i j = some r ∧ PlaneBuild r.plane r.verts o ∧ OuterLoop vs r.first r.last rest ∧
      out = o ++ rest := by
  cases h with
  | done => exact absurd rfl hne
  | step _ hp hb hr => exact ⟨_, _, _, hp, hb, hr, rfl⟩

/-- C65: if the vertices are in one plane, and the last one differs from the first one, the boundaries of
the emitted polygons add up to the boundary of the input polygon.  Other points may occur more than once. -/
theorem C65_planar_boundary (vs : List HP3) (out : List OutPoly) (h : FactoryBuild vs out) (hu : Usable vs)
    (hpl : OnePlane (vs.map (·.pt))) (p1 p2 : HP3) (hp1 : vs[vs.length - 1]? = some p1) (hp2 : vs[0]? = some p2)
    (hne : p1.pt ≠ p2.pt) (f : Q3 → Q3 → ℚ) (hf : Antisymmetric f) (hadd : AdditiveOnLines f) :
    (out.map fun P => loopSum f (OutPoly.verts P)).sum = loopSum f (vs.map (·.pt)) := by
  have hw : ∀ v ∈ vs, v.w ≠ 0 := fun v hv => by have := (hu 0).pos v hv; omega
  have hm : ∀ v ∈ vs, v.w ≠ -2 ^ 63 := fun v hv => by have := (hu 0).pos v hv; omega
  have hlen : 1 < vs.length := by
    by_contra hc
    rw [show vs.length - 1 = 0 by omega, hp2] at hp1
    simp only [Option.some.injEq] at hp1; exact hne (by rw [hp1])
  have whole : seg vs 0 vs.length = vs := by simp [seg]
  obtain ⟨r, o, rest, hr, hb, hrest, rfl⟩ := outer_step h (by omega)
  obtain ⟨r', hr', hs⟩ := planarRange_spec hw hm (show 0 + 1 < vs.length by omega) le_rfl hp1 hp2
  rw [hr] at hr'; simp only [Option.some.injEq] at hr'; subst hr'
  have mem : ∀ {v : HP3}, v ∈ vs → v.pt ∈ vs.map (·.pt) := fun hv => List.mem_map_of_mem (f := (·.pt)) hv
  have m1 := mem (List.mem_of_getElem? hp1)
  have m2 := mem (List.mem_of_getElem? hp2)
  rcases hs with ⟨hz, e1, -, e3, e4, hon⟩ | ⟨-, ⟨p3, m3, k, hk, hside⟩, hin, -, ⟨e1, e3, e4⟩ | ⟨i, j, u, v, i1, i2, i3, -, -, -, hu', -, nu, -⟩⟩
  · rw [e3, e4] at hrest
    have ho : o = [] := by
      unfold PlaneBuild at hb
      rw [show r.plane.n.firstNonzeroDimension = none by rw [hz]; rfl] at hb
      exact hb
    rw [outer_done hrest, ho, loopSum_map, cSum_oneLine (oneLine_of_onLine hne ?_) hadd]
    · rfl
    · intro v hv
      obtain ⟨w, hw, rfl⟩ := List.mem_map.1 hv
      exact hon w (by rw [whole]; exact hw)
  · rw [e3, e4] at hrest
    rw [outer_done hrest, List.append_nil]
    rw [whole] at e1
    by_cases hn : r.plane.n = ⟨0, 0, 0⟩
    · have ho : o = [] := by
        unfold PlaneBuild at hb
        rw [show r.plane.n.firstNonzeroDimension = none by rw [hn]; rfl] at hb
        exact hb
      obtain ⟨c1, -⟩ := C52_collinear_partial vs 0 vs.length hw hm (by omega) le_rfl r hr p1 p2 hp1 hp2 hne
      have c := c1.1 hn
      rw [show slice vs 0 vs.length = vs from whole] at c
      rw [ho, loopSum_map, cSum_oneLine c hadd]; rfl
    · rw [e1] at hb hin
      exact C65_plane_boundary r.plane vs o hb hu hn hin f hf hadd
  · exfalso
    apply nu
    rw [hside, orient_onePlane hpl m1 m2 (mem (by rw [whole] at m3; exact m3)) (mem (List.mem_of_getElem? hu')), mul_zero]

/-- The shifted vertex. -/
theorem addOffset_pt {p : HP3} {dir : V3} {den : Int} (hw : p.w ≠ 0) (hd : den ≠ 0) :
    (p.addOffset dir den).pt = fun i => p.pt i + dir.comp i / den :=
  funext fun i => C62_add_offset p dir den hw hd i

theorem side_sum {a b : HP3} {dir : V3} {den : Int} (hden : 0 < den)
    (hu : Usable [a, b, b.addOffset dir den, a.addOffset dir den]) {out : List OutPoly}
    (h : FactoryBuild [a, b, b.addOffset dir den, a.addOffset dir den] out)
    {f : Q3 → Q3 → ℚ} (hf : Antisymmetric f) (hadd : AdditiveOnLines f) :
    (out.map fun P => loopSum f (OutPoly.verts P)).sum =
      f a.pt b.pt + f b.pt (b.addOffset dir den).pt + f (b.addOffset dir den).pt (a.addOffset dir den).pt +
        f (a.addOffset dir den).pt a.pt := by
  have ha : a.w ≠ 0 := by have := (hu 0).pos a (by simp); omega
  have hb : b.w ≠ 0 := by have := (hu 0).pos b (by simp); omega
  have hd : den ≠ 0 := by omega
  have ea := addOffset_pt (dir := dir) ha hd
  have eb := addOffset_pt (dir := dir) hb hd
  have hz : ∀ x, f x x = 0 := fun x => by have := hf x x; linarith
  by_cases hne : (a.addOffset dir den).pt = a.pt
  · -- nothing is shifted: the plane of the side is zero
    have hdz : ∀ i, ((dir.comp i : Int) : ℚ) / den = 0 := fun i => by
      have := congrFun hne i; rw [ea] at this; simp only at this; linarith
    have hbe : (b.addOffset dir den).pt = b.pt := by rw [eb]; funext i; rw [hdz i, add_zero]
    rw [hne, hbe, hz, hz, hf b.pt a.pt]
    have hw : ∀ v ∈ [a, b, b.addOffset dir den, a.addOffset dir den], v.w ≠ 0 := fun v hv => by
      have := (hu 0).pos v hv; omega
    have hm : ∀ v ∈ [a, b, b.addOffset dir den, a.addOffset dir den], v.w ≠ -2 ^ 63 := fun v hv => by
      have := (hu 0).pos v hv; omega
    obtain ⟨r, o, rest, hr, hb', hrest, rfl⟩ := outer_step h (by simp)
    obtain ⟨r', hr', hs⟩ := planarRange_spec hw hm (rb := 0) (re := 4) (by omega) (by simp) rfl rfl
    rw [show ([a, b, b.addOffset dir den, a.addOffset dir den] : List HP3).length = 4 from rfl] at hr
    rw [hr] at hr'; simp only [Option.some.injEq] at hr'; subst hr'
    rcases hs with ⟨hzp, -, -, e3, e4, -⟩ | ⟨hv, ⟨p3, m3, k, hk, hside⟩, -⟩
    · rw [e3, e4] at hrest
      have ho : o = [] := by
        unfold PlaneBuild at hb'
        rw [show r.plane.n.firstNonzeroDimension = none by rw [hzp]; rfl] at hb'
        exact hb'
      rw [outer_done hrest, ho]; simp
    · exfalso
      rw [hne] at hside
      obtain ⟨e1, e2, e3⟩ := side_normal hside
      simp only [crossQ_zero, crossQ_one, crossQ_two, subQ] at e1 e2 e3
      have hn : r.plane.n = ⟨0, 0, 0⟩ := by
        have : r.plane.n = ⟨r.plane.n.x, r.plane.n.y, r.plane.n.z⟩ := rfl
        rw [this]
        congr 1
        · have : (r.plane.n.x : ℚ) = 0 := by rw [e1]; ring
          exact_mod_cast this
        · have : (r.plane.n.y : ℚ) = 0 := by rw [e2]; ring
          exact_mod_cast this
        · have : (r.plane.n.z : ℚ) = 0 := by rw [e3]; ring
          exact_mod_cast this
      simp [planeValid, hn, V3.isZero] at hv
  · rw [C65_planar_boundary _ out h hu ?_ (a.addOffset dir den) a rfl rfl hne f hf hadd]
    · simp [loopSum, pathSum]; ring
    · refine ⟨a.pt, subQ b.pt a.pt, fun i => dir.comp i / den, ?_⟩
      intro p hp
      simp only [List.map_cons, List.map_nil, List.mem_cons, List.not_mem_nil, or_false] at hp
      rcases hp with rfl | rfl | rfl | rfl
      · exact ⟨0, 0, fun i => by ring⟩
      · exact ⟨1, 0, fun i => by simp [subQ]⟩
      · exact ⟨1, 1, fun i => by rw [eb]; simp [subQ]⟩
      · exact ⟨0, 1, fun i => by rw [ea]; ring⟩

/-- The vertices of the two caps. -/
def capVertices (cap : List HP3) (dir : V3) (den : Int) : List HP3 := cap ++ cap.map (·.addOffset dir den)

theorem sides_sum {cap : List HP3} {dir : V3} {den : Int} (hden : 0 < den) (hu : Usable (capVertices cap dir den))
    {f : Q3 → Q3 → ℚ} (hf : Antisymmetric f) (hadd : AdditiveOnLines f) (G : Nat → List HP3) (H : Nat → ℚ)
    (hH : ∀ i a b, cap[i]? = some a → cap[(i + 1) % cap.length]? = some b →
      G i = [b, a, a.addOffset dir den, b.addOffset dir den] ∧
      H i = f b.pt a.pt + f a.pt (a.addOffset dir den).pt + f (a.addOffset dir den).pt (b.addOffset dir den).pt +
        f (b.addOffset dir den).pt b.pt) :
    ∀ (l : List Nat) (out : List OutPoly), (∀ i ∈ l, i < cap.length) → BuildEach (l.map G) out →
      (out.map fun P => loopSum f (OutPoly.verts P)).sum = (l.map H).sum := by
  intro l
  induction l with
  | nil => intro out _ h; cases h; rfl
  | cons i l ih =>
    intro out hl h
    rw [List.map_cons] at h
    cases h with
    | cons h hr =>
      rw [List.map_append, List.sum_append, ih _ (fun j hj => hl j (by simp [hj])) hr, List.map_cons, List.sum_cons]
      congr 1
      have hi := hl i (by simp)
      have hi2 : (i + 1) % cap.length < cap.length := Nat.mod_lt _ (by omega)
      obtain ⟨hG, hHi⟩ := hH i _ _ (List.getElem?_eq_getElem hi) (List.getElem?_eq_getElem hi2)
      rw [hHi]
      rw [hG] at h
      refine side_sum hden ?_ h hf hadd
      intro d
      refine (hu d).mono ?_
      intro v hv
      unfold capVertices
      simp only [List.mem_cons, List.not_mem_nil, or_false] at hv
      rcases hv with rfl | rfl | rfl | rfl
      · exact List.mem_append_left _ (List.getElem_mem _)
      · exact List.mem_append_left _ (List.getElem_mem _)
      · exact List.mem_append_right _ (List.mem_map_of_mem (f := fun x : HP3 => x.addOffset dir den) (List.getElem_mem _))
      · exact List.mem_append_right _ (List.mem_map_of_mem (f := fun x : HP3 => x.addOffset dir den) (List.getElem_mem _))

theorem sum_map_add4 (l : List Nat) (A B C D : Nat → ℚ) :
    (l.map fun i => A i + B i + C i + D i).sum = (l.map A).sum + (l.map B).sum + (l.map C).sum + (l.map D).sum := by
  induction l with
  | nil => simp
  | cons i l ih => simp only [List.map_cons, List.sum_cons, ih]; ring

/-- C56, the part about the surface: if no point occurs twice in the bottom cap and the denominator of the
direction is positive, the surface returned by `Extrude` is closed: the boundaries of all of its polygons cancel,
for every quantity of directed segments that changes its sign with the direction and is additive along lines.
The polygon need not be planar, and the direction may be zero or parallel to a side.

Not proved, because it is false: the same for a cap that repeats its first vertex (`C56_closed_false`), and that
whole edges cancel one by one (`C56_edges_false`). -/
theorem C56_boundary_partial (cap : List HP3) (dir : V3) (den : Int) (out : List OutPoly)
    (h : ExtrudeReturns cap dir den out) (hden : 0 < den) (hu : Usable (capVertices cap dir den))
    (hnd : (cap.map (·.pt)).Nodup) (f : Q3 → Q3 → ℚ) (hf : Antisymmetric f) (hadd : AdditiveOnLines f) :
    (out.map fun P => loopSum f (OutPoly.verts P)).sum = 0 := by
  have hd : den ≠ 0 := by omega
  have hw : ∀ v ∈ cap, v.w ≠ 0 := fun v hv => by
    have := (hu 0).pos v (List.mem_append_left _ hv); omega
  obtain ⟨sides, hs, hb⟩ := h
  obtain ⟨o12, o3, rfl, h12, h3⟩ := buildEach_append hb
  obtain ⟨o1, o2, rfl, h1, h2⟩ := buildEach_append h12
  have h1 := buildEach_one h1
  have h3 := buildEach_one h3
  set S : HP3 → HP3 := fun x => x.addOffset dir den with hS
  -- the bottom
  have s1 := C65_boundary_partial cap o1 h1 (fun d => (hu d).mono fun v hv => List.mem_append_left _ hv) hnd f hf hadd
  -- the top
  have hnd3 : ((topCap cap dir den).map (·.pt)).Nodup := by
    unfold topCap
    rw [List.map_map]
    have : (cap.reverse.map ((fun x => x.pt) ∘ fun x => x.addOffset dir den)) =
        (cap.reverse.map (·.pt)).map fun (q : Q3) (i : Fin 3) => q i + (dir.comp i : ℚ) / (den : ℚ) := by
      rw [List.map_map]
      apply List.map_congr_left
      intro v hv
      exact addOffset_pt (hw v (List.mem_reverse.1 hv)) hd
    rw [this]
    refine (List.Nodup.map ?_ ?_)
    · intro q q' he
      funext i
      have := congrFun he i
      simp only at this; linarith
    · rw [List.map_reverse]; exact List.nodup_reverse.2 hnd
  have s3 := C65_boundary_partial (topCap cap dir den) o3 h3 (fun d => (hu d).mono fun v hv => by
    unfold topCap at hv
    obtain ⟨w, hw, rfl⟩ := List.mem_map.1 hv
    exact List.mem_append_right _ (List.mem_map_of_mem (f := fun x : HP3 => x.addOffset dir den) (List.mem_reverse.1 hw)))
    hnd3 f hf hadd
  -- the sides
  cases hc : cap with
  | nil =>
    subst hc
    simp at hs
    subst hs
    cases h2
    rw [List.map_append, List.sum_append, List.map_append, List.sum_append, s1, s3]
    simp [topCap, loopSum]
  | cons v0 cap' =>
  have pick : ∀ i, i < cap.length → cap[i]? = some (cap[i]?.getD v0) := by
    intro i hi; rw [List.getElem?_eq_getElem hi]; rfl
  let a : Nat → HP3 := fun i => cap[i]?.getD v0
  let b : Nat → HP3 := fun i => cap[(i + 1) % cap.length]?.getD v0
  have hsides : sides = (List.range cap.length).map fun i => [b i, a i, S (a i), S (b i)] := by
    rw [mapM_range _ (fun i => [b i, a i, S (a i), S (b i)])] at hs
    · simpa using hs.symm
    · intro i hi
      have hi : i < cap.length := by simpa using hi
      have hi2 : (i + 1) % cap.length < cap.length := Nat.mod_lt _ (by omega)
      unfold sideVertices
      rw [pick i hi, pick _ hi2]; rfl
  rw [hsides] at h2
  have s2 := sides_sum hden hu hf hadd (fun i => [b i, a i, S (a i), S (b i)])
    (fun i => f (b i).pt (a i).pt + f (a i).pt (S (a i)).pt + f (S (a i)).pt (S (b i)).pt + f (S (b i)).pt (b i).pt)
    (by
      intro i x y hx hy
      have ex : a i = x := by simp only [a, hx, Option.getD_some]
      have ey : b i = y := by simp only [b, hy, Option.getD_some]
      simp only [ex, ey, hS, and_self]) _ o2 (by simp) h2
  have get : ∀ i x y, cap[i]? = some x → cap[(i + 1) % cap.length]? = some y → a i = x ∧ b i = y := by
    intro i x y hx hy
    exact ⟨by simp only [a, hx, Option.getD_some], by simp only [b, hy, Option.getD_some]⟩
  rw [sum_map_add4] at s2
  have t1 := cSum_range (fun x y : HP3 => f y.pt x.pt) cap (fun i => f (b i).pt (a i).pt) (fun i x y hx hy => by
    obtain ⟨e1, e2⟩ := get i x y hx hy; simp only [e1, e2])
  have t3 := cSum_range (fun x y : HP3 => f (S x).pt (S y).pt) cap (fun i => f (S (a i)).pt (S (b i)).pt) (fun i x y hx hy => by
    obtain ⟨e1, e2⟩ := get i x y hx hy; simp only [e1, e2])
  have t2 := cSum_range (fun x _ : HP3 => f x.pt (S x).pt) cap (fun i => f (a i).pt (S (a i)).pt) (fun i x y hx hy => by
    obtain ⟨e1, e2⟩ := get i x y hx hy; simp only [e1])
  have t4 := cSum_range (fun _ y : HP3 => f (S y).pt y.pt) cap (fun i => f (S (b i)).pt (b i).pt) (fun i x y hx hy => by
    obtain ⟨e1, e2⟩ := get i x y hx hy; simp only [e2])
  rw [t1, t2, t3, t4] at s2
  -- the vertical edges cancel
  have vert : cSum (fun x _ : HP3 => f x.pt (S x).pt) cap + cSum (fun _ y : HP3 => f (S y).pt y.pt) cap = 0 := by
    rw [hc]
    show pSum _ (v0 :: cap' ++ [v0]) + pSum _ (v0 :: cap' ++ [v0]) = 0
    have key : ∀ (r : List HP3) (x z : HP3), pSum (fun x _ : HP3 => f x.pt (S x).pt) (x :: r ++ [z]) +
        pSum (fun _ y : HP3 => f (S y).pt y.pt) (x :: r ++ [z]) = f x.pt (S x).pt - f z.pt (S z).pt := by
      intro r
      induction r with
      | nil => intro x z; simp only [List.cons_append, List.nil_append, pSum]; rw [hf (S z).pt]; ring
      | cons y r ih =>
        intro x z
        have := ih y z
        simp only [List.cons_append, pSum] at this ⊢
        rw [hf (S y).pt]; linarith
    rw [key]; ring
  have back : cSum (fun x y : HP3 => f y.pt x.pt) cap = -cSum (fun x y : HP3 => f x.pt y.pt) cap := by
    rw [← cSum_neg]
    congr 1
    funext x y; exact hf _ _
  rw [List.map_append, List.sum_append, List.map_append, List.sum_append, s1, s2, s3, loopSum_map, loopSum_map]
  unfold topCap
  rw [List.map_reverse, cSum_reverse _ (fun x y => hf _ _)]
  have top : cSum (fun x y : HP3 => f x.pt y.pt) (cap.map fun x => x.addOffset dir den) =
      cSum (fun x y : HP3 => f (S x).pt (S y).pt) cap := by
    rw [cSum_map]
  rw [top, back]; linarith

/-- C56: whenever `Extrude` returns, each face has vertices of the bottom cap and of the shifted cap only, all of them
in its plane, no two consecutive ones coincide, and each edge has the line to the next vertex. -/
theorem C56_faces (cap : List HP3) (dir : V3) (den : Int) (out : List OutPoly)
    (h : ExtrudeReturns cap dir den out) (hu : Usable (capVertices cap dir den)) :
    ∀ P ∈ out, ClosedEdges P ∧ (∀ e ∈ P.edges, e.1 ∈ capVertices cap dir den ∧ P.plane.side e.1.pt = 0) ∧
      P.plane.n.comp P.drop ≠ 0 := by
  obtain ⟨sides, hs, hb⟩ := h
  have hside : ∀ vs ∈ sides, ∀ v ∈ vs, v ∈ capVertices cap dir den := by
    have key : ∀ (l : List Nat) (sides : List (List HP3)), l.mapM (sideVertices cap dir den) = some sides →
        ∀ vs ∈ sides, ∀ v ∈ vs, v ∈ capVertices cap dir den := by
      intro l
      induction l with
      | nil => intro sides h; simp at h; subst h; simp
      | cons i l ih =>
        intro sides h
        rw [List.mapM_cons] at h
        simp only [Option.bind_eq_bind, Option.bind_eq_some_iff, sideVertices] at h
        obtain ⟨s, ⟨v0, h0, v1, h1, h2⟩, r, hr, h⟩ := h
        simp at h h2; subst h h2
        have m0 := List.mem_of_getElem? h0
        have m1 := List.mem_of_getElem? h1
        intro vs hvs v hv
        rcases List.mem_cons.1 hvs with rfl | hvs
        · unfold capVertices
          simp only [List.mem_cons, List.not_mem_nil, or_false] at hv
          rcases hv with rfl | rfl | rfl | rfl
          · exact List.mem_append_left _ m0
          · exact List.mem_append_left _ m1
          · exact List.mem_append_right _ (List.mem_map_of_mem (f := fun x : HP3 => x.addOffset dir den) m1)
          · exact List.mem_append_right _ (List.mem_map_of_mem (f := fun x : HP3 => x.addOffset dir den) m0)
        · exact ih r hr vs hvs v hv
    exact key _ sides hs
  have each : ∀ (l : List (List HP3)) (out : List OutPoly), BuildEach l out →
      (∀ vs ∈ l, ∀ v ∈ vs, v ∈ capVertices cap dir den) → ∀ P ∈ out, ClosedEdges P ∧
        (∀ e ∈ P.edges, e.1 ∈ capVertices cap dir den ∧ P.plane.side e.1.pt = 0) ∧ P.plane.n.comp P.drop ≠ 0 := by
    intro l out h
    induction h with
    | nil => simp
    | @cons vs rest o o' h hr ih =>
      intro hl P hP
      rcases List.mem_append.1 hP with hP | hP
      · obtain ⟨c1, c2, c3⟩ := C65_build vs o h (fun d => (hu d).mono (hl vs (by simp))) P hP
        exact ⟨c1, fun e he => ⟨hl vs (by simp) _ (c2 e he).1, (c2 e he).2⟩, c3⟩
      · exact ih (fun vs hvs => hl vs (by simp [hvs])) P hP
  refine each _ out hb ?_
  intro vs hvs v hv
  simp only [List.mem_append, List.mem_singleton] at hvs
  rcases hvs with (rfl | hvs) | rfl
  · exact List.mem_append_left _ hv
  · exact hside vs hvs v hv
  · unfold topCap at hv
    obtain ⟨w, hw, rfl⟩ := List.mem_map.1 hv
    exact List.mem_append_right _ (List.mem_map_of_mem (f := fun x : HP3 => x.addOffset dir den) (List.mem_reverse.1 hw))

/-! ### counterexamples -/

/-- The faces of an extruded polygon, as vertex lists (for faces whose vertices have the denominator one). -/
def faceVertices (out : List OutPoly) : List (List V3) := out.map fun P => P.edges.map (·.1.v)

/-- The integral of `2 z (x dy - y dx)` along a segment. -/
def momentForm (a b : Q3) : ℚ := (a 2 + b 2) * areaForm 2 a b

theorem moment_additive : Antisymmetric momentForm ∧ AdditiveOnLines momentForm := by
  constructor
  · intro a b; simp only [momentForm, areaForm]; ring
  · rintro a b c ⟨p, d, h⟩
    obtain ⟨t1, e1⟩ := h a (by simp)
    obtain ⟨t2, e2⟩ := h b (by simp)
    obtain ⟨t3, e3⟩ := h c (by simp)
    simp only [momentForm, areaForm, e1, e2, e3]; ring

/-- The sides of the extruded triangle. -/
def openPrism : List OutPoly :=
  (runExtrude 9 closedTriangle ⟨0, 0, 1⟩ 1).getD []

/-- C56 is false of a cap whose last vertex repeats the first one: the three sides are returned, but neither of the caps,
and the surface is not closed. -/
theorem C56_closed_false : ∃ out, ExtrudeReturns closedTriangle ⟨0, 0, 1⟩ 1 out ∧
    faceVertices out = [[⟨2, 0, 0⟩, ⟨0, 0, 0⟩, ⟨0, 0, 1⟩, ⟨2, 0, 1⟩], [⟨0, 2, 0⟩, ⟨2, 0, 0⟩, ⟨2, 0, 1⟩, ⟨0, 2, 1⟩],
      [⟨0, 2, 1⟩, ⟨0, 0, 1⟩, ⟨0, 0, 0⟩, ⟨0, 2, 0⟩]] ∧
    ∃ f, Antisymmetric f ∧ AdditiveOnLines f ∧ (out.map fun P => loopSum f (OutPoly.verts P)).sum ≠ 0 := by
  have h : runExtrude 9 closedTriangle ⟨0, 0, 1⟩ 1 = some openPrism := by decide +kernel
  have hv : openPrism.map (fun P => P.edges.map (·.1)) =
      [[⟨⟨2, 0, 0⟩, 1⟩, ⟨⟨0, 0, 0⟩, 1⟩, ⟨⟨0, 0, 1⟩, 1⟩, ⟨⟨2, 0, 1⟩, 1⟩],
       [⟨⟨0, 2, 0⟩, 1⟩, ⟨⟨2, 0, 0⟩, 1⟩, ⟨⟨2, 0, 1⟩, 1⟩, ⟨⟨0, 2, 1⟩, 1⟩],
       [⟨⟨0, 2, 1⟩, 1⟩, ⟨⟨0, 0, 1⟩, 1⟩, ⟨⟨0, 0, 0⟩, 1⟩, ⟨⟨0, 2, 0⟩, 1⟩]] := by decide +kernel
  refine ⟨openPrism, runExtrude_sound h, by decide +kernel, momentForm, moment_additive.1, moment_additive.2, ?_⟩
  have e : (openPrism.map fun P => loopSum momentForm (OutPoly.verts P)) =
      (openPrism.map (fun P => P.edges.map (·.1))).map fun l => loopSum momentForm (l.map (·.pt)) := by
    rw [List.map_map]
    apply List.map_congr_left
    intro P _
    simp only [OutPoly.verts, Function.comp, List.map_map]; rfl
  rw [e, hv]
  norm_num [loopSum, pathSum, momentForm, areaForm, HP3.pt, V3.comp,
      show (2 : Fin 3) + 1 = 0 from rfl, show (2 : Fin 3) + 2 = 1 from rfl]

/-- The directed edges of faces. -/
def directedEdges (faces : List (List V3)) : List (V3 × V3) := (faces.map fun l => l.zip (l.rotate 1)).flatten

/-- A simple pentagon with three vertices on a vertical line. -/
def kinked : List HP3 := [⟨⟨1, 2, 0⟩, 1⟩, ⟨⟨3, 0, 0⟩, 1⟩, ⟨⟨1, 1, 0⟩, 1⟩, ⟨⟨0, 0, 0⟩, 1⟩, ⟨⟨1, 3, 0⟩, 1⟩]

/-- C56: the edges of the faces do not cancel one by one, although the surface is closed: of the extruded
pentagon, one face has the edge from (1,1,0) to (1,2,0), and no face has the opposite edge.  (There is an edge from
(1,3,0) to (1,1,0) and one from (1,2,0) to (1,3,0) instead.) -/
theorem C56_edges_false : ∃ out, ExtrudeReturns kinked ⟨0, 0, 1⟩ 1 out ∧ (∀ P ∈ out, ∀ e ∈ P.edges, e.1.w = 1) ∧
    ((⟨1, 1, 0⟩, ⟨1, 2, 0⟩) : V3 × V3) ∈ directedEdges (faceVertices out) ∧
    ((⟨1, 2, 0⟩, ⟨1, 1, 0⟩) : V3 × V3) ∉ directedEdges (faceVertices out) := by
  have h : runExtrude 9 kinked ⟨0, 0, 1⟩ 1 = some ((runExtrude 9 kinked ⟨0, 0, 1⟩ 1).getD []) := by decide +kernel
  exact ⟨_, runExtrude_sound h, by decide +kernel, by decide +kernel, by decide +kernel⟩

/-- `Extrude` does not return for the quadrilateral of C65. -/
theorem C56_terminates_false (dir : V3) (den : Int) : ¬ ∃ out, ExtrudeReturns dart2 dir den out := by
  rintro ⟨out, sides, -, h⟩
  obtain ⟨o1, o2, -, h1, -⟩ := buildEach_append h
  obtain ⟨o1, o2, -, h1, -⟩ := buildEach_append h1
  exact C65_terminates_false.1 ⟨_, buildEach_one h1⟩

/-- The pentagon, extruded by a sheared direction with a denominator, meets the hypotheses of the theorems. -/
example : (∃ out, ExtrudeReturns kinked ⟨1, 0, 3⟩ 2 out ∧ out.length = 10) ∧ Usable (capVertices kinked ⟨1, 0, 3⟩ 2) ∧
    (kinked.map (·.pt)).Nodup := by
  have h : runExtrude 9 kinked ⟨1, 0, 3⟩ 2 = some ((runExtrude 9 kinked ⟨1, 0, 3⟩ 2).getD []) := by decide +kernel
  refine ⟨⟨_, runExtrude_sound h, by decide +kernel⟩, ?_, ?_⟩
  · intro drop
    exact ⟨by decide, by revert drop; decide +kernel⟩
  · simp [kinked]
    refine ⟨⟨?_, ?_, ?_, ?_⟩, ⟨?_, ?_, ?_⟩, ⟨?_, ?_⟩, ?_⟩ <;> intro h <;> have h0 := congrFun h 0 <;> have h1 := congrFun h 1 <;>
      simp [HP3.pt, V3.comp] at h0 h1

/-- The notch is planar with different first and last vertices: the hypotheses of `C65_planar_boundary`. -/
example : OnePlane (notch.map (·.pt)) ∧ HP3.pt ⟨⟨0, 4, 0⟩, 1⟩ ≠ HP3.pt ⟨⟨0, 0, 0⟩, 1⟩ := by
  constructor
  · refine ⟨fun _ => 0, ![1, 0, 0], ![0, 1, 0], fun p hp => ⟨p 0, p 1, fun i => ?_⟩⟩
    simp [notch] at hp
    rcases hp with rfl | rfl | rfl | rfl | rfl <;> fin_cases i <;> simp [HP3.pt, V3.comp]
  · intro h
    have := congrFun h 1
    simp [HP3.pt, V3.comp] at this

end Walnut.Props
