/-
C54, C66, C67, C68: what `MeshPlaneRepairer` makes of a mesh.

A mesh is a list of facets, each a list of homogeneous points.  The result is a list of planes, each with the vertices of a
polygon.
-/
import Verif.Repair.FacetsProof
import Verif.Mono.Sums

namespace Walnut.Props
open Walnut Walnut.Geom Walnut.Repair Walnut.Mono

/-- All vertices of the facets are finite points. -/
def FiniteMesh (facets : List (List HP3)) : Prop := ∀ f ∈ facets, ∀ v ∈ f, v.w ≠ 0

/-- The sum of a quantity over all edges of a list of closed polygons. -/
def edgeSum (f : Q3 → Q3 → ℚ) (polys : List (List HP3)) : ℚ := (polys.map fun l => loopSum f (l.map HP3.pt)).sum

/-- The point of an index. -/
def pointAt (st : List VInfo) (i : Nat) : HP3 := ((st[i]?).map VInfo.point).getD ⟨⟨0, 0, 0⟩, 0⟩

theorem mapM_points (st : List VInfo) : ∀ (l : List Nat) (q : List HP3), points st l = some q → q = l.map (pointAt st) ∧ ∀ i ∈ l, i < st.length := by
  intro l
  induction l with
  | nil => intro q h; simp [points] at h; subst h; simp
  | cons i r ih =>
    intro q h
    simp only [points, List.mapM_cons, Option.bind_eq_bind, Option.bind_eq_some_iff] at h
    obtain ⟨p, hp, t, ht, h⟩ := h
    simp at h; subst h
    obtain ⟨i1, i2⟩ := ih t ht
    obtain ⟨v, hv, rfl⟩ := Option.map_eq_some_iff.1 hp
    refine ⟨by rw [i1]; simp [pointAt, hv], ?_⟩
    intro j hj
    rcases List.mem_cons.1 hj with rfl | hj
    · exact (List.getElem?_eq_some_iff.1 hv).1
    · exact i2 j hj

theorem mapM_forall {α β : Type} (f : α → Option β) : ∀ (l : List α) (r : List β), l.mapM f = some r → List.Forall₂ (fun a b => f a = some b) l r := by
  intro l
  induction l with
  | nil => intro r h; simp at h; subst h; exact .nil
  | cons a l ih =>
    intro r h
    simp only [List.mapM_cons, Option.bind_eq_bind, Option.bind_eq_some_iff] at h
    obtain ⟨b, hb, t, ht, h⟩ := h
    simp at h; subst h
    exact .cons hb (ih t ht)

theorem forall₂_get {α β : Type} {R : α → β → Prop} {l : List α} {r : List β} (h : List.Forall₂ R l r) :
    l.length = r.length ∧ ∀ (i : Nat) a, l[i]? = some a → ∃ b, r[i]? = some b ∧ R a b := by
  induction h with
  | nil => simp
  | @cons a b l r hab h ih =>
    refine ⟨by simp [ih.1], ?_⟩
    intro i x hx
    cases i with
    | zero => simp at hx; subst hx; exact ⟨b, by simp, hab⟩
    | succ n => simpa using ih.2 n x (by simpa using hx)

/-- The result in terms of the pieces of the facets. -/
theorem repair_core {facets : List (List HP3)} {out : List (HS3 × List HP3)} (hw : FiniteMesh facets) (h : repairMesh facets = some out) :
    ∃ (s : Repairer) (st : List VInfo) (orig : List Q3) (pss : List (List (HS3 × List Nat × List Nat))),
      Facets {} facets pss s ∧ List.Forall₂ (fun v v' => (if v.adjacent.length ≠ 3 then v.finalize else some v) = some v') s.storage st ∧
      Keyed s.map orig ∧ s.storage.length = orig.length ∧
      List.Forall₂ (fun f ps => (∃ l : List Nat, l.map (fun i => orig[i]?) = (f.map HP3.pt).map some ∧ Fan l (pieces ps)) ∧
        (f.length ≤ 4 → ∀ x ∈ ps, x.2.2.length = 1) ∧ ∀ x ∈ ps, 3 ≤ (x.2.1 ++ x.2.2).length) facets pss ∧
      out = (pss.map written).flatten.map (fun x => (x.1, x.2.map (pointAt st))) ∧
      (∀ x ∈ (pss.map written).flatten, ∀ i ∈ x.2, i < st.length) ∧
      ∀ j < st.length, ∃ x ∈ (pss.map written).flatten, j ∈ x.2 := by
  unfold repairMesh at h
  simp only [Option.bind_eq_bind, Option.bind_eq_some_iff] at h
  obtain ⟨s, h1, st, h2, h3⟩ := h
  obtain ⟨pss, hf⟩ := addFacets_spec _ h1
  obtain ⟨orig, k1, k2, k3, k4, k5⟩ := hf.fan (orig := []) (polys := []) Keyed.start rfl ⟨rfl, rfl⟩ hw
  simp only [List.nil_append] at k1 k2 k3 k4 k5
  have hst := mapM_forall _ _ _ h2
  have hlen := (forall₂_get hst).1
  have hp := produce_spec st (pss.map written).flatten [] out (by simpa [k3.vertices, k3.polygons] using h3)
  have hout : ∀ {polys : List (HS3 × List Nat)} {out : List (HS3 × List HP3)},
      List.Forall₂ (fun a b => a.1 = b.1 ∧ points st a.2 = some b.2) polys out →
      out = polys.map (fun x => (x.1, x.2.map (pointAt st))) ∧ ∀ x ∈ polys, ∀ i ∈ x.2, i < st.length := by
    intro polys out h
    induction h with
    | nil => simp
    | @cons a b l r hab h ih =>
      obtain ⟨p1, p2⟩ := mapM_points st _ _ hab.2
      refine ⟨?_, ?_⟩
      · rw [ih.1, List.map_cons, ← p1, hab.1]
      · intro x hx
        rcases List.mem_cons.1 hx with rfl | hx
        · exact p2
        · exact ih.2 x hx
  exact ⟨s, st, orig, pss, hf, hst, k1, k2, k4, (hout hp).1, (hout hp).2, fun j hj => k5 j (by simp) (by rw [hlen]; exact hj)⟩

/-- The image of a point. -/
noncomputable def imageOf (orig : List Q3) (st : List VInfo) (q : Q3) : HP3 :=
  open Classical in pointAt st (if h : ∃ i : Nat, orig[i]? = some q then h.choose else 0)

theorem imageOf_eq {orig : List Q3} (hn : orig.Nodup) (st : List VInfo) {i : Nat} {q : Q3} (h : orig[i]? = some q) :
    imageOf orig st q = pointAt st i := by
  have hex : ∃ i : Nat, orig[i]? = some q := ⟨i, h⟩
  unfold imageOf
  rw [dif_pos hex]
  have h2 := hex.choose_spec
  have h1 := h
  have : hex.choose = i := by
    have l1 := (List.getElem?_eq_some_iff.1 h2).1
    exact (List.getElem?_inj l1 hn).1 (h2.trans h1.symm)
  rw [this]

theorem map_image {orig : List Q3} (hn : orig.Nodup) (st : List VInfo) : ∀ {l : List Nat} {f : List HP3},
    l.map (fun i => orig[i]?) = (f.map HP3.pt).map some → f.map (fun v => imageOf orig st v.pt) = l.map (pointAt st) := by
  intro l
  induction l with
  | nil => intro f h; cases f with
    | nil => rfl
    | cons v f => simp at h
  | cons i l ih =>
    intro f h
    cases f with
    | nil => simp at h
    | cons v f =>
      simp only [List.map_cons, List.cons.injEq] at h
      rw [List.map_cons, List.map_cons, ih h.2, imageOf_eq hn st h.1]

/-- C67: there is one repaired vertex per point of the mesh, whatever the representation of the point, and the polygons of the
result are the facets with their points replaced by the repaired vertices and cut into pieces of at least three vertices.  A
piece has its vertices from the front in order, followed by those from the end in reverse order (see `C54_order_false`). -/
theorem C67_vertices (facets : List (List HP3)) (out : List (HS3 × List HP3)) (hw : FiniteMesh facets)
    (h : repairMesh facets = some out) :
    ∃ (image : Q3 → HP3) (cuts : List (List (List HP3 × List HP3))),
      List.Forall₂ (fun f c => Fan (f.map fun v => image v.pt) c) facets cuts ∧
      out.map (·.2) = cuts.flatten.map (fun c => c.1 ++ c.2.reverse) ∧
      (∀ c ∈ cuts.flatten, 3 ≤ (c.1 ++ c.2).length) ∧
      ((∀ f ∈ facets, f.length ≤ 4) → ∀ c ∈ cuts.flatten, c.2.length = 1) := by
  obtain ⟨s, st, orig, pss, hf, hst, k1, k2, k4, rfl, k6, k7⟩ := repair_core hw h
  refine ⟨imageOf orig st, pss.map (fun ps => (pieces ps).map fun c => (c.1.map (pointAt st), c.2.map (pointAt st))), ?_, ?_, ?_⟩
  · rw [List.forall₂_map_right_iff]
    refine k4.imp ?_
    rintro f ps ⟨⟨l, hl, hfan⟩, -⟩
    rw [map_image k1.nodup st hl]
    exact hfan.map (pointAt st)
  · simp [List.map_flatten, List.map_map, Function.comp_def, written, pieces]
  · have key : ∀ {fs : List (List HP3)} {pss : List (List (HS3 × List Nat × List Nat))},
        List.Forall₂ (fun f ps => (∃ l : List Nat, l.map (fun i => orig[i]?) = (f.map HP3.pt).map some ∧ Fan l (pieces ps)) ∧
        (f.length ≤ 4 → ∀ x ∈ ps, x.2.2.length = 1) ∧ ∀ x ∈ ps, 3 ≤ (x.2.1 ++ x.2.2).length) fs pss →
        (∀ c ∈ (pss.map (fun ps => (pieces ps).map fun c => (c.1.map (pointAt st), c.2.map (pointAt st)))).flatten, 3 ≤ (c.1 ++ c.2).length) ∧
        ((∀ f ∈ fs, f.length ≤ 4) →
          ∀ c ∈ (pss.map (fun ps => (pieces ps).map fun c => (c.1.map (pointAt st), c.2.map (pointAt st)))).flatten, c.2.length = 1) := by
      intro fs pss h
      induction h with
      | nil => simp
      | @cons f ps fs pss h _ ih =>
        obtain ⟨-, h1, h2⟩ := h
        refine ⟨?_, ?_⟩
        · intro c hc
          rw [List.map_cons, List.flatten_cons, List.mem_append] at hc
          rcases hc with hc | hc
          · simp only [pieces, List.map_map, List.mem_map, Function.comp_def] at hc
            obtain ⟨x, hx, rfl⟩ := hc
            simpa using h2 x hx
          · exact ih.1 c hc
        · intro h4 c hc
          rw [List.map_cons, List.flatten_cons, List.mem_append] at hc
          rcases hc with hc | hc
          · simp only [pieces, List.map_map, List.mem_map, Function.comp_def] at hc
            obtain ⟨x, hx, rfl⟩ := hc
            simpa using h1 (h4 f (by simp)) x hx
          · exact ih.2 (fun f hf => h4 f (by simp [hf])) c hc
    exact key k4

/-- C67: `HasVertex` is true exactly for the points added before, whatever their representation. -/
theorem C67_has_vertex (vs : List HP3) (v : HP3) (s : Repairer) (l : List Nat) (b : Bool) (hw : ∀ u ∈ vs, u.w ≠ 0) (hv : v.w ≠ 0)
    (h : addVertices {} vs = some (s, l)) (hb : hasVertex s v = some b) : b = true ↔ ∃ u ∈ vs, u.pt = v.pt := by
  obtain ⟨new, o, a1, a2, a3, a4, a5, a6, a7, a8, a9⟩ := addVertices_spec vs Keyed.start rfl hw h
  simp only [List.nil_append] at a2 a3 a4
  have hin : ∀ i : Nat, o[i]? = some v.pt → ∃ u ∈ vs, u.pt = v.pt := by
    intro i hi
    have hlt : i < s.storage.length := by rw [a3]; exact (List.getElem?_eq_some_iff.1 hi).1
    have : o[i]? ∈ vs.map (fun v => some v.pt) := by
      rw [← a4]; exact List.mem_map_of_mem (f := fun i => o[i]?) (a8 i (by simp) hlt)
    obtain ⟨u, hu, he⟩ := List.mem_map.1 this
    rw [hi] at he
    exact ⟨u, hu, by simpa using he⟩
  have hout : ∀ u ∈ vs, ∃ i : Nat, o[i]? = some u.pt := by
    intro u hu
    have : some u.pt ∈ l.map (fun i => o[i]?) := by rw [a4]; exact List.mem_map_of_mem (f := fun v : HP3 => some v.pt) hu
    obtain ⟨i, -, hi⟩ := List.mem_map.1 this
    exact ⟨i, hi⟩
  unfold hasVertex at hb
  cases h1 : s.map.lookup v with
  | some i =>
    simp only [h1, Option.some.injEq] at hb
    subst hb
    simpa using hin i (a2.key v i (lookup_mem h1)).2
  | none =>
    simp only [h1, Option.bind_eq_bind, Option.bind_eq_some_iff] at hb
    obtain ⟨r, hr, hb⟩ := hb
    simp at hb; subst hb
    obtain ⟨c1, c2⟩ := reduce_canon hv hr
    constructor
    · intro hs
      obtain ⟨i, hi⟩ := Option.isSome_iff_exists.1 hs
      exact hin i (by rw [← c2]; exact (a2.key r i (lookup_mem hi)).2)
    · rintro ⟨u, hu, he⟩
      obtain ⟨i, hi⟩ := hout u hu
      obtain ⟨r', hr', c'⟩ := a2.canon i _ hi
      have : r' = r := canon_unique c' c1 (by
        have := (a2.key r' i hr').2
        rw [hi] at this
        simp at this; rw [← this, he, c2])
      subst this
      cases h2 : s.map.lookup r' with
      | some _ => rfl
      | none => exact absurd hr' (lookup_none h2 i)

example : ∃ s l, addVertices {} [⟨⟨1, 0, 0⟩, 1⟩, ⟨⟨2, 2, 0⟩, 2⟩] = some (s, l) ∧ hasVertex s ⟨⟨3, 3, 0⟩, 3⟩ = some true ∧
    hasVertex s ⟨⟨3, 3, 0⟩, 1⟩ = some false :=
  ⟨_, _, Option.some_get (by decide +kernel : (addVertices {} [⟨⟨1, 0, 0⟩, 1⟩, ⟨⟨2, 2, 0⟩, 2⟩]).isSome) |>.symm, by decide +kernel,
    by decide +kernel⟩

/-! ### C54: the order of the vertices -/

/-- Cutting a polygon keeps the sums over its edges. -/
theorem fan_sum {α : Type} (g : α → α → ℚ) (hg : ∀ a b, g a b = -g b a) {l : List α} {ps : List (List α × List α)} (h : Fan l ps) :
    (ps.map fun p => cSum g (p.1 ++ p.2)).sum = cSum g l := by
  induction h with
  | whole a e ha he => simp
  | cut a x m y e ps hm h ih =>
    simp only [List.map_cons, List.sum_cons, ih]
    have hM : pSum g (x :: m ++ [y]) = cSum g (x :: m ++ [y]) + pSum g [x, y] := by
      have h1 : cSum g (x :: m ++ [y]) = pSum g (x :: m ++ [y]) + pSum g [y, x] := by
        show pSum g ((x :: m ++ [y]) ++ [x]) = _
        rw [show (x :: m ++ [y]) ++ [x] = (x :: m) ++ y :: [x] by simp, pSum_append]
      rw [h1]
      simp only [pSum]
      rw [hg y x]; ring
    have := cSum_replace g hM (x := x) (y := y) (by simp) (by simp)
      (List.getLast?_concat) (by simp) a e
    rw [show a ++ x :: m ++ y :: e = a ++ (x :: m ++ [y]) ++ e by simp, this, add_comm]
    simp

/-- C54: the polygons of a facet have the same edges as the facet, apart from edges that occur in both directions (partial: for
meshes whose facets have at most four vertices, see `C54_order_false`). -/
theorem C54_edges_partial (facets : List (List HP3)) (out : List (HS3 × List HP3)) (hw : FiniteMesh facets)
    (h : repairMesh facets = some out) (h4 : ∀ f ∈ facets, f.length ≤ 4) :
    ∃ image : Q3 → HP3, ∀ f, Antisymmetric f →
      edgeSum f (out.map (·.2)) = edgeSum f (facets.map fun l => l.map fun v => image v.pt) := by
  obtain ⟨image, cuts, c1, c2, c3, c4⟩ := C67_vertices facets out hw h
  refine ⟨image, fun f hf => ?_⟩
  rw [c2]
  have h1 : cuts.flatten.map (fun c => c.1 ++ c.2.reverse) = cuts.flatten.map (fun c => c.1 ++ c.2) := by
    apply List.map_congr_left
    intro c hc
    have := c4 h4 c hc
    obtain ⟨a, ha⟩ := List.length_eq_one_iff.1 this
    rw [ha]; rfl
  rw [h1]
  clear h1 c2 c3 c4 h4 h hw
  induction c1 with
  | nil => simp [edgeSum]
  | @cons l c fs cs hfan _ ih =>
    unfold edgeSum at *
    simp only [List.flatten_cons, List.map_append, List.sum_append, List.map_cons, List.sum_cons] at *
    rw [ih]
    congr 1
    have := fan_sum (fun a b : HP3 => f a.pt b.pt) (fun a b => hf a.pt b.pt) hfan
    rw [loopSum_map, ← this]
    simp only [List.map_map, Function.comp_def]
    congr 1
    apply List.map_congr_left
    intro c _
    rw [loopSum_map]

/-- C54: a closed mesh stays closed: if each edge of the mesh occurs equally often in both directions, the same holds for the
result (facets with at most four vertices). -/
theorem C54_closed_partial (facets : List (List HP3)) (out : List (HS3 × List HP3)) (hw : FiniteMesh facets)
    (h : repairMesh facets = some out) (h4 : ∀ f ∈ facets, f.length ≤ 4)
    (hclosed : ∀ f, Antisymmetric f → edgeSum f facets = 0) : ∀ f, Antisymmetric f → edgeSum f (out.map (·.2)) = 0 := by
  obtain ⟨image, hi⟩ := C54_edges_partial facets out hw h h4
  intro f hf
  rw [hi f hf]
  have := hclosed (fun a b => f (image a).pt (image b).pt) (fun a b => hf _ _)
  rw [← this]
  unfold edgeSum
  simp only [List.map_map, Function.comp_def]
  congr 1
  apply List.map_congr_left
  intro l _
  have e1 := loopSum_map f (fun v : HP3 => (image v.pt).pt) l
  have e2 := loopSum_map (fun a b => f (image a).pt (image b).pt) (fun v : HP3 => v.pt) l
  rw [e1, e2]

/-! ### C66: planarity -/

theorem pointAt_mem {st : List VInfo} {i : Nat} (h : i < st.length) : ∃ v, st[i]? = some v ∧ pointAt st i = v.point :=
  ⟨st[i], List.getElem?_eq_getElem h, by simp [pointAt, List.getElem?_eq_getElem h]⟩

/-- C66: the polygons of the result are planar: their plane has a normal and contains their vertices (partial: for meshes whose
facets have at most four vertices, see `C66_stale_false`, and if no vertex is moved to infinity, see `C66_infinite_false`). -/
theorem C66_planar_partial (facets : List (List HP3)) (out : List (HS3 × List HP3)) (hw : FiniteMesh facets)
    (h : repairMesh facets = some out) (h4 : ∀ f ∈ facets, f.length ≤ 4) (hfin : ∀ x ∈ out, ∀ v ∈ x.2, v.w ≠ 0) :
    ∀ x ∈ out, x.1.n ≠ ⟨0, 0, 0⟩ ∧ ∀ v ∈ x.2, x.1.side v.pt = 0 := by
  obtain ⟨s, st, orig, pss, hf, hst, k1, k2, k4, rfl, k6, k7⟩ := repair_core hw h
  obtain ⟨hlen, hget⟩ := forall₂_get hst
  have hback := forall₂_get (List.Forall₂.flip hst)
  -- the final storage is finite
  have hfin' : ∀ v ∈ st, v.point.w ≠ 0 := by
    intro v hv
    obtain ⟨i, hi⟩ := List.mem_iff_getElem?.1 hv
    have hlt := (List.getElem?_eq_some_iff.1 hi).1
    obtain ⟨x, hx, hix⟩ := k7 i hlt
    have := hfin (x.1, x.2.map (pointAt st)) (List.mem_map_of_mem (f := fun x : HS3 × List Nat => (x.1, x.2.map (pointAt st))) hx) (pointAt st i)
      (List.mem_map_of_mem hix)
    obtain ⟨u, hu, he⟩ := pointAt_mem hlt
    rw [hi] at hu; simp only [Option.some.injEq] at hu; subst hu
    rwa [← he]
  have hff : FreeFin s.storage := by
    have : ∀ {s s' : Repairer} {fs : List (List HP3)} {pss : List (List (HS3 × List Nat × List Nat))}, Facets s fs pss s' →
        ∀ {orig : List Q3}, Keyed s.map orig → s.storage.length = orig.length → (∀ f ∈ fs, ∀ v ∈ f, v.w ≠ 0) → FreeFin s.storage →
        FreeFin s'.storage := by
      intro s s' fs pss h
      induction h with
      | nil s => intro orig _ _ _ h; exact h
      | @cons s s1 s2 s' f l r ps pss h1 h2 h3 ih =>
        intro orig hk hl hw hff
        obtain ⟨new, o1, a1, a2, a3, a4, a5, a6, a7, a8, a9⟩ := addVertices_spec f hk hl (hw f (by simp)) h1
        obtain ⟨b1, b2, b3, b4⟩ := h2.fan
        refine ih (by rw [b2]; exact a2) (by rw [b3]; exact a3) (fun f hf => hw f (by simp [hf])) (h2.fin ?_).1
        rw [a1]; intro v hv
        rcases List.mem_append.1 hv with hv | hv
        · exact hff v hv
        · exact ⟨by simp [(a7 v hv).1], fun _ => (a7 v hv).2.1⟩
    exact this hf Keyed.start rfl hw (by intro v hv; simp at hv)
  have hsfin : ∀ v ∈ s.storage, v.point.w ≠ 0 := by
    intro v hv
    by_cases h3 : v.adjacent.length = 3
    · obtain ⟨i, hi⟩ := List.mem_iff_getElem?.1 hv
      obtain ⟨v', hv', he⟩ := hget i v hi
      rw [if_neg (by simpa using h3)] at he
      simp only [Option.some.injEq] at he; subst he
      exact hfin' v (List.mem_of_getElem? hv')
    · have := (hff v hv).1
      exact (hff v hv).2 (by omega)
  obtain ⟨l1, l2, l3⟩ := hf.cov Keyed.start rfl hw (by simp) hsfin
  have l3 := l3 h4
  intro y hy
  obtain ⟨x, hx, rfl⟩ := List.mem_map.1 hy
  refine ⟨l2 x hx, ?_⟩
  intro u hu
  obtain ⟨i, hi, rfl⟩ := List.mem_map.1 hu
  obtain ⟨v, hv, hcov⟩ := l3 x hx i hi
  obtain ⟨v', hv', he⟩ := hget i v hv
  have hpt : pointAt st i = v'.point := by simp [pointAt, hv']
  show x.1.side (pointAt st i).pt = 0
  rw [hpt]
  have hw' := hfin' v' (List.mem_of_getElem? hv')
  by_cases h3 : v.adjacent.length = 3
  · rw [if_neg (by simpa using h3)] at he
    simp only [Option.some.injEq] at he; subst he
    rcases hcov with ⟨a, ha, hs⟩ | ⟨-, hs⟩
    · exact (hs _).1 ((l1.ok v (List.mem_of_getElem? hv)).on h3 hw' a ha)
    · exact hs
  · rw [if_pos h3] at he
    rcases hcov with ⟨a, ha, hs⟩ | ⟨h, -⟩
    · exact (hs _).1 ((VInfo.finalize_spec he).2 hw' a ha)
    · exact absurd h h3

/-! ### C68: planar facets are left alone -/

/-- C68: if all facets of the mesh are planar, no vertex is moved: the result consists of the facets cut into pieces, and the
planes contain the vertices of the pieces.  There is no limit on the number of vertices of a facet. -/
theorem C68_unchanged (facets : List (List HP3)) (out : List (HS3 × List HP3)) (hw : FiniteMesh facets)
    (h : repairMesh facets = some out) (hpl : ∀ f ∈ facets, PlanarFacet f) :
    (∃ cuts : List (List (List Q3 × List Q3)), List.Forall₂ (fun f c => Fan (f.map HP3.pt) c) facets cuts ∧
      out.map (fun x => x.2.map HP3.pt) = cuts.flatten.map (fun c => c.1 ++ c.2.reverse)) ∧
    ∀ x ∈ out, ∀ v ∈ x.2, v.w ≠ 0 ∧ x.1.side v.pt = 0 := by
  obtain ⟨s, st, orig, pss, hf, hst, k1, k2, k4, rfl, k6, k7⟩ := repair_core hw h
  obtain ⟨d1, orig', d2, d3, d4⟩ := hf.still (orig := []) Keyed.start rfl hw hpl (by simp) rfl
  simp only [List.nil_append] at d2 d3 d4
  have hsame : s.storage = st := by
    have : ∀ {a b : List VInfo}, List.Forall₂ (fun v v' : VInfo => (if v.adjacent.length ≠ 3 then v.finalize else some v) = some v') a b →
        (∀ v ∈ a, v.Still) → a = b := by
      intro a b h
      induction h with
      | nil => simp
      | @cons v v' a b hv _ ih =>
        intro hs
        rw [ih (fun v hv => hs v (by simp [hv]))]
        have hvs := hs v (by simp)
        split at hv
        · rw [VInfo.finalize_still hvs.1 hvs.2 hv]
        · simp at hv; rw [hv]
    exact this hst d1
  subst hsame
  have horig : orig' = orig := by
    -- both list the points of the vertices
    apply List.ext_getElem?
    intro i
    have hl : orig'.length = orig.length := by rw [← d3, ← k2]; simp
    by_cases hi : i < orig.length
    · obtain ⟨r, hr, -⟩ := k1.canon i orig[i] (List.getElem?_eq_getElem hi)
      rw [(d2.key r i hr).2, (k1.key r i hr).2]
    · rw [List.getElem?_eq_none (by omega), List.getElem?_eq_none (by omega)]
  subst horig
  have hpt : ∀ i < s.storage.length, orig'[i]? = some (pointAt s.storage i).pt := by
    intro i hi
    obtain ⟨v, hv, he⟩ := pointAt_mem hi
    rw [← d3, List.getElem?_map, hv, he]; rfl
  refine ⟨⟨pss.map (fun ps => (pieces ps).map fun c => (c.1.map (fun i => (pointAt s.storage i).pt), c.2.map (fun i => (pointAt s.storage i).pt))), ?_, ?_⟩, ?_⟩
  · rw [List.forall₂_map_right_iff]
    refine k4.imp ?_
    rintro f ps ⟨⟨l, hl, hfan⟩, -⟩
    have : f.map HP3.pt = l.map (fun i => (pointAt s.storage i).pt) := by
      have h1 : l.map (fun i => some (pointAt s.storage i).pt) = (f.map HP3.pt).map some := by
        rw [← hl]
        apply List.map_congr_left
        intro i hi
        have : orig'[i]? ∈ (f.map HP3.pt).map some := by rw [← hl]; exact List.mem_map_of_mem (f := fun i => orig'[i]?) hi
        obtain ⟨x, -, hx⟩ := List.mem_map.1 this
        rw [hpt i (by rw [k2]; exact (List.getElem?_eq_some_iff.1 hx.symm).1)]
      have h2 : (l.map (fun i => (pointAt s.storage i).pt)).map some = (f.map HP3.pt).map some := by rw [← h1]; simp
      exact (List.map_injective_iff.2 (Option.some_injective _) h2).symm
    rw [this]
    exact hfan.map _
  · simp [List.map_flatten, List.map_map, Function.comp_def, written, pieces]
  · intro y hy v hv
    obtain ⟨x, hx, rfl⟩ := List.mem_map.1 hy
    obtain ⟨i, hi, rfl⟩ := List.mem_map.1 hv
    have hlt := k6 x hx i hi
    obtain ⟨u, hu, he⟩ := pointAt_mem hlt
    refine ⟨by rw [he]; exact (d1 u (List.mem_of_getElem? hu)).1, d4 x hx i hi _ (hpt i hlt)⟩

/-! ### Witnesses -/

/-- A finite point with integer coordinates. -/
def ipt (x y z : Int) : HP3 := ⟨⟨x, y, z⟩, 1⟩

/-- A closed mesh: a tetrahedron, and a pentagon whose back is cut into triangles. -/
def pentagonMesh : List (List HP3) :=
  let v0 := ipt 0 0 0; let v1 := ipt 4 0 0; let v2 := ipt 5 3 1; let v3 := ipt 2 5 0; let v4 := ipt (-1) 3 0
  [[v0, v1, v4], [v0, v2, v1], [v0, v4, v2], [v1, v2, v4], [v0, v1, v2, v3, v4], [v0, v2, v1], [v0, v3, v2], [v0, v4, v3]]

/-- C54 fails for facets with five vertices: the vertices that a piece has from the end of the facet are in reverse order.  So
the edges are not those of the facet, and a closed mesh becomes one that is not closed. -/
theorem C54_order_false : FiniteMesh pentagonMesh ∧ (∀ f, Antisymmetric f → edgeSum f pentagonMesh = 0) ∧
    ∃ out, repairMesh pentagonMesh = some out ∧
      [ipt 0 0 0, ipt 4 0 0, ipt (-1) 3 0, ipt 2 5 0] ∈ out.map (·.2) ∧
      ∃ f, Antisymmetric f ∧ edgeSum f (out.map (·.2)) ≠ 0 := by
  refine ⟨by unfold FiniteMesh; decide, ?_, ?_⟩
  · intro f hf
    simp only [pentagonMesh, edgeSum, List.map_cons, List.map_nil, loopSum, List.sum_cons, List.sum_nil]
    generalize (ipt 0 0 0).pt = v0
    generalize (ipt 4 0 0).pt = v1
    generalize (ipt 5 3 1).pt = v2
    generalize (ipt 2 5 0).pt = v3
    generalize (ipt (-1) 3 0).pt = v4
    simp only [List.cons_append, List.nil_append, pathSum]
    linarith [hf v0 v1, hf v0 v2, hf v0 v3, hf v0 v4, hf v1 v2, hf v1 v3, hf v1 v4, hf v2 v3, hf v2 v4, hf v3 v4]
  · refine ⟨_, Option.some_get (by decide +kernel : (repairMesh pentagonMesh).isSome) |>.symm, ?_, ?_⟩
    · decide +kernel
    · exact ⟨fun a b => a 0 * b 1 - a 1 * b 0, fun a b => by ring, by decide +kernel⟩

/-- A vertex `(3, 4, 1)` in three triangles, and a facet in the plane `z = 0` apart from that vertex. -/
def staleMesh : List (List HP3) :=
  [[ipt 3 4 1, ipt 4 4 2, ipt 3 5 2], [ipt 3 4 1, ipt 3 5 2, ipt 2 4 3], [ipt 3 4 1, ipt 2 4 3, ipt 4 4 2],
    [ipt 0 0 0, ipt 3 0 0, ipt 6 1 0, ipt 3 4 1, ipt 0 3 0]]

/-- C66 fails for facets with five vertices: the polygon gets the plane `z = 0` although it has the vertex `(3, 4, 1)`. -/
theorem C66_stale_false : FiniteMesh staleMesh ∧ ∃ out, repairMesh staleMesh = some out ∧
    (∀ x ∈ out, ∀ v ∈ x.2, v.w ≠ 0) ∧
    ∃ x ∈ out, ipt 3 4 1 ∈ x.2 ∧ (∀ q, x.1.side q = 0 ↔ q 2 = 0) := by
  refine ⟨by unfold FiniteMesh; decide, _, Option.some_get (by decide +kernel : (repairMesh staleMesh).isSome) |>.symm, by decide +kernel, ?_⟩
  refine ⟨(⟨⟨0, 0, 1⟩, 0⟩, [ipt 0 0 0, ipt 3 0 0, ipt 6 1 0, ipt 3 4 1, ipt 0 3 0]), by decide +kernel, by decide, ?_⟩
  intro q
  simp [HS3.side, dotQ, V3.q, V3.comp]

/-- A vertex at the origin that belongs to facets in the planes `x = 0` and `y = 0`, and to one whose other vertices are in the
plane `x + y = 1`. -/
def parallelMesh : List (List HP3) :=
  [[ipt 0 0 0, ipt 0 1 0, ipt 0 1 5], [ipt 0 0 0, ipt 1 0 0, ipt 1 0 3], [ipt 1 0 0, ipt 0 1 5, ipt 0 0 0, ipt 0 1 0]]

/-- C66 fails if the planes of a vertex have a common direction: the vertex is moved to infinity. -/
theorem C66_infinite_false : FiniteMesh parallelMesh ∧ (∀ f ∈ parallelMesh, f.length ≤ 4) ∧
    ∃ out, repairMesh parallelMesh = some out ∧ ∃ x ∈ out, ∃ v ∈ x.2, v.w = 0 :=
  ⟨by unfold FiniteMesh; decide, by decide, _, Option.some_get (by decide +kernel : (repairMesh parallelMesh).isSome) |>.symm, by decide +kernel⟩

/-- C66: a facet that starts with three vertices on a line is not repaired: the code divides by zero. -/
theorem C66_collinear_undefined : repairMesh [[ipt 0 0 0, ipt 1 0 0, ipt 2 0 0]] = none := by decide +kernel

/-- A box one of whose vertices is moved off two of the faces. -/
def bentBox : List (List HP3) :=
  [[ipt 0 0 0, ipt 0 4 0, ipt 4 4 1, ipt 4 0 0], [ipt 0 0 4, ipt 4 0 4, ipt 4 4 4, ipt 0 4 4],
    [ipt 0 0 0, ipt 4 0 0, ipt 4 0 4, ipt 0 0 4], [ipt 4 0 0, ipt 4 4 1, ipt 4 4 4, ipt 4 0 4],
    [ipt 4 4 1, ipt 0 4 0, ipt 0 4 4, ipt 4 4 4], [ipt 0 4 0, ipt 0 0 0, ipt 0 0 4, ipt 0 4 4]]

/-- The hypotheses of `C67_vertices`, `C54_edges_partial`, `C54_closed_partial` and `C66_planar_partial` are met: the bent box
is repaired to a box. -/
example : FiniteMesh bentBox ∧ (∀ f ∈ bentBox, f.length ≤ 4) ∧ (∀ f, Antisymmetric f → edgeSum f bentBox = 0) ∧
    ∃ out, repairMesh bentBox = some out ∧ (∀ x ∈ out, ∀ v ∈ x.2, v.w ≠ 0) ∧
    (⟨⟨0, 0, -1⟩, 0⟩, [ipt 0 0 0, ipt 0 4 0, ipt 4 4 0, ipt 4 0 0]) ∈ out := by
  refine ⟨by unfold FiniteMesh; decide, by decide, ?_, _, Option.some_get (by decide +kernel : (repairMesh bentBox).isSome) |>.symm, by decide +kernel,
    by decide +kernel⟩
  intro f hf
  simp only [bentBox, edgeSum, List.map_cons, List.map_nil, loopSum, List.sum_cons, List.sum_nil]
  generalize (ipt 0 0 0).pt = a
  generalize (ipt 4 0 0).pt = b
  generalize (ipt 4 4 1).pt = c
  generalize (ipt 0 4 0).pt = d
  generalize (ipt 0 0 4).pt = a'
  generalize (ipt 4 0 4).pt = b'
  generalize (ipt 4 4 4).pt = c'
  generalize (ipt 0 4 4).pt = d'
  simp only [List.cons_append, List.nil_append, pathSum]
  linarith [hf a b, hf b c, hf c d, hf d a, hf a' b', hf b' c', hf c' d', hf d' a', hf a a', hf b b', hf c c', hf d d']

/-- The hypotheses of `C68_unchanged` are met by a pentagon and a quadrilateral; the points have different representations. -/
example : ∃ facets out, FiniteMesh facets ∧ repairMesh facets = some out ∧ (∀ f ∈ facets, PlanarFacet f) ∧
    facets.map List.length = [5, 4] := by
  refine ⟨[[ipt 0 0 0, ipt 4 0 0, ipt 5 3 0, ipt 2 5 0, ipt (-1) 3 0], [⟨⟨8, 0, 0⟩, 2⟩, ipt 0 0 0, ipt 0 0 4, ipt 4 0 4]], _, by unfold FiniteMesh; decide,
    Option.some_get (by decide +kernel) |>.symm, ?_, rfl⟩
  intro f hf
  simp only [List.mem_cons, List.not_mem_nil, or_false] at hf
  rcases hf with rfl | rfl
  · exact ⟨⟨⟨0, 0, 1⟩, 0⟩, by decide, by decide +kernel⟩
  · exact ⟨⟨⟨0, 1, 0⟩, 0⟩, by decide, by decide +kernel⟩

end Walnut.Props
