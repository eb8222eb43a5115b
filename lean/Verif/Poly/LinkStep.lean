/-
`TryMergeEdge` for connected polygons.
-/
import Verif.Poly.LinkProof

namespace Walnut.Poly
open Walnut.Geom Walnut.Props Walnut.Mono

theorem setAt_same {α : Type} (f : Nat → α) (k : Nat) (v : α) : setAt f k v k = v := by unfold setAt; rw [if_pos rfl]
theorem setAt_other {α : Type} {f : Nat → α} {k : Nat} {v : α} {x : Nat} (h : x ≠ k) : setAt f k v x = f x := by
  unfold setAt; rw [if_neg h]

theorem mem_omit {P R : List (Nat × Q3 × Q3)} {e f : Nat} {A B B' C : Q3} {H : List (Nat × Q3 × Q3)}
    (hP : P.Perm ((e, A, B) :: (f, B', C) :: H)) (hR : R.Perm ((e, A, C) :: H)) (nd : (P.map Prod.fst).Nodup) :
    (R.map Prod.fst).Nodup ∧ ∀ h, h ∈ R ↔ h = (e, A, C) ∨ (h ∈ P ∧ h.1 ≠ e ∧ h.1 ≠ f) := by
  have n1 := (hP.map Prod.fst).nodup_iff.1 nd
  simp only [List.map_cons, List.nodup_cons, List.mem_cons, not_or] at n1
  obtain ⟨⟨n0, n1⟩, n2, n3⟩ := n1
  constructor
  · rw [(hR.map Prod.fst).nodup_iff]
    simp only [List.map_cons, List.nodup_cons]
    exact ⟨n1, n3⟩
  · intro h
    rw [hR.mem_iff, hP.mem_iff, List.mem_cons, List.mem_cons, List.mem_cons]
    constructor
    · rintro (h1 | h1)
      · exact Or.inl h1
      · refine Or.inr ⟨Or.inr (Or.inr h1), ?_, ?_⟩
        · intro e0; exact n1 (e0 ▸ List.mem_map_of_mem h1)
        · intro e0; exact n2 (e0 ▸ List.mem_map_of_mem h1)
    · rintro (h1 | ⟨h1 | h1 | h1, h2, h3⟩)
      · exact Or.inl h1
      · rw [h1] at h2; exact absurd rfl h2
      · rw [h1] at h3; exact absurd rfl h3
      · exact Or.inr h1

/-- Labels determine half-edges. -/
theorem label_unique {l : List (Nat × Q3 × Q3)} (nd : (l.map Prod.fst).Nodup) {h k : Nat × Q3 × Q3} (h1 : h ∈ l) (h2 : k ∈ l)
    (e : h.1 = k.1) : h = k := List.inj_on_of_nodup_map nd h1 h2 e

/-- An edge is a half-edge. -/
theorem half_of_mem {P : Polygon Nat} {i : Nat} {g : Edge Nat} (h : P.edges[i]? = some g) :
    (g.data, P.pt i, P.pt ((i + 1) % P.count)) ∈ halfEdges P.edges := mem_halfEdges.2 ⟨i, g, h, rfl, rfl, rfl⟩

namespace Linked
variable {W : World}

theorem labels (hL : Linked W) (p : Nat) : ((W.polys p).edges.map (·.data)).Nodup := by
  rw [← halfEdges_labels]; exact hL.once p

theorem convex_of (hL : Linked W) {p i : Nat} {e : Edge Nat} (he : (W.polys p).edges[i]? = some e) : IsConvexPolygon (W.polys p) := by
  rcases hL.convex p with h | h
  · rw [h] at he; simp at he
  · exact h

theorem half (_ : Linked W) {p i : Nat} {e f : Edge Nat} (he : (W.polys p).edges[i]? = some e)
    (hf : (W.polys p).edges[(i + 1) % (W.polys p).count]? = some f) :
    (e.data, e.vertex.pt, f.vertex.pt) ∈ halfEdges (W.polys p).edges :=
  mem_halfEdges.2 ⟨i, e, he, rfl, (pt_get he).1, (pt_get hf).1⟩

theorem own_edge (hL : Linked W) {p i : Nat} {e : Edge Nat} (he : (W.polys p).edges[i]? = some e) : W.owner e.data = p :=
  hL.own p _ _ _ (mem_halfEdges.2 ⟨i, e, he, rfl, rfl, rfl⟩)

theorem index_eq (hL : Linked W) {p i : Nat} {e : Edge Nat} (he : (W.polys p).edges[i]? = some e) :
    W.index e.data = some i ∧ W.edge e.data = some e := by
  have h1 : W.index e.data = some i := by
    unfold World.index
    rw [hL.own_edge he]
    exact findIdx_label (hL.labels p) he
  refine ⟨h1, ?_⟩
  unfold World.edge
  rw [h1, hL.own_edge he]
  exact he

end Linked

/-- A half-edge without a partner. -/
def Open (W : World) (x : Nat) (A B : Q3) : Prop := (∃ p, (x, A, B) ∈ halfEdges (W.polys p).edges) ∧ W.partner x = none

/-- A half-edge of polygon `p` has a partner in polygon `q`. -/
def Adj (W : World) (p q : Nat) : Prop :=
  ∃ x A B y, (x, A, B) ∈ halfEdges (W.polys p).edges ∧ W.partner x = some y ∧ W.owner y = q

/-- The half-edge `f` goes straight on from the half-edge `e`, and was united with it. -/
def OpenJoin (O O' : Nat → Q3 → Q3 → Prop) (e f : Nat) : Prop :=
  ∃ A B C, O e A B ∧ O f B C ∧ e ≠ f ∧ Beyond A B C ∧ ∀ x P Q, O' x P Q ↔ (x = e ∧ P = A ∧ Q = C) ∨ (O x P Q ∧ x ≠ e ∧ x ≠ f)

/-- What `TryMergeEdge` did at edge `e`, whose next edge `f` is at index `next`: `m` is the
returned value. -/
structure EdgeMerged (W W' : World) (p next : Nat) (e f : Nat) (m : Bool) : Prop where
  linked : Linked W'
  regions : ∀ r, (W'.polys r).region = (W.polys r).region ∧ (W'.polys r).plane = (W.polys r).plane
  sub : ∀ r, (W'.polys r).edges.Sublist (W.polys r).edges
  nonempty : ∀ r, (W'.polys r).edges = [] → (W.polys r).edges = []
  full : NoOpenEdge W → NoOpenEdge W'
  even : EvenLines W → EvenLines W'
  edges : (W'.polys p).edges = if m then (W.polys p).edges.eraseIdx next else (W.polys p).edges
  owner : W'.owner = W.owner
  others : ∀ z, W.owner z = p → z ≠ e → z ≠ f → W'.partner z = W.partner z
  adj : ∀ r s, Adj W' r s → Adj W r s
  opens : (∀ x A B, Open W' x A B ↔ Open W x A B) ∨ OpenJoin (Open W) (Open W') e f
  status : ∀ r, ∀ g ∈ (W'.polys r).edges, (W'.partner g.data = none ↔ W.partner g.data = none)

/-- Each half-edge begins like one of the former ones and ends like one of them. -/
theorem even_of_cover {W W' : World}
    (h : ∀ p x A B, (x, A, B) ∈ halfEdges (W'.polys p).edges →
      (∃ q y C, (y, A, C) ∈ halfEdges (W.polys q).edges ∧ (C = B ∨ Beyond A C B) ∧ (W'.partner x = none ↔ W.partner y = none)) ∧
      (∃ q y C, (y, C, B) ∈ halfEdges (W.polys q).edges ∧ (C = A ∨ Beyond A C B) ∧ (W'.partner x = none ↔ W.partner y = none)))
    (hE : EvenLines W) : EvenLines W' := by
  intro p q x y A B C hx hy hb
  obtain ⟨-, p1, x1, A1, h1, h2, h3⟩ := h p x A B hx
  obtain ⟨⟨q1, y1, C1, k1, k2, k3⟩, -⟩ := h q y B C hy
  rw [h3, k3]
  exact hE p1 q1 x1 y1 A1 B C1 h1 k1 (hb.shrink h2 k2)

/-- Without a link of the second edge nothing but the vertex is removed. -/
theorem tryMergeEdge_open {W : World} {p i n : Nat} {e f : Edge Nat} (he : (W.polys p).edges[i]? = some e)
    (hf : (W.polys p).edges[(i + 1) % (W.polys p).count]? = some f) (hs : World.straight e f = true) (hn : W.partner f.data = none) :
    World.tryMergeEdge (n + 1) W p i =
      some (true, { W with polys := setAt W.polys p { W.polys p with edges := (W.polys p).edges.eraseIdx ((i + 1) % (W.polys p).count) } }) := by
  have hc : W.canMerge e f = some true := by
    unfold World.canMerge
    rw [if_pos hs, hn]
    cases W.partner e.data <;> rfl
  rw [World.tryMergeEdge]
  simp only [he, hf, hc, hn, Option.bind_eq_bind, Option.bind_some, if_true]

theorem erase_next_nonempty {P : Polygon Nat} (h : 3 ≤ P.count) (i : Nat) : P.edges.eraseIdx i ≠ [] := by
  intro e
  have := List.length_eraseIdx (l := P.edges) (i := i)
  rw [e] at this
  unfold Polygon.count at h
  simp at this
  split at this <;> omega

/-- Both edges are not linked. -/
theorem edge_none {W : World} (hL : Linked W) (hM : NoMinWorld W) {p i n : Nat} {e f : Edge Nat} (he : (W.polys p).edges[i]? = some e)
    (hf : (W.polys p).edges[(i + 1) % (W.polys p).count]? = some f) (hs : World.straight e f = true)
    (h1 : W.partner e.data = none) (h2 : W.partner f.data = none) :
    ∃ W', World.tryMergeEdge (n + 1) W p i = some (true, W') ∧
      EdgeMerged W W' p ((i + 1) % (W.polys p).count) e.data f.data true := by
  have cv := hL.convex_of he
  have me := (hM p).2 e (List.mem_of_getElem? he)
  have mf := (hM p).2 f (List.mem_of_getElem? hf)
  obtain ⟨r1, r2, C, H, hb, r3, r4⟩ := erase_spec cv he hf me mf hs
  obtain ⟨nd, mem⟩ := mem_omit r3 r4 (hL.once p)
  have hhe := hL.half he hf
  have hhf : (f.data, f.vertex.pt, C) ∈ halfEdges (W.polys p).edges := r3.mem_iff.2 (by simp)
  refine ⟨_, tryMergeEdge_open he hf hs h2, ?_⟩
  set next := (i + 1) % (W.polys p).count with hnext
  have mem' : ∀ r h, h ∈ halfEdges (setAt W.polys p { W.polys p with edges := (W.polys p).edges.eraseIdx next } r).edges →
      (r = p ∧ h = (e.data, e.vertex.pt, C)) ∨ (h ∈ halfEdges (W.polys r).edges ∧ h.1 ≠ e.data ∧ h.1 ≠ f.data) := by
    intro r h hh
    by_cases hr : r = p
    · subst hr
      rw [setAt_same] at hh
      rcases (mem h).1 hh with h' | h'
      · exact Or.inl ⟨rfl, h'⟩
      · exact Or.inr h'
    · rw [setAt_other hr] at hh
      refine Or.inr ⟨hh, ?_, ?_⟩
      · intro e0
        exact hr ((hL.own r h.1 h.2.1 h.2.2 hh).symm.trans (e0 ▸ hL.own_edge he))
      · intro e0
        exact hr ((hL.own r h.1 h.2.1 h.2.2 hh).symm.trans (e0 ▸ hL.own_edge hf))
  have mem'' : ∀ r h, h ∈ halfEdges (W.polys r).edges → h.1 ≠ e.data → h.1 ≠ f.data →
      h ∈ halfEdges (setAt W.polys p { W.polys p with edges := (W.polys p).edges.eraseIdx next } r).edges := by
    intro r h hh n1 n2
    by_cases hr : r = p
    · subst hr
      rw [setAt_same]
      exact (mem h).2 (Or.inr ⟨hh, n1, n2⟩)
    · rwa [setAt_other hr]
  refine ⟨⟨?_, ?_, ?_, ?_⟩, ?_, ?_, ?_, ?_, ?_, ?_, rfl, fun _ _ _ _ => rfl, ?_, Or.inr ⟨e.vertex.pt, f.vertex.pt, C, ⟨⟨p, hhe⟩, h1⟩, ⟨⟨p, hhf⟩, h2⟩, ?_, hb, ?_⟩, fun _ _ _ => Iff.rfl⟩
  · intro r
    dsimp only
    by_cases hr : r = p
    · subst hr; rw [setAt_same]; exact Or.inr r1
    · rw [setAt_other hr]; exact hL.convex r
  · intro r
    dsimp only
    by_cases hr : r = p
    · subst hr; rw [setAt_same]; exact nd
    · rw [setAt_other hr]; exact hL.once r
  · intro r x A B hh
    rcases mem' r _ hh with ⟨h3, h4⟩ | ⟨h3, -⟩
    · simp only [Prod.mk.injEq] at h4
      rw [h4.1, h3]; exact hL.own_edge he
    · exact hL.own r x A B h3
  · intro r x A B y hh hy
    rcases mem' r _ hh with ⟨h3, h4⟩ | ⟨h3, h4, h5⟩
    · simp only [Prod.mk.injEq] at h4
      dsimp only at hy
      rw [h4.1, h1] at hy; simp at hy
    · obtain ⟨t1, t2⟩ := hL.twin r x A B y h3 hy
      refine ⟨mem'' _ _ t1 ?_ ?_, t2⟩
      · rintro e0
        dsimp only at e0
        rw [e0, h1] at t2; simp at t2
      · rintro e0
        dsimp only at e0
        rw [e0, h2] at t2; simp at t2
  · intro r
    dsimp only
    by_cases hr : r = p
    · subst hr; rw [setAt_same]; exact ⟨r2, rfl⟩
    · rw [setAt_other hr]; exact ⟨rfl, rfl⟩
  · intro r
    dsimp only
    by_cases hr : r = p
    · subst hr; rw [setAt_same]; exact List.eraseIdx_sublist _ _
    · rw [setAt_other hr]
  · intro r
    dsimp only
    by_cases hr : r = p
    · subst hr; rw [setAt_same]
      intro h0
      exact absurd h0 (erase_next_nonempty cv.three _)
    · rw [setAt_other hr]; exact id
  · intro hF
    exact absurd h1 (hF p _ _ _ hhe)
  · refine even_of_cover fun r x A B hh => ?_
    rcases mem' r _ hh with ⟨h3, h4⟩ | ⟨h3, h4, h5⟩
    · simp only [Prod.mk.injEq] at h4
      obtain ⟨rfl, rfl, rfl⟩ := h4
      exact ⟨⟨p, _, _, hhe, Or.inr hb, Iff.rfl⟩, ⟨p, _, _, hhf, Or.inr hb, by dsimp only; rw [h1, h2]⟩⟩
    · exact ⟨⟨r, x, B, h3, Or.inl rfl, Iff.rfl⟩, ⟨r, x, A, h3, Or.inl rfl, Iff.rfl⟩⟩
  · dsimp only
    rw [setAt_same]; rfl
  · rintro r s ⟨x, A, B, y, hx, hy, ho⟩
    rcases mem' r _ hx with ⟨h3, h4⟩ | ⟨h3, h4, h5⟩
    · simp only [Prod.mk.injEq] at h4
      dsimp only at hy
      rw [h4.1, h1] at hy; simp at hy
    · exact ⟨x, A, B, y, h3, hy, ho⟩
  · have n1 := (r3.map Prod.fst).nodup_iff.1 (hL.once p)
    simp only [List.map_cons, List.nodup_cons, List.mem_cons, not_or] at n1
    exact n1.1.1
  · intro x P Q
    constructor
    · rintro ⟨⟨r, hx⟩, ho⟩
      rcases mem' r _ hx with ⟨h3, h4⟩ | ⟨h3, h4, h5⟩
      · simp only [Prod.mk.injEq] at h4
        exact Or.inl h4
      · exact Or.inr ⟨⟨⟨r, h3⟩, ho⟩, h4, h5⟩
    · rintro (⟨rfl, rfl, rfl⟩ | ⟨⟨⟨r, h3⟩, ho⟩, h4, h5⟩)
      · refine ⟨⟨p, ?_⟩, h1⟩
        dsimp only
        rw [setAt_same]
        exact (mem _).2 (Or.inl rfl)
      · exact ⟨⟨r, mem'' r _ h3 h4 h5⟩, ho⟩

/-- Both edges are linked. -/
theorem edge_some {W : World} (hL : Linked W) (hM : NoMinWorld W) {p i n : Nat} {e f : Edge Nat} (he : (W.polys p).edges[i]? = some e)
    (hf : (W.polys p).edges[(i + 1) % (W.polys p).count]? = some f) (hs : World.straight e f = true) {x y : Nat}
    (h1 : W.partner e.data = some x) (h2 : W.partner f.data = some y) :
    ∃ m W', World.tryMergeEdge (n + 2) W p i = some (m, W') ∧
      EdgeMerged W W' p ((i + 1) % (W.polys p).count) e.data f.data m ∧ (m = true ↔ W.owner x = W.owner y) := by
  have cv := hL.convex_of he
  have me := (hM p).2 e (List.mem_of_getElem? he)
  have mf := (hM p).2 f (List.mem_of_getElem? hf)
  obtain ⟨r1, r2, C, H, hb, r3, r4⟩ := erase_spec cv he hf me mf hs
  obtain ⟨nd, mem⟩ := mem_omit r3 r4 (hL.once p)
  have hhe := hL.half he hf
  have hhf : (f.data, f.vertex.pt, C) ∈ halfEdges (W.polys p).edges := r3.mem_iff.2 (by simp)
  obtain ⟨tx, px⟩ := hL.twin p _ _ _ _ hhe h1
  obtain ⟨ty, py⟩ := hL.twin p _ _ _ _ hhf h2
  have hef : e.data ≠ f.data := by
    have n1 := (r3.map Prod.fst).nodup_iff.1 (hL.once p)
    simp only [List.map_cons, List.nodup_cons, List.mem_cons, not_or] at n1
    exact n1.1.1
  by_cases hc : W.owner x = W.owner y
  swap
  · refine ⟨false, W, ?_, ⟨hL, fun _ => ⟨rfl, rfl⟩, fun _ => List.Sublist.refl _, fun _ h => h, id, id, rfl, rfl, fun _ _ _ _ => rfl,
      fun _ _ h => h, Or.inl fun _ _ _ => Iff.rfl, fun _ _ _ => Iff.rfl⟩, by simp [hc]⟩
    have : W.canMerge e f = some false := by
      unfold World.canMerge
      rw [if_pos hs, h1, h2]
      exact if_pos hc
    rw [World.tryMergeEdge]
    simp only [he, hf, this, Option.bind_eq_bind, Option.bind_some, Bool.false_eq_true, if_false]
  · generalize hcc : W.owner y = c at *
    rw [hc] at tx
    have hpc : p ≠ c := by
      rintro rfl
      exact no_reverse cv hhe tx
    obtain ⟨k, ey, gy, dy, ay, by'⟩ := mem_halfEdges.1 ty
    obtain ⟨k', ex, gx, dx, ax, -⟩ := mem_halfEdges.1 tx
    dsimp only at dy ay by' dx ax
    have cvc := hL.convex_of gy
    have n3 := cvc.three
    have hk : k' = (k + 1) % (W.polys c).count := by
      have i1 : k' < (W.polys c).count := (List.getElem?_eq_some_iff.1 gx).1
      have i2 : (k + 1) % (W.polys c).count < (W.polys c).count := Nat.mod_lt _ (by omega)
      have e0 := ax.trans by'.symm
      rcases Nat.lt_trichotomy k' ((k + 1) % (W.polys c).count) with h | h | h
      · exact absurd e0 (cvc.distinct _ _ h i2)
      · exact h
      · exact absurd e0.symm (cvc.distinct _ _ h i1)
    rw [hk] at gx ax
    rw [(pt_get gx).1] at ax
    rw [(pt_get gy).1] at ay
    have mx := (hM c).2 ex (List.mem_of_getElem? gx)
    have my := (hM c).2 ey (List.mem_of_getElem? gy)
    have hst : World.straight ey ex = true := by
      obtain ⟨t, q1, -⟩ := erase_next (by omega) gy gx
      cases t with
      | nil =>
        have := q1.perm.length_eq
        unfold Polygon.count at n3
        simp at this; omega
      | cons g t =>
        refine (straight_first cvc q1 my mx).2 ?_
        obtain ⟨K, k1, -⟩ := halfEdges_omit ey ex g t
        have : (ex.data, ex.vertex.pt, g.vertex.pt) ∈ halfEdges (W.polys c).edges := by
          rw [(halfEdges_rotated q1).mem_iff, k1]; simp
        have := label_unique (hL.once c) this tx dx
        simp only [Prod.mk.injEq] at this
        rw [this.2.2, ax, ay]
        exact hb.symm
    obtain ⟨s1, s2, A', K, -, s3, s4⟩ := erase_spec cvc gy gx my mx hst
    obtain ⟨ndc, memc⟩ := mem_omit s3 s4 (hL.once c)
    have hA : A' = e.vertex.pt := by
      have : (ex.data, ex.vertex.pt, A') ∈ halfEdges (W.polys c).edges := s3.mem_iff.2 (by simp)
      have := label_unique (hL.once c) this tx dx
      simp only [Prod.mk.injEq] at this
      exact this.2.2
    subst hA
    have ox : W.owner x = c := hc
    have oe : W.owner e.data = p := hL.own_edge he
    have of : W.owner f.data = p := hL.own_edge hf
    have xe : x ≠ e.data := by rintro h; rw [h, oe] at ox; exact hpc ox
    have xf : x ≠ f.data := by rintro h; rw [h, of] at ox; exact hpc ox
    have ye : y ≠ e.data := by rintro h; rw [h, oe] at hcc; exact hpc hcc
    have yf : y ≠ f.data := by rintro h; rw [h, of] at hcc; exact hpc hcc
    have xy : x ≠ y := by
      rintro rfl
      rw [px] at py
      exact hef (Option.some.inj py)
    obtain ⟨ix, exx⟩ := hL.index_eq gx
    obtain ⟨iy, eyy⟩ := hL.index_eq gy
    rw [dx] at ix exx
    rw [dy] at iy eyy
    have hcan : W.canMerge e f = some true := by
      unfold World.canMerge
      rw [if_pos hs, h1, h2]
      dsimp only
      rw [if_neg (by rw [ox, hcc]; simp), exx, eyy]
      exact if_pos ⟨px, hst⟩
    -- the links after the update
    set part := setAt (setAt (setAt (setAt W.partner x none) e.data (some y)) y (some e.data)) f.data none with hpart
    have pe : part e.data = some y := by rw [hpart, setAt_other hef, setAt_other ye.symm, setAt_same]
    have pf : part f.data = none := by rw [hpart, setAt_same]
    have pX : part x = none := by rw [hpart, setAt_other xf, setAt_other xy, setAt_other xe, setAt_same]
    have pY : part y = some e.data := by rw [hpart, setAt_other yf, setAt_same]
    have pz : ∀ z, z ≠ e.data → z ≠ f.data → z ≠ x → z ≠ y → part z = W.partner z := by
      intro z z1 z2 z3 z4
      rw [hpart, setAt_other z2, setAt_other z4, setAt_other z1, setAt_other z3]
    have inner := tryMergeEdge_open (W := { W with partner := part }) (n := n) gy gx hst (by dsimp only; rw [dx]; exact pX)
    have hidx : World.index { W with partner := part } y = some k := iy
    have hrun : World.tryMergeEdge (n + 2) W p i = some (true,
        ⟨setAt (setAt W.polys c { W.polys c with edges := (W.polys c).edges.eraseIdx ((k + 1) % (W.polys c).count) }) p
          { W.polys p with edges := (W.polys p).edges.eraseIdx ((i + 1) % (W.polys p).count) }, part, W.owner⟩) := by
      rw [World.tryMergeEdge]
      simp only [he, hf, hcan, h1, h2, Option.bind_eq_bind, Option.bind_some, if_true, ← hpart, hidx, hcc]
      rw [inner]
      simp only [Option.bind_some]
      rw [setAt_other hpc]
    set nextp := (i + 1) % (W.polys p).count with hnextp
    set nextc := (k + 1) % (W.polys c).count with hnextc
    set Ce : Polygon Nat := { W.polys c with edges := (W.polys c).edges.eraseIdx nextc } with hCe
    set Pe : Polygon Nat := { W.polys p with edges := (W.polys p).edges.eraseIdx nextp } with hPe
    refine ⟨true, ⟨setAt (setAt W.polys c Ce) p Pe, part, W.owner⟩, hrun, ?_, by simp [hc]⟩
    · have at_p : setAt (setAt W.polys c Ce) p Pe p = Pe := setAt_same _ _ _
      have at_c : setAt (setAt W.polys c Ce) p Pe c = Ce := by rw [setAt_other hpc.symm, setAt_same]
      have at_r : ∀ r, r ≠ p → r ≠ c → setAt (setAt W.polys c Ce) p Pe r = W.polys r := by
        intro r k1 k2; rw [setAt_other k1, setAt_other k2]
      have cases3 : ∀ (Q : Nat → Polygon Nat → Prop), Q p Pe → Q c Ce → (∀ r, r ≠ p → r ≠ c → Q r (W.polys r)) →
          ∀ r, Q r (setAt (setAt W.polys c Ce) p Pe r) := by
        intro Q q1 q2 q3 r
        by_cases k1 : r = p
        · subst k1; rw [at_p]; exact q1
        · by_cases k2 : r = c
          · subst k2; rw [at_c]; exact q2
          · rw [at_r r k1 k2]; exact q3 r k1 k2
      have mem' : ∀ r, ∀ h : Nat × Q3 × Q3, h ∈ halfEdges (setAt (setAt W.polys c Ce) p Pe r).edges →
          (r = p ∧ h = (e.data, e.vertex.pt, C)) ∨ (r = c ∧ h = (y, C, e.vertex.pt)) ∨
          (h ∈ halfEdges (W.polys r).edges ∧ h.1 ≠ e.data ∧ h.1 ≠ f.data ∧ h.1 ≠ x ∧ h.1 ≠ y) := by
        refine cases3 (fun r Q => ∀ h : Nat × Q3 × Q3, h ∈ halfEdges Q.edges →
          (r = p ∧ h = (e.data, e.vertex.pt, C)) ∨ (r = c ∧ h = (y, C, e.vertex.pt)) ∨
          (h ∈ halfEdges (W.polys r).edges ∧ h.1 ≠ e.data ∧ h.1 ≠ f.data ∧ h.1 ≠ x ∧ h.1 ≠ y)) ?_ ?_ ?_
        · intro h hh
          rcases (mem h).1 hh with h' | ⟨h3, h4, h5⟩
          · exact Or.inl ⟨rfl, h'⟩
          · have oh := hL.own p h.1 h.2.1 h.2.2 h3
            refine Or.inr (Or.inr ⟨h3, h4, h5, ?_, ?_⟩)
            · rintro e0; rw [e0, ox] at oh; exact hpc oh.symm
            · rintro e0; rw [e0, hcc] at oh; exact hpc oh.symm
        · intro h hh
          rcases (memc h).1 hh with h' | ⟨h3, h4, h5⟩
          · rw [dy, ay] at h'
            exact Or.inr (Or.inl ⟨rfl, h'⟩)
          · have oh := hL.own c h.1 h.2.1 h.2.2 h3
            refine Or.inr (Or.inr ⟨h3, ?_, ?_, dx ▸ h5, dy ▸ h4⟩)
            · rintro e0; rw [e0, oe] at oh; exact hpc oh
            · rintro e0; rw [e0, of] at oh; exact hpc oh
        · intro r k1 k2 h h3
          have oh := hL.own r h.1 h.2.1 h.2.2 h3
          refine Or.inr (Or.inr ⟨h3, ?_, ?_, ?_, ?_⟩)
          · rintro e0; rw [e0, oe] at oh; exact k1 oh.symm
          · rintro e0; rw [e0, of] at oh; exact k1 oh.symm
          · rintro e0; rw [e0, ox] at oh; exact k2 oh.symm
          · rintro e0; rw [e0, hcc] at oh; exact k2 oh.symm
      have mem'' : ∀ r, ∀ h : Nat × Q3 × Q3, h ∈ halfEdges (W.polys r).edges → h.1 ≠ e.data → h.1 ≠ f.data → h.1 ≠ x → h.1 ≠ y →
          h ∈ halfEdges (setAt (setAt W.polys c Ce) p Pe r).edges := by
        intro r h hh n1 n2 nx ny
        by_cases k1 : r = p
        · subst k1; rw [at_p]; exact (mem h).2 (Or.inr ⟨hh, n1, n2⟩)
        · by_cases k2 : r = c
          · subst k2; rw [at_c]; exact (memc h).2 (Or.inr ⟨hh, by rw [dy]; exact ny, by rw [dx]; exact nx⟩)
          · rw [at_r r k1 k2]; exact hh
      refine ⟨⟨?_, ?_, ?_, ?_⟩, ?_, ?_, ?_, ?_, ?_, ?_, rfl, ?_, ?_, Or.inl ?_, ?_⟩
      · exact cases3 (fun _ Q => Q.edges = [] ∨ IsConvexPolygon Q) (Or.inr r1) (Or.inr s1) (fun r _ _ => hL.convex r)
      · exact cases3 (fun _ Q => ((halfEdges Q.edges).map Prod.fst).Nodup) nd ndc (fun r _ _ => hL.once r)
      · intro r z A B hh
        rcases mem' r _ hh with ⟨h3, h4⟩ | ⟨h3, h4⟩ | ⟨h3, -⟩
        · simp only [Prod.mk.injEq] at h4
          rw [h4.1, h3]; exact oe
        · simp only [Prod.mk.injEq] at h4
          rw [h4.1, h3]; exact hcc
        · exact hL.own r z A B h3
      · intro r z A B w hh hw
        dsimp only at hw ⊢
        rcases mem' r _ hh with ⟨h3, h4⟩ | ⟨h3, h4⟩ | ⟨h3, z1, z2, z3, z4⟩
        · simp only [Prod.mk.injEq] at h4
          obtain ⟨rfl, rfl, rfl⟩ := h4
          rw [pe] at hw
          obtain rfl := Option.some.inj hw
          refine ⟨?_, pY⟩
          rw [hcc, at_c]
          refine (memc _).2 (Or.inl ?_)
          rw [dy, ay]
        · simp only [Prod.mk.injEq] at h4
          obtain ⟨rfl, rfl, rfl⟩ := h4
          rw [pY] at hw
          obtain rfl := Option.some.inj hw
          refine ⟨?_, pe⟩
          rw [oe, at_p]
          exact (mem _).2 (Or.inl rfl)
        · dsimp only at z1 z2 z3 z4
          rw [pz z z1 z2 z3 z4] at hw
          obtain ⟨t1, t2⟩ := hL.twin r z A B w h3 hw
          have w1 : w ≠ e.data := by rintro rfl; rw [h1] at t2; exact z3 (Option.some.inj t2).symm
          have w2 : w ≠ f.data := by rintro rfl; rw [h2] at t2; exact z4 (Option.some.inj t2).symm
          have w3 : w ≠ x := by rintro rfl; rw [px] at t2; exact z1 (Option.some.inj t2).symm
          have w4 : w ≠ y := by rintro rfl; rw [py] at t2; exact z2 (Option.some.inj t2).symm
          exact ⟨mem'' _ _ t1 w1 w2 w3 w4, by rw [pz w w1 w2 w3 w4]; exact t2⟩
      · exact cases3 (fun r Q => Q.region = (W.polys r).region ∧ Q.plane = (W.polys r).plane) ⟨r2, rfl⟩ ⟨s2, rfl⟩ (fun r _ _ => ⟨rfl, rfl⟩)
      · exact cases3 (fun r Q => Q.edges.Sublist (W.polys r).edges) (List.eraseIdx_sublist _ _) (List.eraseIdx_sublist _ _)
          (fun r _ _ => List.Sublist.refl _)
      · exact cases3 (fun r Q => Q.edges = [] → (W.polys r).edges = []) (fun h0 => absurd h0 (erase_next_nonempty cv.three _))
          (fun h0 => absurd h0 (erase_next_nonempty cvc.three _)) (fun r _ _ h0 => h0)
      · intro hF r z A B hh
        dsimp only
        rcases mem' r _ hh with ⟨h3, h4⟩ | ⟨h3, h4⟩ | ⟨h3, z1, z2, z3, z4⟩
        · simp only [Prod.mk.injEq] at h4
          rw [h4.1, pe]; simp
        · simp only [Prod.mk.injEq] at h4
          rw [h4.1, pY]; simp
        · dsimp only at z1 z2 z3 z4
          rw [pz z z1 z2 z3 z4]
          exact hF r z A B h3
      · refine even_of_cover fun r z A B hh => ?_
        dsimp only
        rcases mem' r _ hh with ⟨h3, h4⟩ | ⟨h3, h4⟩ | ⟨h3, z1, z2, z3, z4⟩
        · simp only [Prod.mk.injEq] at h4
          obtain ⟨rfl, rfl, rfl⟩ := h4
          exact ⟨⟨p, _, _, hhe, Or.inr hb, by rw [pe, h1]; simp⟩, ⟨p, _, _, hhf, Or.inr hb, by rw [pe, h2]⟩⟩
        · simp only [Prod.mk.injEq] at h4
          obtain ⟨rfl, rfl, rfl⟩ := h4
          exact ⟨⟨c, _, _, ty, Or.inr hb.symm, by rw [pY, py]; simp⟩, ⟨c, _, _, tx, Or.inr hb.symm, by rw [pY, px]⟩⟩
        · dsimp only at z1 z2 z3 z4
          exact ⟨⟨r, z, B, h3, Or.inl rfl, by rw [pz z z1 z2 z3 z4]⟩, ⟨r, z, A, h3, Or.inl rfl, by rw [pz z z1 z2 z3 z4]⟩⟩
      · dsimp only
        rw [at_p]; rfl
      · intro z oz z1 z2
        refine pz z z1 z2 ?_ ?_
        · rintro rfl; rw [ox] at oz; exact hpc oz.symm
        · rintro rfl; rw [hcc] at oz; exact hpc oz.symm
      · rintro r s ⟨z, A, B, w, hz, hw, ho⟩
        dsimp only at hw ho
        rcases mem' r _ hz with ⟨h3, h4⟩ | ⟨h3, h4⟩ | ⟨h3, z1, z2, z3, z4⟩
        · simp only [Prod.mk.injEq] at h4
          obtain ⟨rfl, rfl, rfl⟩ := h4
          rw [pe] at hw
          obtain rfl := Option.some.inj hw
          rw [h3]
          exact ⟨_, _, _, y, hhf, h2, ho⟩
        · simp only [Prod.mk.injEq] at h4
          obtain ⟨rfl, rfl, rfl⟩ := h4
          rw [pY] at hw
          obtain rfl := Option.some.inj hw
          rw [h3]
          exact ⟨_, _, _, f.data, ty, py, by rw [of, ← oe]; exact ho⟩
        · dsimp only at z1 z2 z3 z4
          rw [pz z z1 z2 z3 z4] at hw
          exact ⟨z, A, B, w, h3, hw, ho⟩
      · intro z A B
        constructor
        · rintro ⟨⟨r, hz⟩, ho⟩
          dsimp only at ho
          rcases mem' r _ hz with ⟨h3, h4⟩ | ⟨h3, h4⟩ | ⟨h3, z1, z2, z3, z4⟩
          · simp only [Prod.mk.injEq] at h4
            rw [h4.1, pe] at ho; cases ho
          · simp only [Prod.mk.injEq] at h4
            rw [h4.1, pY] at ho; cases ho
          · dsimp only at z1 z2 z3 z4
            rw [pz z z1 z2 z3 z4] at ho
            exact ⟨⟨r, h3⟩, ho⟩
        · rintro ⟨⟨r, hz⟩, ho⟩
          have z1 : z ≠ e.data := by rintro rfl; rw [h1] at ho; cases ho
          have z2 : z ≠ f.data := by rintro rfl; rw [h2] at ho; cases ho
          have z3 : z ≠ x := by rintro rfl; rw [px] at ho; cases ho
          have z4 : z ≠ y := by rintro rfl; rw [py] at ho; cases ho
          exact ⟨⟨r, mem'' r _ hz z1 z2 z3 z4⟩, by dsimp only; rw [pz z z1 z2 z3 z4]; exact ho⟩
      · intro r g hg
        obtain ⟨i', hi'⟩ := List.getElem?_of_mem hg
        have hz := half_of_mem hi'
        dsimp only
        rcases mem' r _ hz with ⟨h3, h4⟩ | ⟨h3, h4⟩ | ⟨h3, z1, z2, z3, z4⟩
        · simp only [Prod.mk.injEq] at h4
          rw [h4.1, pe, h1]; simp
        · simp only [Prod.mk.injEq] at h4
          rw [h4.1, pY, py]; simp
        · dsimp only at z1 z2 z3 z4
          rw [pz _ z1 z2 z3 z4]

/-- `TryMergeEdge` at a vertex where the boundary goes straight on. -/
theorem edge_merged {W : World} (hL : Linked W) (hM : NoMinWorld W) {p i n : Nat} {e f : Edge Nat} (he : (W.polys p).edges[i]? = some e)
    (hf : (W.polys p).edges[(i + 1) % (W.polys p).count]? = some f) (hs : World.straight e f = true)
    (hev : W.partner e.data = none ↔ W.partner f.data = none) :
    ∃ m W', World.tryMergeEdge (n + 2) W p i = some (m, W') ∧
      EdgeMerged W W' p ((i + 1) % (W.polys p).count) e.data f.data m := by
  cases h1 : W.partner e.data with
  | none =>
    obtain ⟨W', h3, h4⟩ := edge_none (n := n + 1) hL hM he hf hs h1 (hev.1 h1)
    exact ⟨true, W', h3, h4⟩
  | some x =>
    cases h2 : W.partner f.data with
    | none => rw [hev.2 h2] at h1; simp at h1
    | some y =>
      obtain ⟨m, W', h3, h4, -⟩ := edge_some (n := n) hL hM he hf hs h1 h2
      exact ⟨m, W', h3, h4⟩

end Walnut.Poly
