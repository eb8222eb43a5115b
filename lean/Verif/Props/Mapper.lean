/-
C81: exporting the vertices of a mesh as points with double coordinates.
-/
import Verif.Props.MapperRun
import Verif.Props.Around

namespace Walnut.Props
open Walnut.Util Walnut.Poly Walnut.Geom Relation

variable {δ : Type} [DecidableEq δ]

/-- Specification: the list contains all the edges of the mesh and nothing else.  The order
does not matter. -/
def AllEdges (W : World) (l : List Nat) : Prop := ∀ x, x ∈ l ↔ ∃ p A B, (x, A, B) ∈ halfEdges (W.polys p).edges

/-- Specification: the vertex of the edge `x` is exported as the value `r`. -/
def Exports (W : World) (D : HP3 → δ) (m : Mapper δ) (x r : Nat) : Prop :=
  ∃ e a, W.edge x = some e ∧ m.find (D e.vertex) = some a ∧ Accesses m.heap a r

/-- Specification: what one expects of an exported mesh.  Every vertex is exported as one
value.  All the edges around a vertex are exported as the same value.  Unless two different
points have the same double representation, different points are exported as different
values, and the coordinates of a value come from the exported point. -/
structure ExportedWell (W : World) (D : HP3 → δ) (l : List Nat) (m : Mapper δ) : Prop where
  value : ∀ x ∈ l, ∃! r, Exports W D m x r
  around : ∀ x ∈ l, ∀ k z, walk W k x = some z → ∀ r, Exports W D m x r ↔ Exports W D m z r
  apart : (∀ x ∈ l, ∀ y ∈ l, ∀ e f, W.edge x = some e → W.edge y = some f → D e.vertex = D f.vertex → e.vertex.pt = f.vertex.pt) →
    ∀ x ∈ l, ∀ e r, W.edge x = some e → Exports W D m x r →
      (∃ y ∈ l, ∃ f, W.edge y = some f ∧ m.find (D f.vertex) = some r ∧ f.vertex.pt = e.vertex.pt) ∧
      ∀ y ∈ l, ∀ f, W.edge y = some f → Exports W D m y r → f.vertex.pt = e.vertex.pt

/-- Specification: the merger makes all the objects that share a value with one of its
arguments share one value, and changes nothing else. -/
def Unites (merger : Nat → RHeap → Nat → Nat → Option RHeap) : Prop :=
  ∀ s a b, RInv s → (s a).isSome → (s b).isSome → ¬ SameValue s a b → UnitesAt merger s a b

theorem edge_of_half {W : World} (hL : Linked W) {p x : Nat} {A B : Q3} (hx : (x, A, B) ∈ halfEdges (W.polys p).edges) :
    ∃ e, W.edge x = some e ∧ e.vertex.pt = A := by
  obtain ⟨j, e, ge, de, hA, -⟩ := mem_halfEdges.1 hx
  dsimp only at de hA
  have ho := hL.own _ _ _ _ hx
  refine ⟨e, ?_, by rw [← hA, (pt_get ge).1]⟩
  unfold World.edge
  rw [show W.index x = some j by rw [← de]; exact (hL.index_eq ge).1, ho]
  exact ge

theorem usable_of_half {W : World} (hL : Linked W) {p x : Nat} {A B : Q3} (hx : (x, A, B) ∈ halfEdges (W.polys p).edges) : MapUsable W x := by
  obtain ⟨e, he, -⟩ := edge_of_half hL hx
  refine ⟨e, he, ?_⟩
  obtain ⟨h1, h2⟩ := C77_same_vertex hL hx
  cases hp : W.partner x with
  | none => exact Or.inl (h1 hp)
  | some y =>
    obtain ⟨z, C, h3, -, h4⟩ := h2 y hp
    obtain ⟨f, hf, -⟩ := edge_of_half hL h4
    exact Or.inr ⟨z, f, h3, hf⟩

/-- The next edge around a vertex is an edge of the mesh that starts at the same point. -/
theorem next_same {W : World} (hL : Linked W) {l : List Nat} (hl : AllEdges W l) {x y : Nat} (hx : x ∈ l) (hy : W.nextAround x = some (some y)) :
    y ∈ l ∧ ∃ e f, W.edge x = some e ∧ W.edge y = some f ∧ e.vertex.pt = f.vertex.pt := by
  obtain ⟨p, A, B, hx⟩ := (hl x).1 hx
  obtain ⟨e, he, hA⟩ := edge_of_half hL hx
  obtain ⟨h1, h2⟩ := C77_same_vertex hL hx
  cases hp : W.partner x with
  | none => rw [h1 hp] at hy; cases hy
  | some y' =>
    obtain ⟨z, C, h3, -, h4⟩ := h2 y' hp
    rw [hy, Option.some.injEq, Option.some.injEq] at h3
    subst h3
    obtain ⟨f, hf, hA'⟩ := edge_of_half hL h4
    exact ⟨(hl y).2 ⟨_, _, _, h4⟩, e, f, he, hf, by rw [hA, hA']⟩

/-- If different points have different double representations, related keys belong to equal points. -/
theorem eqv_points {W : World} (hL : Linked W) {D : HP3 → δ} {l : List Nat} (hl : AllEdges W l)
    (hD : ∀ x ∈ l, ∀ y ∈ l, ∀ e f, W.edge x = some e → W.edge y = some f → D e.vertex = D f.vertex → e.vertex.pt = f.vertex.pt) :
    ∀ u v, EqvGen (SeenPair W D l) u v → u = v ∨ ∃ y ∈ l, ∃ z ∈ l, ∃ f g, W.edge y = some f ∧ W.edge z = some g ∧
      D f.vertex = u ∧ D g.vertex = v ∧ f.vertex.pt = g.vertex.pt := by
  intro u v huv
  induction huv with
  | rel u v huv =>
    obtain ⟨y, hy, z, f, g, hf, hn, hg, rfl, rfl⟩ := huv
    obtain ⟨hz, f', g', hf', hg', hp⟩ := next_same hL hl hy hn
    rw [hf, Option.some.injEq] at hf'
    rw [hg, Option.some.injEq] at hg'
    subst hf' hg'
    exact Or.inr ⟨y, hy, z, hz, f, g, hf, hg, rfl, rfl, hp⟩
  | refl u => exact Or.inl rfl
  | symm u v _ ih =>
    rcases ih with ih | ⟨y, hy, z, hz, f, g, h1, h2, h3, h4, h5⟩
    · exact Or.inl ih.symm
    · exact Or.inr ⟨z, hz, y, hy, g, f, h2, h1, h4, h3, h5.symm⟩
  | trans u v w _ _ ih1 ih2 =>
    rcases ih1 with rfl | ⟨y, hy, z, hz, f, g, h1, h2, h3, h4, h5⟩
    · exact ih2
    · rcases ih2 with rfl | ⟨y', hy', z', hz', f', g', h1', h2', h3', h4', h5'⟩
      · exact Or.inr ⟨y, hy, z, hz, f, g, h1, h2, h3, h4, h5⟩
      · exact Or.inr ⟨y, hy, z', hz', f, g', h1, h2', h3, h4',
          h5.trans ((hD z hz y' hy' g f' h2 h1' (h4.trans h3'.symm)).trans h5')⟩

theorem exported_of_inv {W : World} (hL : Linked W) {D : HP3 → δ} {l : List Nat} (hl : AllEdges W l) {m : Mapper δ}
    (h : MInv m (SeenPoint W D l) (SeenPair W D l)) : ExportedWell W D l m := by
  have hent : ∀ x ∈ l, ∃ e a, W.edge x = some e ∧ m.find (D e.vertex) = some a ∧ (D e.vertex, a) ∈ m.map := by
    intro x hx
    obtain ⟨p, A, B, hx'⟩ := (hl x).1 hx
    obtain ⟨e, he, -⟩ := edge_of_half hL hx'
    obtain ⟨a, ha⟩ := (h.keys (D e.vertex)).2 ⟨x, hx, e, he, Or.inl rfl⟩
    exact ⟨e, a, he, h.found.2 ha, ha⟩
  have hex : ∀ x ∈ l, ∃ r, Exports W D m x r := by
    intro x hx
    obtain ⟨e, a, he, hf, ha⟩ := hent x hx
    obtain ⟨r, hr⟩ := h.inv.accesses a ((h.live a).2 (h.addr _ ha))
    exact ⟨r, e, a, he, hf, hr⟩
  have huniq : ∀ x r r', Exports W D m x r → Exports W D m x r' → r = r' := by
    rintro x r r' ⟨e, a, he, hf, hr⟩ ⟨e', a', he', hf', hr'⟩
    rw [he, Option.some.injEq] at he'
    subst he'
    rw [hf, Option.some.injEq] at hf'
    subst hf'
    exact hr.det hr'
  have hsame : ∀ x ∈ l, ∀ y ∈ l, ∀ e f, W.edge x = some e → W.edge y = some f →
      ((∃ r, Exports W D m x r ∧ Exports W D m y r) ↔ EqvGen (SeenPair W D l) (D e.vertex) (D f.vertex)) := by
    intro x hx y hy e f he hf
    obtain ⟨e', a, he', ha, ha'⟩ := hent x hx
    obtain ⟨f', b, hf', hb, hb'⟩ := hent y hy
    rw [he, Option.some.injEq] at he'
    subst he'
    rw [hf, Option.some.injEq] at hf'
    subst hf'
    rw [← h.same _ _ _ _ ha' hb']
    constructor
    · rintro ⟨r, ⟨e1, a1, k1, k2, k3⟩, ⟨e2, a2, k4, k5, k6⟩⟩
      rw [he, Option.some.injEq] at k1
      subst k1
      rw [hf, Option.some.injEq] at k4
      subst k4
      rw [ha, Option.some.injEq] at k2
      subst k2
      rw [hb, Option.some.injEq] at k5
      subst k5
      exact ⟨r, k3, k6⟩
    · rintro ⟨r, h1, h2⟩
      exact ⟨r, ⟨e, a, he, ha, h1⟩, ⟨f, b, hf, hb, h2⟩⟩
  refine ⟨fun x hx => ?_, ?_, ?_⟩
  · obtain ⟨r, hr⟩ := hex x hx
    exact ⟨r, hr, fun r' hr' => huniq _ _ _ hr' hr⟩
  · intro x hx k
    have key : ∀ k z, walk W k x = some z → z ∈ l ∧ ∃ e f, W.edge x = some e ∧ W.edge z = some f ∧
        EqvGen (SeenPair W D l) (D e.vertex) (D f.vertex) := by
      intro k
      induction k with
      | zero =>
        intro z hz
        have : z = x := by
          have : walk W 0 x = some x := rfl
          rw [this, Option.some.injEq] at hz
          exact hz.symm
        subst this
        obtain ⟨e, -, he, -⟩ := hent z hx
        exact ⟨hx, e, e, he, he, .refl _⟩
      | succ k ih =>
        intro z hz
        unfold walk at hz ih
        rw [Function.iterate_succ_apply', Option.bind_eq_some_iff] at hz
        obtain ⟨y, hy, hz⟩ := hz
        obtain ⟨hyl, e, f, he, hf, hef⟩ := ih y hy
        have hn : W.nextAround y = some (some z) := by
          cases hc : W.nextAround y with
          | none => rw [hc] at hz; cases hz
          | some o => rw [hc] at hz; exact congrArg some hz
        obtain ⟨hzl, f', g, hf', hg, -⟩ := next_same hL hl hyl hn
        rw [hf, Option.some.injEq] at hf'
        subst hf'
        exact ⟨hzl, e, g, he, hg, .trans _ _ _ hef (.rel _ _ ⟨y, hyl, z, f, g, hf, hn, hg, rfl, rfl⟩)⟩
    intro z hz r
    obtain ⟨hzl, e, f, he, hf, hef⟩ := key k z hz
    obtain ⟨r0, h1, h2⟩ := (hsame x hx z hzl e f he hf).2 hef
    constructor
    · intro hr; rw [huniq _ _ _ hr h1]; exact h2
    · intro hr; rw [huniq _ _ _ hr h2]; exact h1
  · intro hD x hx e r he hr
    have pts := eqv_points hL hl hD
    have pts' : ∀ y ∈ l, ∀ f, W.edge y = some f → EqvGen (SeenPair W D l) (D f.vertex) (D e.vertex) → f.vertex.pt = e.vertex.pt := by
      intro y hy f hf hfe
      rcases pts _ _ hfe with heq | ⟨y', hy', z', hz', f', g', h1, h2, h3, h4, h5⟩
      · exact hD y hy x hx f e hf he heq
      · exact (hD y hy y' hy' f f' hf h1 h3.symm).trans (h5.trans (hD z' hz' x hx g' e h2 he h4))
    refine ⟨?_, ?_⟩
    · obtain ⟨e', a, he', ha, hra⟩ := hr
      rw [he, Option.some.injEq] at he'
      subst he'
      obtain ⟨R, hR, hRr⟩ := hra.root
      obtain ⟨d, hd⟩ := h.all r ((h.live r).1 (by rw [hR]; rfl))
      have hKd := (h.keys d).1 ⟨r, hd⟩
      have : ∃ y ∈ l, ∃ f, W.edge y = some f ∧ d = D f.vertex := by
        obtain ⟨y, hy, f, hf, hdf⟩ := hKd
        rcases hdf with hdf | ⟨z, g, hn, hg, hdf⟩
        · exact ⟨y, hy, f, hf, hdf⟩
        · exact ⟨z, (next_same hL hl hy hn).1, g, hg, hdf⟩
      obtain ⟨y, hy, f, hf, rfl⟩ := this
      refine ⟨y, hy, f, hf, h.found.2 hd, pts' y hy f hf ?_⟩
      exact (h.same _ _ _ _ hd (h.found.1 ha)).1 ⟨r, .own r R hR hRr, hra⟩
    · intro y hy f hf hry
      exact pts' y hy f hf ((hsame y hy x hx f e hf he).1 ⟨r, hry, hr⟩)

theorem unites_inv {W : World} (hL : Linked W) (D : HP3 → δ) {l : List Nat} (hl : AllEdges W l)
    {merger : Nat → RHeap → Nat → Nat → Option RHeap} (hm : Unites merger) :
    ∃ N m, (∀ fuel, N ≤ fuel → Mapper.mapAll merger W D fuel Mapper.empty l = some m) ∧ MInv m (SeenPoint W D l) (SeenPair W D l) := by
  obtain ⟨N, m, h1, h2⟩ := mapAll_empty (merger := merger) (W := W) (D := D) l
    (fun x hx => by obtain ⟨p, A, B, hx⟩ := (hl x).1 hx; exact usable_of_half hL hx)
    (fun m K R h _ d a d' b ha hb _ hab => hm _ _ _ h.inv ((h.live _).2 (h.addr _ ha)) ((h.live _).2 (h.addr _ hb)) hab)
  exact ⟨N, m, h1, h2⟩

/-- Mapping all the edges of a mesh is defined, and the mesh is exported well, if the
merger makes everything merged so far share one value. -/
theorem C81_unites_partial {W : World} (hL : Linked W) (D : HP3 → δ) {l : List Nat} (hl : AllEdges W l)
    {merger : Nat → RHeap → Nat → Nat → Option RHeap} (hm : Unites merger) :
    ∃ N m, (∀ fuel, N ≤ fuel → Mapper.mapAll merger W D fuel Mapper.empty l = some m) ∧ ExportedWell W D l m := by
  obtain ⟨N, m, h1, h2⟩ := unites_inv hL D hl hm
  exact ⟨N, m, h1, exported_of_inv hL hl h2⟩

/-- A merger that redirects the primary of its first argument meets this. -/
theorem C81_primary : Unites primaryMerger := fun _ _ _ hi ha hb hab => primary_unites hi ha hb hab

theorem two_inv {W : World} (hL : Linked W) (D : HP3 → δ) {l : List Nat} (hl : AllEdges W l)
    (h2 : ∀ u v w, EqvGen (SeenPair W D l) u v → EqvGen (SeenPair W D l) v w → u = v ∨ v = w ∨ u = w) :
    ∃ N m, (∀ fuel, N ≤ fuel → Mapper.mapAll redirectMerger W D fuel Mapper.empty l = some m) ∧ MInv m (SeenPoint W D l) (SeenPair W D l) := by
  obtain ⟨N, m, h3, h4⟩ := mapAll_empty (merger := redirectMerger) (W := W) (D := D) l
    (fun x hx => by obtain ⟨p, A, B, hx⟩ := (hl x).1 hx; exact usable_of_half hL hx)
    (fun m K R h hR d a d' b ha hb hdd hab => by
      refine redirect_unites h.inv ?_ ((h.live _).2 (h.addr _ hb)) hab
      obtain ⟨r, hr⟩ := h.inv.accesses a ((h.live _).2 (h.addr _ ha))
      obtain ⟨S, hS, hSr⟩ := hr.root
      have hrr : Accesses m.heap r r := .own r S hS hSr
      obtain ⟨c, hc⟩ := h.all r ((h.live r).1 (by rw [hS]; rfl))
      have hcd : EqvGen (SeenPair W D l) c d := ((h.same _ _ _ _ hc ha).1 ⟨r, hrr, hr⟩).mono hR
      have hne : d ≠ d' := by
        rintro rfl
        have := (Prod.mk.inj (h.key _ ha _ hb rfl)).2
        subst this
        exact hab ⟨r, hr, hr⟩
      have hcd' : c ≠ d' := by
        rintro rfl
        have := (Prod.mk.inj (h.key _ hc _ hb rfl)).2
        subst this
        exact hab ⟨r, hr, hrr⟩
      rcases h2 c d d' hcd (.rel _ _ hdd) with e | e | e
      · subst e
        have := (Prod.mk.inj (h.key _ hc _ ha rfl)).2
        subst this
        exact hr
      · exact absurd e hne
      · exact absurd e hcd')
  exact ⟨N, m, h3, h4⟩

/-- The merger of the VTK export does too, as long as there are at most two double
representations of a vertex. -/
theorem C81_two_partial {W : World} (hL : Linked W) (D : HP3 → δ) {l : List Nat} (hl : AllEdges W l)
    (h2 : ∀ u v w, EqvGen (SeenPair W D l) u v → EqvGen (SeenPair W D l) v w → u = v ∨ v = w ∨ u = w) :
    ∃ N m, (∀ fuel, N ≤ fuel → Mapper.mapAll redirectMerger W D fuel Mapper.empty l = some m) ∧ ExportedWell W D l m := by
  obtain ⟨N, m, h3, h4⟩ := two_inv hL D hl h2
  exact ⟨N, m, h3, exported_of_inv hL hl h4⟩

/-! ### The merger of the VTK export -/

/-- The face with another representation of its first vertex. -/
def otherApex (w : Int) (P : Polygon Nat) : Polygon Nat :=
  { P with edges := P.edges.modify 0 fun e => { e with vertex := ⟨e.vertex.v.scale w, w * e.vertex.w⟩ } }

/-- A pyramid over a pentagon.  The five sides represent the apex in three ways. -/
def pyramidFaces : List (Polygon Nat) :=
  [otherApex 1 (facePolygon 0 ⟨0, -2, 2⟩ 0 2 [⟨1, 1, 1⟩, ⟨0, 0, 0⟩, ⟨2, 0, 0⟩]),
   otherApex 3 (facePolygon 10 ⟨-1, 2, 4⟩ 5 2 [⟨1, 1, 1⟩, ⟨1, 3, 0⟩, ⟨-1, 2, 0⟩]),
   otherApex 2 (facePolygon 20 ⟨-2, -1, 3⟩ 0 2 [⟨1, 1, 1⟩, ⟨-1, 2, 0⟩, ⟨0, 0, 0⟩]),
   otherApex 3 (facePolygon 30 ⟨1, 2, 4⟩ 7 2 [⟨1, 1, 1⟩, ⟨3, 2, 0⟩, ⟨1, 3, 0⟩]),
   otherApex 2 (facePolygon 40 ⟨2, -1, 3⟩ 4 2 [⟨1, 1, 1⟩, ⟨2, 0, 0⟩, ⟨3, 2, 0⟩]),
   facePolygon 50 ⟨0, 0, -1⟩ 0 2 [⟨0, 0, 0⟩, ⟨-1, 2, 0⟩, ⟨1, 3, 0⟩, ⟨3, 2, 0⟩, ⟨2, 0, 0⟩]]

def pyramidLinks : List (Nat × Nat) :=
  [(0, 22), (1, 54), (2, 40), (10, 32), (11, 51), (12, 20), (21, 50), (30, 42), (31, 52), (41, 53)]

def pyramid : World := worldOf pyramidFaces pyramidLinks

/-- The edges in the order in which the export visits them. -/
def pyramidEdges : List Nat := [0, 1, 2, 10, 11, 12, 20, 21, 22, 30, 31, 32, 40, 41, 42, 50, 51, 52, 53, 54]

theorem pyramid_linked : Linked pyramid := linked_of_check (by decide +kernel)

theorem pyramid_closed : NoOpenEdge pyramid := by
  intro p x A B hx
  by_cases c : p < pyramidFaces.length
  · have : ∀ p, p < pyramidFaces.length → ∀ h ∈ halfEdges (pyramid.polys p).edges, pyramid.partner h.1 ≠ none := by decide +kernel
    exact this p c _ hx
  · unfold pyramid at hx
    rw [worldOf_empty c] at hx; exact absurd hx List.not_mem_nil

theorem pyramid_edges : AllEdges pyramid pyramidEdges := by
  intro x
  constructor
  · intro hx
    have : ∀ x ∈ pyramidEdges, ∃ p ∈ List.range 6, ∃ h ∈ halfEdges (pyramid.polys p).edges, h.1 = x := by decide +kernel
    obtain ⟨p, -, ⟨x', A, B⟩, h, rfl⟩ := this x hx
    exact ⟨p, A, B, h⟩
  · rintro ⟨p, A, B, h⟩
    by_cases c : p < pyramidFaces.length
    · have : ∀ p, p < pyramidFaces.length → ∀ h ∈ halfEdges (pyramid.polys p).edges, h.1 ∈ pyramidEdges := by decide +kernel
      exact this p c _ h
    · unfold pyramid at h
      rw [worldOf_empty c] at h; exact absurd h List.not_mem_nil

theorem accesses_of_loop {s : RHeap} (fuel : Nat) : ∀ {a r : Nat}, primaryLoop s fuel a = some r → Accesses s a r := by
  induction fuel with
  | zero => intro a r h; cases h
  | succ n ih =>
    intro a r h
    rw [primaryLoop] at h
    cases hA : s a with
    | none => rw [hA] at h; cases h
    | some A =>
      rw [hA] at h
      dsimp only at h
      split at h
      · rename_i he
        rw [Option.some.injEq] at h
        subst h
        exact .own a A hA he.symm
      · rename_i he
        exact .via a r A hA (Ne.symm he) (ih h)

/-- Computing what an edge is exported as. -/
def exportOf (W : World) (m : Mapper HP3) (x : Nat) : Option Nat :=
  (W.edge x).bind fun e => (m.find e.vertex).bind fun a => primaryConst m.heap 9 a

theorem exports_of {W : World} {m : Mapper HP3} {x r : Nat} (h : exportOf W m x = some r) : Exports W id m x r := by
  unfold exportOf at h
  rw [Option.bind_eq_some_iff] at h
  obtain ⟨e, he, h⟩ := h
  rw [Option.bind_eq_some_iff] at h
  obtain ⟨a, ha, h⟩ := h
  refine ⟨e, a, he, ha, ?_⟩
  unfold primaryConst at h
  cases hA : m.heap a with
  | none => rw [hA] at h; cases h
  | some A =>
    rw [hA] at h
    have := accesses_of_loop _ h
    by_cases hr : A.redirect = a
    · rw [hr] at this; exact this
    · exact .via a r A hA hr this

/-- The merger of the VTK export does not export a closed mesh well.  Two edges around one
vertex are exported as different points if a vertex has three double representations. -/
theorem C81_redirect_false :
    ∃ (W : World) (l : List Nat) (m : Mapper HP3), Linked W ∧ NoOpenEdge W ∧ AllEdges W l ∧
      Mapper.mapAll redirectMerger W id 9 Mapper.empty l = some m ∧
      ∃ x ∈ l, ∃ k z r r', walk W k x = some z ∧ Exports W id m x r ∧ Exports W id m z r' ∧ r ≠ r' := by
  have hd : ((Mapper.mapAll redirectMerger pyramid id 9 Mapper.empty pyramidEdges).bind fun m =>
      (exportOf pyramid m 0).bind fun r => (exportOf pyramid m 10).map fun r' => (r, r')) = some (0, 4) := by decide +kernel
  rw [Option.bind_eq_some_iff] at hd
  obtain ⟨m, hm, hd⟩ := hd
  rw [Option.bind_eq_some_iff] at hd
  obtain ⟨r, hr, hd⟩ := hd
  rw [Option.map_eq_some_iff] at hd
  obtain ⟨r', hr', hd⟩ := hd
  obtain ⟨rfl, rfl⟩ := Prod.mk.inj hd
  exact ⟨pyramid, pyramidEdges, m, pyramid_linked, pyramid_closed, pyramid_edges, hm, 0, by decide, 2, 10, 0, 4, by decide +kernel,
    exports_of hr, exports_of hr', by decide⟩

/-- With the other merger they are exported as one point. -/
example : ((Mapper.mapAll primaryMerger pyramid id 9 Mapper.empty pyramidEdges).map fun m =>
    [0, 10, 20, 30, 40].map (exportOf pyramid m)) = some [some 4, some 4, some 4, some 4, some 4] := by decide +kernel

/-- The pyramid meets the hypotheses of `C81_unites_partial`. -/
example : ∃ N m, (∀ fuel, N ≤ fuel → Mapper.mapAll primaryMerger pyramid id fuel Mapper.empty pyramidEdges = some m) ∧
    ExportedWell pyramid id pyramidEdges m := C81_unites_partial pyramid_linked id pyramid_edges C81_primary

/-! ### Two solids that touch at a vertex -/

/-- Two tetrahedra with a common vertex, which they represent in different ways. -/
def touchingFaces : List (Polygon Nat) :=
  [facePolygon 0 ⟨0, 0, -1⟩ (-1) 2 [⟨1, 1, 1⟩, ⟨1, 2, 1⟩, ⟨2, 1, 1⟩],
   facePolygon 10 ⟨-1, 0, 0⟩ (-1) 0 [⟨1, 1, 1⟩, ⟨1, 1, 2⟩, ⟨1, 2, 1⟩],
   facePolygon 20 ⟨0, -1, 0⟩ (-1) 1 [⟨1, 1, 1⟩, ⟨2, 1, 1⟩, ⟨1, 1, 2⟩],
   facePolygon 30 ⟨1, 1, 1⟩ 4 0 [⟨2, 1, 1⟩, ⟨1, 2, 1⟩, ⟨1, 1, 2⟩],
   otherApex 2 (facePolygon 40 ⟨0, 0, 1⟩ 1 2 [⟨1, 1, 1⟩, ⟨0, 1, 1⟩, ⟨1, 0, 1⟩]),
   otherApex 2 (facePolygon 50 ⟨0, 1, 0⟩ 1 1 [⟨1, 1, 1⟩, ⟨1, 1, 0⟩, ⟨0, 1, 1⟩]),
   otherApex 2 (facePolygon 60 ⟨1, 0, 0⟩ 1 0 [⟨1, 1, 1⟩, ⟨1, 0, 1⟩, ⟨1, 1, 0⟩]),
   facePolygon 70 ⟨-1, -1, -1⟩ (-2) 0 [⟨1, 0, 1⟩, ⟨0, 1, 1⟩, ⟨1, 1, 0⟩]]

def touchingLinks : List (Nat × Nat) :=
  [(0, 12), (1, 30), (2, 20), (10, 22), (11, 31), (21, 32), (40, 52), (41, 70), (42, 60), (50, 62), (51, 71), (61, 72)]

def touching : World := worldOf touchingFaces touchingLinks

def touchingEdges : List Nat := [0, 1, 2, 10, 11, 12, 20, 21, 22, 30, 31, 32, 40, 41, 42, 50, 51, 52, 60, 61, 62, 70, 71, 72]

theorem touching_linked : Linked touching := linked_of_check (by decide +kernel)

theorem touching_closed : NoOpenEdge touching := by
  intro p x A B hx
  by_cases c : p < touchingFaces.length
  · have : ∀ p, p < touchingFaces.length → ∀ h ∈ halfEdges (touching.polys p).edges, touching.partner h.1 ≠ none := by decide +kernel
    exact this p c _ hx
  · unfold touching at hx
    rw [worldOf_empty c] at hx; exact absurd hx List.not_mem_nil

theorem touching_edges : AllEdges touching touchingEdges := by
  intro x
  constructor
  · intro hx
    have : ∀ x ∈ touchingEdges, ∃ p ∈ List.range 8, ∃ h ∈ halfEdges (touching.polys p).edges, h.1 = x := by decide +kernel
    obtain ⟨p, -, ⟨x', A, B⟩, h, rfl⟩ := this x hx
    exact ⟨p, A, B, h⟩
  · rintro ⟨p, A, B, h⟩
    by_cases c : p < touchingFaces.length
    · have : ∀ p, p < touchingFaces.length → ∀ h ∈ halfEdges (touching.polys p).edges, h.1 ∈ touchingEdges := by decide +kernel
      exact this p c _ h
    · unfold touching at h
      rw [worldOf_empty c] at h; exact absurd h List.not_mem_nil

/-- No merger helps where one cannot get from one edge to the other by walking around the
vertex: equal vertices of a closed mesh are exported as different points. -/
theorem C81_touching_false :
    ∃ (W : World) (l : List Nat) (m : Mapper HP3), Linked W ∧ NoOpenEdge W ∧ AllEdges W l ∧
      Mapper.mapAll primaryMerger W id 9 Mapper.empty l = some m ∧
      ∃ x ∈ l, ∃ y ∈ l, ∃ e f r r', W.edge x = some e ∧ W.edge y = some f ∧ e.vertex.eq f.vertex = true ∧
        Exports W id m x r ∧ Exports W id m y r' ∧ r ≠ r' := by
  have hd : ((Mapper.mapAll primaryMerger touching id 9 Mapper.empty touchingEdges).bind fun m =>
      (exportOf touching m 0).bind fun r => (exportOf touching m 40).map fun r' => (r, r')) = some (0, 4) := by decide +kernel
  rw [Option.bind_eq_some_iff] at hd
  obtain ⟨m, hm, hd⟩ := hd
  rw [Option.bind_eq_some_iff] at hd
  obtain ⟨r, hr, hd⟩ := hd
  rw [Option.map_eq_some_iff] at hd
  obtain ⟨r', hr', hd⟩ := hd
  obtain ⟨rfl, rfl⟩ := Prod.mk.inj hd
  have he : ((touching.edge 0).bind fun e => (touching.edge 40).map fun f => e.vertex.eq f.vertex) = some true := by decide +kernel
  rw [Option.bind_eq_some_iff] at he
  obtain ⟨e, he, hf⟩ := he
  rw [Option.map_eq_some_iff] at hf
  obtain ⟨f, hf, hef⟩ := hf
  exact ⟨touching, touchingEdges, m, touching_linked, touching_closed, touching_edges, hm, 0, by decide, 40, by decide, e, f, 0, 4, he, hf, hef,
    exports_of hr, exports_of hr', by decide⟩

/-- If two of the three representations of the apex become the same double representation,
the pyramid meets the hypotheses of `C81_two_partial`. -/
def roundApex (p : HP3) : HP3 := if p.w = 3 then ⟨⟨2, 2, 2⟩, 2⟩ else p

example : ∃ N m, (∀ fuel, N ≤ fuel → Mapper.mapAll redirectMerger pyramid roundApex fuel Mapper.empty pyramidEdges = some m) ∧
    ExportedWell pyramid roundApex pyramidEdges m := by
  refine C81_two_partial pyramid_linked roundApex pyramid_edges ?_
  have h : ∀ x ∈ pyramidEdges, ((pyramid.nextAround x).bind fun o => o.bind fun y => (pyramid.edge x).bind fun e =>
      (pyramid.edge y).map fun f => decide (roundApex e.vertex = roundApex f.vertex ∨
        (roundApex e.vertex = ⟨⟨1, 1, 1⟩, 1⟩ ∨ roundApex e.vertex = ⟨⟨2, 2, 2⟩, 2⟩) ∧
        (roundApex f.vertex = ⟨⟨1, 1, 1⟩, 1⟩ ∨ roundApex f.vertex = ⟨⟨2, 2, 2⟩, 2⟩))) = some true := by decide +kernel
  have h' : ∀ u v, EqvGen (SeenPair pyramid roundApex pyramidEdges) u v → u = v ∨
      (u = ⟨⟨1, 1, 1⟩, 1⟩ ∨ u = ⟨⟨2, 2, 2⟩, 2⟩) ∧ (v = ⟨⟨1, 1, 1⟩, 1⟩ ∨ v = ⟨⟨2, 2, 2⟩, 2⟩) := by
    intro u v huv
    induction huv with
    | rel u v huv =>
      obtain ⟨x, hx, y, e, f, he, hy, hf, rfl, rfl⟩ := huv
      have := h x hx
      rw [hy, Option.bind_some, Option.bind_some, he, Option.bind_some, hf, Option.map_some, Option.some.injEq] at this
      exact of_decide_eq_true this
    | refl u => exact Or.inl rfl
    | symm u v _ ih => rcases ih with rfl | ⟨h1, h2⟩; exacts [Or.inl rfl, Or.inr ⟨h2, h1⟩]
    | trans u v w _ _ ih1 ih2 =>
      rcases ih1 with rfl | ⟨h1, h2⟩
      · exact ih2
      · rcases ih2 with rfl | ⟨h3, h4⟩
        exacts [Or.inr ⟨h1, h2⟩, Or.inr ⟨h1, h4⟩]
  intro u v w h1 h2
  rcases h' u v h1 with e | ⟨e1, e2⟩
  · exact Or.inl e
  · rcases h' v w h2 with e | ⟨e3, e4⟩
    · exact Or.inr (Or.inl e)
    · rcases e1 with rfl | rfl <;> rcases e2 with rfl | rfl <;> rcases e4 with rfl | rfl <;> simp

/-- The two representations are exported as one point. -/
example : ((Mapper.mapAll redirectMerger pyramid roundApex 9 Mapper.empty pyramidEdges).map fun m =>
    [0, 10, 20, 30, 40].map fun x => (pyramid.edge x).bind fun e => (m.find (roundApex e.vertex)).bind fun a => primaryConst m.heap 9 a) =
    some [some 0, some 0, some 0, some 0, some 0] := by decide +kernel

end Walnut.Props
