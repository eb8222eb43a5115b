/-
C38: which facets of a cell's face are emitted.

The statements use `Reach` (histories of a tree), `SameKey` (polygons lying in the split
plane of the same node), `stackAt` (the facets covering a point), `valueAt` (the value of a
filter at winding numbers) and `changing` (the facets where the value changes).
-/
import Verif.Bsp.TraverseProof
import Verif.Props.Routing

namespace Walnut.Props
open Walnut.Geom Walnut.Poly Walnut.Bsp

/-! ### Filters -/

theorem info_get {a b : List Info} (hl : a.length = b.length) (h : ∀ id, windingOf a id = windingOf b id) (id : Nat) :
    (a[id]? = none ∧ b[id]? = none) ∨ ∃ i j : Info, a[id]? = some i ∧ b[id]? = some j ∧ i.pwn = j.pwn := by
  have := h id
  rw [windingOf_get, windingOf_get] at this
  by_cases hi : id < a.length
  · right
    rw [List.getElem?_eq_getElem hi, List.getElem?_eq_getElem (show id < b.length by omega)] at this
    exact ⟨_, _, List.getElem?_eq_getElem hi, List.getElem?_eq_getElem (by omega), this⟩
  · left
    exact ⟨List.getElem?_eq_none (by omega), List.getElem?_eq_none (by omega)⟩

theorem filter_value (f : Filter) {a b : List Info} (hl : a.length = b.length) (h : ∀ id, windingOf a id = windingOf b id) : (f.eval a).1 = (f.eval b).1 := by
  induction f with
  | polygon id | inverted id | odd id =>
    unfold Filter.eval
    rcases info_get hl h id with ⟨e1, e2⟩ | ⟨i, j, e1, e2, e3⟩
    · rw [e1, e2]
    · rw [e1, e2]; simp only [e3]
  | inter f g hf hg | sub f g hf hg | union f g hf hg | xor f g hf hg =>
    simp only [Filter.eval, hf, hg]

/-- All filter expressions satisfy the contract of `IsInside`. -/
theorem filter_lawful (f : Filter) : Lawful f.eval :=
  ⟨fun _ _ hl h => filter_value f hl h, fun a b hb hp => by rw [C36_pruning f a b hb hp]⟩

theorem fold_value {step step' : Bool × Bool → Nat → Bool × Bool} (h : ∀ t t' : Bool × Bool, t.1 = t'.1 → ∀ id, (step t id).1 = (step' t' id).1)
    (ids : List Nat) : ∀ t t' : Bool × Bool, t.1 = t'.1 → (ids.foldl step t).1 = (ids.foldl step' t').1 := by
  induction ids with
  | nil => intro t t' ht; exact ht
  | cons id ids ih => intro t t' ht; exact ih _ _ (h t t' ht id)

/-- So do the filters with lists of ids. -/
theorem idFilters_lawful (ids : List Nat) : Lawful (unionIds ids) ∧ Lawful (intersectIds ids) ∧ Lawful (subtractIds ids) := by
  refine ⟨⟨fun a b hl h => ?_, fun a b hb hp => by rw [(C36_id_lists ids a b hb).1 hp]⟩,
    ⟨fun a b hl h => ?_, fun a b hb hp => by rw [(C36_id_lists ids a b hb).2.1 hp]⟩,
    ⟨fun a b hl h => ?_, fun a b hb hp => by rw [(C36_id_lists ids a b hb).2.2 hp]⟩⟩
  · refine fold_value (fun t t' ht id => ?_) ids _ _ rfl
    simp only [unionIdsStep]
    rcases info_get hl h id with ⟨e1, e2⟩ | ⟨i, j, e1, e2, e3⟩
    · rw [e1, e2, ht]
    · rw [e1, e2, ht]; simp only [e3]
  · refine fold_value (fun t t' ht id => ?_) ids _ _ rfl
    simp only [intersectIdsStep]
    rcases info_get hl h id with ⟨e1, e2⟩ | ⟨i, j, e1, e2, e3⟩
    · rw [e1, e2, ht]
    · rw [e1, e2, ht]; simp only [e3]
  · cases ids with
    | nil => rfl
    | cons id0 rest =>
      unfold subtractIds
      by_cases h0 : id0 ≥ a.length
      · simp only [if_pos h0, if_pos (show id0 ≥ b.length by omega)]
      · simp only [if_neg h0, if_neg (show ¬ id0 ≥ b.length by omega)]
        rcases info_get hl h 0 with ⟨e1, e2⟩ | ⟨i, j, e1, e2, e3⟩
        · cases a with
          | nil => simp at h0
          | cons x a => simp at e1
        · cases a with
          | nil => simp at h0
          | cons x a =>
            cases b with
            | nil => simp at hl
            | cons y b =>
              simp only [List.getElem?_cons_zero, Option.some.injEq] at e1 e2
              subst e1 e2
              refine fold_value (fun t t' ht id => ?_) rest _ _ (by simp only [e3])
              simp only [subtractIdsStep]
              rcases info_get hl h id with ⟨f1, f2⟩ | ⟨i, j, f1, f2, f3⟩
              · rw [f1, f2, ht]
              · rw [f1, f2, ht]; simp only [f3]

/-! ### C38 -/

/-- C38: for a face of a leaf's cell, and a point on none of the planes that the partitioner
splits the face along, the emitted polygons covering the point are, in order, those facets
covering it at which the filter's value changes when the facets are crossed one after
another from the cell outwards.  For every filter whose result depends on winding numbers
as documented. -/
theorem C38_facets {aabb : Bool} {t : Node} {S : List Source} (h : Reach aabb t S) {anc : Anc} {d : NodeData} (hs : (anc, .leaf d) ∈ t.subs [])
    {l : List BPoly} (hl : ∀ x ∈ l, x ∈ d.border) (hk : SameKey l) {v : IsInside} (hv : Lawful v) {fuel : Nat} {tr : List Visit}
    (hr : processOnPlane v d.info fuel (anc.map Prod.snd) l = some tr) (q : Q3) (hq : ∀ g ∈ entered tr, g.side q ≠ 0) :
    stackAt q (accepted tr) = changing (valueAt v d.info.length) (fun _ => -1) (windingOf d.info) (stackAt q l) := by
  have ht := h.spec.1
  have hd := ht.sub _ hs
  exact processOnPlane_spec hv (AncOK.sub ht .nil _ hs) (fun x hx => hd.2.1 x (hl x hx)) hk hr q hq

/-- C38: the partitioner is defined on every face of a leaf without interior polygons: no
assertion fails, and it terminates.  For polygons that do not track their bounding boxes. -/
theorem C38_defined {t : Node} {S : List Source} (h : Reach false t S) {anc : Anc} {d : NodeData} (hs : (anc, .leaf d) ∈ t.subs [])
    (hd : d.contents = []) {l : List BPoly} (hl : ∀ x ∈ l, x ∈ d.border) (hne : l ≠ []) (hk : SameKey l) {v : IsInside} (hv : Lawful v) :
    ∃ fuel tr, processOnPlane v d.info fuel (anc.map Prod.snd) l = some tr := by
  obtain ⟨ht, l', hl', hcons⟩ := h.spec
  have hok := ht.sub _ hs
  have hborder : ∀ (t : Node) (anc0 : Anc), (anc, Node.leaf d) ∈ t.subs anc0 → ∀ x ∈ d.border, x ∈ t.polys := by
    intro t
    induction t with
    | leaf d' =>
      intro anc0 hm x hx
      have e := List.mem_singleton.1 hm
      simp only [Prod.mk.injEq, Node.leaf.injEq] at e
      unfold Node.polys; rw [← e.2]; exact List.mem_append_right _ hx
    | inner d' g' n' p' ihn ihp =>
      intro anc0 hm x hx
      unfold Node.subs at hm
      unfold Node.polys
      rcases List.mem_cons.1 hm with e | hm
      · simp at e
      · rcases List.mem_append.1 hm with hm | hm
        · exact List.mem_append_right _ (List.mem_append_left _ (ihn _ hm x hx))
        · exact List.mem_append_right _ (List.mem_append_right _ (ihp _ hm x hx))
  have hplain : ∀ x ∈ t.polys, x.tracker = none := by
    intro x hx
    obtain ⟨y, hy, _, e2⟩ := hcons.back x hx
    have : ∀ y ∈ l', y.tracker = none := by
      clear hcons e2 hy hborder hok hs ht h
      induction hl' with
      | nil => simp
      | cons hm _ ih =>
        intro y hy
        rcases List.mem_cons.1 hy with rfl | hy
        · exact hm.2.2 rfl
        · exact ih y hy
    exact e2 (this y hy)
  refine ⟨edgeTotal l + 1, processOnPlane_defined hv (AncOK.sub ht .nil _ hs) hne (fun x hx => hok.2.1 x (hl x hx)) hk (fun x hx => ⟨?_, ?_⟩) ?_ (by omega)⟩
  · exact hplain x (hborder t [] hs x (hl x hx))
  · have := (hok.2.2 x.id).2
    unfold NodeData.infoFor at this
    rw [this]
    exact countP_id_pos.2 ⟨x, hl x hx, rfl⟩
  · intro i hi
    obtain ⟨k, hk', rfl⟩ := List.mem_iff_getElem.1 hi
    have := (hok.2.2 k).1
    unfold NodeData.infoFor at this
    rw [hd] at this
    simpa [List.getD_eq_getElem?_getD, hk'] using this

/-- The winding numbers beyond all facets of a stack. -/
def beyondAll (w : Nat → Int) (s : List Facet) (id : Nat) : Int := w id - s.countP fun x => x.1 == id

theorem beyondAll_cons (w : Nat → Int) (x : Facet) (s : List Facet) : beyondAll w (x :: s) = beyondAll (beyond (fun _ => -1) w x) s := by
  funext id
  unfold beyondAll beyond
  rw [List.countP_cons]
  by_cases hx : x.1 = id
  · subst hx
    simp; omega
  · rw [Function.update_of_ne (Ne.symm hx)]
    simp [hx]

theorem changing_parity (inside : (Nat → Int) → Bool) (w : Nat → Int) (s : List Facet) :
    (changing inside (fun _ => -1) w s).length % 2 = 1 ↔ inside w ≠ inside (beyondAll w s) := by
  induction s generalizing w with
  | nil =>
    have : beyondAll w [] = w := by funext id; simp [beyondAll]
    simp [changing, this]
  | cons x s ih =>
    have ih := ih (beyond (fun _ => -1) w x)
    rw [beyondAll_cons]
    unfold changing
    by_cases hc : inside w = inside (beyond (fun _ => -1) w x)
    · rw [if_pos hc, ih, hc]
    · rw [if_neg hc, List.length_cons]
      have e : (changing inside (fun _ => -1) (beyond (fun _ => -1) w x) s).length % 2 = 1 ∨
          (changing inside (fun _ => -1) (beyond (fun _ => -1) w x) s).length % 2 = 0 := by omega
      rw [show ∀ n : Nat, (n + 1) % 2 = 1 ↔ ¬ n % 2 = 1 by omega, ih]
      revert hc
      generalize inside w = a
      generalize inside (beyond (fun _ => -1) w x) = b
      generalize inside (beyondAll (beyond (fun _ => -1) w x) s) = c
      cases a <;> cases b <;> cases c <;> simp

/-- C38: the number of facets emitted at a point is odd if and only if the filter's value in
the cell differs from its value beyond all facets. -/
theorem C38_parity {aabb : Bool} {t : Node} {S : List Source} (h : Reach aabb t S) {anc : Anc} {d : NodeData} (hs : (anc, .leaf d) ∈ t.subs [])
    {l : List BPoly} (hl : ∀ x ∈ l, x ∈ d.border) (hk : SameKey l) {v : IsInside} (hv : Lawful v) {fuel : Nat} {tr : List Visit}
    (hr : processOnPlane v d.info fuel (anc.map Prod.snd) l = some tr) (q : Q3) (hq : ∀ g ∈ entered tr, g.side q ≠ 0) :
    (stackAt q (accepted tr)).length % 2 = 1 ↔
      valueAt v d.info.length (windingOf d.info) ≠ valueAt v d.info.length (beyondAll (windingOf d.info) (stackAt q l)) := by
  rw [C38_facets h hs hl hk hv hr q hq]
  exact changing_parity _ _ _

/-- Filters without `OddPolygonFilter` and `XORFilter`. -/
def Filter.monotone : Filter → Bool
  | .polygon _ | .inverted _ => true
  | .odd _ | .xor _ _ => false
  | .inter f g | .union f g | .sub f g => Filter.monotone f && Filter.monotone g

theorem monotone_value {f : Filter} (hf : Filter.monotone f = true) {n : Nat} {w w' : Nat → Int} (hw : ∀ id, w id ≤ w' id)
    (h : valueAt f.eval n w = true) : valueAt f.eval n w' = true := by
  unfold valueAt at *
  have get : ∀ (u : Nat → Int) (id : Nat), ((List.range n).map fun i => ({ pwn := u i } : Info))[id]? = if id < n then some { pwn := u id } else none := by
    intro u id
    rw [List.getElem?_map]
    by_cases hi : id < n
    · rw [List.getElem?_range hi, if_pos hi]; rfl
    · rw [List.getElem?_eq_none (by simpa using hi), if_neg hi]; rfl
  induction f with
  | polygon id | inverted id =>
    unfold Filter.eval at *
    rw [get] at *
    by_cases hi : id < n
    · rw [if_pos hi] at *
      have := hw id
      simp only [decide_eq_true_eq] at *
      omega
    · rw [if_neg hi] at h; simp at h
  | odd id => simp [Filter.monotone] at hf
  | xor f g => simp [Filter.monotone] at hf
  | inter f g h1 h2 | sub f g h1 h2 =>
    simp only [Filter.monotone, Bool.and_eq_true] at hf
    simp only [Filter.eval, Bool.and_eq_true] at *
    exact ⟨h1 hf.1 h.1, h2 hf.2 h.2⟩
  | union f g h1 h2 =>
    simp only [Filter.monotone, Bool.and_eq_true] at hf
    simp only [Filter.eval, Bool.or_eq_true] at *
    exact h.imp (h1 hf.1) (h2 hf.2)

theorem changing_monotone {inside : (Nat → Int) → Bool} (hm : ∀ w w' : Nat → Int, (∀ id, w id ≤ w' id) → inside w = true → inside w' = true)
    (w : Nat → Int) (s : List Facet) :
    (changing inside (fun _ => -1) w s).length = if inside w = true ∧ inside (beyondAll w s) = false then 1 else 0 := by
  induction s generalizing w with
  | nil =>
    have : beyondAll w [] = w := by funext id; simp [beyondAll]
    rw [this]
    cases inside w <;> simp [changing]
  | cons x s ih =>
    have ih := ih (beyond (fun _ => -1) w x)
    rw [beyondAll_cons]
    have h1 : inside (beyond (fun _ => -1) w x) = true → inside w = true := by
      apply hm
      intro id
      unfold beyond
      by_cases hx : id = x.1
      · subst hx; rw [Function.update_self]; simp
      · rw [Function.update_of_ne hx]
    have h2 : inside (beyondAll (beyond (fun _ => -1) w x) s) = true → inside (beyond (fun _ => -1) w x) = true := by
      apply hm
      intro id
      unfold beyondAll; omega
    have e : (changing inside (fun _ => -1) w (x :: s)).length = (if inside w = inside (beyond (fun _ => -1) w x) then 0 else 1) +
        (changing inside (fun _ => -1) (beyond (fun _ => -1) w x) s).length := by
      rw [changing]; split_ifs
      · omega
      · rw [List.length_cons]; omega
    rw [e, ih]
    revert h1 h2
    generalize inside (beyondAll (beyond (fun _ => -1) w x) s) = c
    generalize inside w = a
    generalize inside (beyond (fun _ => -1) w x) = b
    cases a <;> cases b <;> cases c <;> simp

/-- C38: for unions, intersections and subtractions, at most one facet is emitted at a
point, namely if the cell is inside of the result and the space beyond the facets is
outside. -/
theorem C38_single {aabb : Bool} {t : Node} {S : List Source} (h : Reach aabb t S) {anc : Anc} {d : NodeData} (hs : (anc, .leaf d) ∈ t.subs [])
    {l : List BPoly} (hl : ∀ x ∈ l, x ∈ d.border) (hk : SameKey l) {f : Filter} (hf : Filter.monotone f = true) {fuel : Nat} {tr : List Visit}
    (hr : processOnPlane f.eval d.info fuel (anc.map Prod.snd) l = some tr) (q : Q3) (hq : ∀ g ∈ entered tr, g.side q ≠ 0) :
    (stackAt q (accepted tr)).length = if valueAt f.eval d.info.length (windingOf d.info) = true ∧
      valueAt f.eval d.info.length (beyondAll (windingOf d.info) (stackAt q l)) = false then 1 else 0 := by
  rw [C38_facets h hs hl hk (filter_lawful f) hr q hq]
  exact changing_monotone (fun w w' hw => monotone_value hf hw) _ _

/-! ### Examples -/

/-- The plane of the first polygon. -/
def chooseFirst : Choose := fun _ d =>
  match d.contents with
  | [] => ⟨⟨1, 0, 0⟩, 0⟩
  | p :: _ => p.poly.plane

def sameKey (x y : BPoly) : Bool := decide (x.onNode.split.map PlaneRef.path = y.onNode.split.map PlaneRef.path)

def groupFirst : Nat → List BPoly → List (List BPoly)
  | 0, _ => []
  | _ + 1, [] => []
  | n + 1, p :: l => (p :: l.filter (sameKey p)) :: groupFirst n (l.filter fun x => !sameKey p x)

/-- Groups in the order of the first members. -/
def groupByKey : Group := fun _ l => groupFirst l.length l

/-- Two meshes as contents 0 and 1. -/
def twice (a b : List (Polygon Unit)) : Option Node := ((Node.leaf {}).addContents false 0 a).bind fun t => t.addContents false 1 b

theorem twice_api {a b : List (Polygon Unit)} (ha : ∀ P ∈ a, IsConvexPolygon P) (hb : ∀ P ∈ b, IsConvexPolygon P) {t : Node} (h : twice a b = some t) :
    Api false t (a.map (fun P => ⟨0, P⟩) ++ b.map fun P => ⟨1, P⟩) := by
  obtain ⟨t1, h1, h2⟩ := Option.bind_eq_some_iff.1 h
  exact (Api.empty.add ha h1).add hb h2

/-- C38 (disagreement): the symmetric difference of a solid with itself is empty, but the
traversal emits every facet twice.  Crossing the first of two coincident facets changes the
value of the filter, and crossing the second one changes it back. -/
theorem C38_xor_false : (∀ w : Nat → Int, w 0 = w 1 → valueAt (Filter.xor (.polygon 0) (.polygon 1)).eval 2 w = false) ∧
    ∃ t S t' tr, Api false t S ∧ traverse (Filter.xor (.polygon 0) (.polygon 1)).eval chooseFirst groupByKey 4 5 t = some (t', tr) ∧
      (accepted tr).map facet =
        [(0, ⟨⟨16, 16, 16⟩, 64⟩), (1, ⟨⟨16, 16, 16⟩, 64⟩), (0, ⟨⟨-16, 0, 0⟩, 0⟩), (1, ⟨⟨-16, 0, 0⟩, 0⟩),
          (0, ⟨⟨0, -16, 0⟩, 0⟩), (1, ⟨⟨0, -16, 0⟩, 0⟩), (0, ⟨⟨0, 0, -16⟩, 0⟩), (1, ⟨⟨0, 0, -16⟩, 0⟩)] := by
  refine ⟨fun w hw => ?_, ?_⟩
  · simp [valueAt, Filter.eval, hw, List.range_succ]
  · have h : ((twice tetra tetra).bind fun t => (traverse (Filter.xor (.polygon 0) (.polygon 1)).eval chooseFirst groupByKey 4 5 t).map fun r =>
        (accepted r.2).map facet) = some
        [(0, ⟨⟨16, 16, 16⟩, 64⟩), (1, ⟨⟨16, 16, 16⟩, 64⟩), (0, ⟨⟨-16, 0, 0⟩, 0⟩), (1, ⟨⟨-16, 0, 0⟩, 0⟩),
          (0, ⟨⟨0, -16, 0⟩, 0⟩), (1, ⟨⟨0, -16, 0⟩, 0⟩), (0, ⟨⟨0, 0, -16⟩, 0⟩), (1, ⟨⟨0, 0, -16⟩, 0⟩)] := by decide +kernel
    obtain ⟨t, ht, h'⟩ := Option.bind_eq_some_iff.1 h
    obtain ⟨r, hr, e⟩ := Option.map_eq_some_iff.1 h'
    exact ⟨t, _, r.1, r.2, twice_api tetra_convex tetra_convex ht, hr, e⟩

/-- The splits along the faces of the tetrahedron, towards its inside. -/
def faceSplits : List (List Bool × HS3) :=
  [([], ⟨⟨0, 0, -16⟩, 0⟩), ([false], ⟨⟨0, -16, 0⟩, 0⟩), ([false, false], ⟨⟨-16, 0, 0⟩, 0⟩), ([false, false, false], ⟨⟨16, 16, 16⟩, 64⟩)]

/-- The leaf at a path. -/
def leafAt : Node → List Bool → Option NodeData
  | .leaf d, [] => some d
  | .inner _ _ n _, false :: path => leafAt n path
  | .inner _ _ _ p, true :: path => leafAt p path
  | _, _ => none

theorem leafAt_subs : ∀ (t : Node) (path : List Bool) (anc : Anc) (d : NodeData), leafAt t path = some d → ∃ anc', (anc', .leaf d) ∈ t.subs anc := by
  intro t
  induction t with
  | leaf d0 =>
    intro path anc d h
    cases path with
    | nil => exact ⟨anc, by rw [← Option.some.inj h]; simp [Node.subs]⟩
    | cons b path => simp [leafAt] at h
  | inner d0 g n p ihn ihp =>
    intro path anc d h
    match path, h with
    | false :: path, h => obtain ⟨a, ha⟩ := ihn path (anc ++ [(⟨anc.map Prod.snd, g⟩, false)]) d h; exact ⟨a, by unfold Node.subs; simp [ha]⟩
    | true :: path, h => obtain ⟨a, ha⟩ := ihp path (anc ++ [(⟨anc.map Prod.snd, g⟩, true)]) d h; exact ⟨a, by unfold Node.subs; simp [ha]⟩

/-- The hypotheses of C38 are met by a face with two coincident facets, and the partitioner
emits one of them for a union. -/
example : ∃ t S anc d l tr, Reach false t S ∧ (anc, .leaf d) ∈ t.subs [] ∧ d.contents = [] ∧ (∀ x ∈ l, x ∈ d.border) ∧ SameKey l ∧ l.length = 2 ∧
    processOnPlane (Filter.union (.polygon 0) (.polygon 1)).eval d.info 4 [false, false, false, false] l = some tr ∧ (accepted tr).length = 1 := by
  have h : ((twice tetra tetra).bind fun t => (splitAll t faceSplits).bind fun t => (leafAt t [false, false, false, false]).bind fun d =>
      (processOnPlane (Filter.union (.polygon 0) (.polygon 1)).eval d.info 4 [false, false, false, false]
        (d.border.filter fun x => decide (x.onNode.split.map PlaneRef.path = some [false]))).map fun tr =>
      (d.contents.isEmpty, (d.border.filter fun x => decide (x.onNode.split.map PlaneRef.path = some [false])).length, (accepted tr).length)) =
      some (true, 2, 1) := by decide +kernel
  obtain ⟨t0, h0, h1⟩ := Option.bind_eq_some_iff.1 h
  obtain ⟨t, h2, h3⟩ := Option.bind_eq_some_iff.1 h1
  obtain ⟨d, h4, h5⟩ := Option.bind_eq_some_iff.1 h3
  obtain ⟨tr, h6, h7⟩ := Option.map_eq_some_iff.1 h5
  simp only [Prod.mk.injEq] at h7
  obtain ⟨anc, ha⟩ := leafAt_subs t _ [] d h4
  refine ⟨t, _, anc, d, _, tr, (Api.splitAll _ (twice_api tetra_convex tetra_convex h0) h2).spec.1, ha, by simpa using h7.1,
    fun x hx => List.mem_of_mem_filter hx, ?_, h7.2.1, h6, h7.2.2⟩
  intro x hx y hy
  have a := (List.mem_filter.1 hx).2
  have b := (List.mem_filter.1 hy).2
  simp only [decide_eq_true_eq] at a b
  rw [a, b]

end Walnut.Props
