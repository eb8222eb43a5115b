/-
C80 for `UnionIdsFilter`, `IntersectIdsFilter` and `SubtractIdsFilter`
(boolean_operation_filter.h), which take lists of mesh ids.
-/
import Verif.Props.Reuse

namespace Walnut.Props
open Walnut.Geom Walnut.Poly Walnut.Bsp
open Walnut.Conn (SortOk HeapOk SortFn HeapFns EntrySort EntrySortOk visitCalls facets edgeNum Mesh insertionSort sortHeap entrySort insertionSort_ok sortHeap_ok entrySort_ok)

/-! ### Specification -/

/-- The filter `v` is one of those that take lists of ids, and `K` says for which winding numbers
of the meshes a point is in the set: in one of the meshes, in all of them, or in the first one and
in none of the others, which are inverted.  Subtraction is from mesh 0, because the filter looks
at mesh 0 whatever the first id is (`C37_subtract_false`); the others are known to the tree,
which has `n` meshes. -/
inductive IdSet (n : Nat) : IsInside → ((Nat → Int) → Prop) → Prop
  | union (ids : List Nat) : ids ≠ [] → IdSet n (unionIds ids) fun w => ∃ id ∈ ids, 0 < w id
  | inter (ids : List Nat) : ids ≠ [] → IdSet n (intersectIds ids) fun w => ∀ id ∈ ids, 0 < w id
  | sub (rest : List Nat) : (∀ id ∈ rest, id < n) → IdSet n (subtractIds (0 :: rest)) fun w => 0 < w 0 ∧ ∀ id ∈ rest, ¬ w id < 0

/-! ### As expressions -/

theorem unionIds_eval (i : Nat) (l : List Nat) : unionIds (i :: l) = (l.foldl (fun f j => Filter.union f (.polygon j)) (.polygon i)).eval := by
  have key : ∀ (l : List Nat) (f : Filter) (c : List Info), l.foldl (unionIdsStep c) (f.eval c) = (l.foldl (fun f j => Filter.union f (.polygon j)) f).eval c := by
    intro l
    induction l with
    | nil => intro f c; rfl
    | cons j l ih =>
      intro f c
      rw [List.foldl_cons, List.foldl_cons, ← ih]
      rfl
  funext c
  rw [← key]
  show l.foldl (unionIdsStep c) (unionIdsStep c (false, false) i) = _
  congr 1
  unfold unionIdsStep Filter.eval
  cases c[i]? with
  | none => rfl
  | some x => cases h1 : decide (x.pwn > 0) <;> cases h2 : x.hasPolygons <;> simp [h1, h2]

theorem intersectIds_eval (i : Nat) (l : List Nat) : intersectIds (i :: l) = (l.foldl (fun f j => Filter.inter f (.polygon j)) (.polygon i)).eval := by
  have key : ∀ (l : List Nat) (f : Filter) (c : List Info), l.foldl (intersectIdsStep c) (f.eval c) = (l.foldl (fun f j => Filter.inter f (.polygon j)) f).eval c := by
    intro l
    induction l with
    | nil => intro f c; rfl
    | cons j l ih =>
      intro f c
      rw [List.foldl_cons, List.foldl_cons, ← ih]
      rfl
  funext c
  rw [← key]
  show l.foldl (intersectIdsStep c) (intersectIdsStep c (true, false) i) = _
  congr 1
  unfold intersectIdsStep Filter.eval
  cases c[i]? with
  | none => rfl
  | some x => cases h1 : decide (x.pwn > 0) <;> cases h2 : x.hasPolygons <;> simp [h1, h2]

theorem subtractIds_eval (l : List Nat) : subtractIds (0 :: l) = (l.foldl (fun f j => Filter.sub f (.inverted j)) (.polygon 0)).eval := by
  have key : ∀ (l : List Nat) (f : Filter) (c : List Info), l.foldl (subtractIdsStep c) (f.eval c) = (l.foldl (fun f j => Filter.sub f (.inverted j)) f).eval c := by
    intro l
    induction l with
    | nil => intro f c; rfl
    | cons j l ih =>
      intro f c
      rw [List.foldl_cons, List.foldl_cons, ← ih]
      rfl
  funext c
  rw [← key]
  cases c with
  | nil =>
    have : ∀ l : List Nat, l.foldl (subtractIdsStep []) (false, false) = (false, false) := by
      intro l
      induction l with
      | nil => rfl
      | cons j l ih => rw [List.foldl_cons]; exact ih
    exact (this l).symm
  | cons x c => rfl

theorem fold_noParity {g : Filter → Nat → Filter} (hg : ∀ f j, NoParity f → NoParity (g f j)) : ∀ (l : List Nat) (f : Filter), NoParity f → NoParity (l.foldl g f)
  | [], _, h => h
  | j :: l, f, h => fold_noParity hg l (g f j) (hg f j h)

theorem IdSet.filter {n : Nat} {v : IsInside} {K : (Nat → Int) → Prop} (h : IdSet n v K) :
    ∃ f : Filter, v = f.eval ∧ NoParity f ∧ (∀ id ∈ invertedIds f, id < n) ∧ (∀ w, Inside f w ↔ K w) ∧ ¬ K fun _ => 0 := by
  cases h with
  | union ids hne =>
    cases ids with
    | nil => exact absurd rfl hne
    | cons i l =>
      refine ⟨_, unionIds_eval i l, fold_noParity (g := fun f j => Filter.union f (.polygon j)) (fun f j hf => ⟨hf, trivial⟩) l _ trivial, ?_, ?_, by simp⟩
      · have : ∀ (l : List Nat) (f : Filter), invertedIds f = [] → invertedIds (l.foldl (fun f j => Filter.union f (.polygon j)) f) = [] := by
          intro l
          induction l with
          | nil => intro f h; exact h
          | cons j l ih => intro f h; exact ih _ (by simp [invertedIds, h])
        rw [this l _ rfl]
        simp
      · intro w
        have : ∀ (l : List Nat) (f : Filter), Inside (l.foldl (fun f j => Filter.union f (.polygon j)) f) w ↔ Inside f w ∨ ∃ id ∈ l, 0 < w id := by
          intro l
          induction l with
          | nil => intro f; simp
          | cons j l ih =>
            intro f
            rw [List.foldl_cons, ih]
            simp [Inside, or_assoc]
        rw [this]
        simp [Inside]
  | inter ids hne =>
    cases ids with
    | nil => exact absurd rfl hne
    | cons i l =>
      refine ⟨_, intersectIds_eval i l, fold_noParity (g := fun f j => Filter.inter f (.polygon j)) (fun f j hf => ⟨hf, trivial⟩) l _ trivial, ?_, ?_, fun h => lt_irrefl _ (h i (by simp))⟩
      · have : ∀ (l : List Nat) (f : Filter), invertedIds f = [] → invertedIds (l.foldl (fun f j => Filter.inter f (.polygon j)) f) = [] := by
          intro l
          induction l with
          | nil => intro f h; exact h
          | cons j l ih => intro f h; exact ih _ (by simp [invertedIds, h])
        rw [this l _ rfl]
        simp
      · intro w
        have : ∀ (l : List Nat) (f : Filter), Inside (l.foldl (fun f j => Filter.inter f (.polygon j)) f) w ↔ Inside f w ∧ ∀ id ∈ l, 0 < w id := by
          intro l
          induction l with
          | nil => intro f; simp
          | cons j l ih =>
            intro f
            rw [List.foldl_cons, ih]
            simp [Inside, and_assoc]
        rw [this]
        simp [Inside]
  | sub l hl =>
    refine ⟨_, subtractIds_eval l, fold_noParity (g := fun f j => Filter.sub f (.inverted j)) (fun f j hf => ⟨hf, trivial⟩) l _ trivial, ?_, ?_, by simp⟩
    · have : ∀ (l : List Nat) (f : Filter), invertedIds (l.foldl (fun f j => Filter.sub f (.inverted j)) f) = invertedIds f ++ l := by
        intro l
        induction l with
        | nil => intro f; simp
        | cons j l ih => intro f; rw [List.foldl_cons, ih]; simp [invertedIds]
      rw [this l]
      simpa [invertedIds] using hl
    · intro w
      have : ∀ (l : List Nat) (f : Filter), Inside (l.foldl (fun f j => Filter.sub f (.inverted j)) f) w ↔ Inside f w ∧ ∀ id ∈ l, ¬ w id < 0 := by
        intro l
        induction l with
        | nil => intro f; simp
        | cons j l ih =>
          intro f
          rw [List.foldl_cons, ih]
          simp [Inside, and_assoc]
      rw [this]
      simp [Inside]

/-! ### C80 -/

/-- C80 for the filters that take lists of ids: the returned facets are a closed mesh of convex
polygons, every half-edge is linked to one between the same points in the opposite direction, and around every point
on no facet the winding number is 1 in the set and 0 elsewhere.

Partial: no normal has a component `2^63` or `-2^63`, and the direction of no edge has a component `-2^63`. -/
theorem C80_ids_partial {aabb : Bool} {d : NodeData} {S : List Source} (h : Reach aabb (.leaf d) S) {t : Node} (ht : Splits d t) {v : IsInside}
    {K : (Nat → Int) → Prop} (hK : IdSet d.info.length v K) {choose : Choose} {group : Group} (hg : Grouping group) {pfuel fuel : Nat} {t' : Node} {tr : List Visit}
    (hr : traverse v choose group pfuel fuel t = some (t', tr)) (hc : ∀ id, Closed (meshOf S id)) (hord : ∀ Q ∈ output tr, Ordinary Q.plane.n)
    (hmin : ∀ Q ∈ output tr, ∀ e ∈ Q.edges, NoMin3 e.line.d) {T : SortFn} {o : HeapFns} {D : EntrySort} (hT : SortOk T) (ho : HeapOk o) (hD : EntrySortOk D) :
    ∃ s M, connRun tr {} = some s ∧ visitCalls T o D (edgeNum (output tr)) s.calls (facets (output tr)) = some (M, 0) ∧
      Poly.Linked M.world ∧ NoOpenEdge M.world ∧ (∀ p, M.size ≤ p → (M.world.polys p).edges = []) ∧ (∀ P ∈ M.remaining.map plain, IsConvexPolygon P) ∧ Closed (M.remaining.map plain) ∧
      ∀ q : Q3, (∀ s ∈ S, q ∉ s.poly.region) → (∀ P ∈ M.remaining.map plain, q ∉ P.region) → ∀ u, Transversal (M.remaining.map plain) q u →
        ∀ u' : ℕ → Q3, (∀ id, Transversal (meshOf S id) q (u' id)) →
          windingNumber (M.remaining.map plain) q u = one (K fun id => windingNumber (meshOf S id) q (u' id)) := by
  obtain ⟨f, rfl, hf, hk, hin, h0⟩ := hK.filter
  obtain ⟨s, M, hs, hv, hR, hcl, hw⟩ := C80_result_partial h ht hf hk hg hr hc hord hmin hT ho hD
  obtain ⟨s', M', g, hs', hv', hL, hO, -, he, -⟩ := C79_merged_partial h ht hf hk hg hr hc hord hmin hT ho hD
  obtain rfl := Option.some.inj (hs.symm.trans hs')
  obtain rfl := (Prod.mk.inj (Option.some.inj (hv.symm.trans hv'))).1
  refine ⟨s, M, hs, hv, hL, hO, he, hR, hcl, ?_⟩
  intro q q1 q2 u hu u' hu'
  rw [hw q q1 q2 u hu u' hu']
  have e0 : one (Inside f fun _ => 0) = 0 := by
    unfold one
    rw [if_neg]
    rw [hin]
    exact h0
  rw [e0, sub_zero, propext (hin _)]

/-- The hypotheses of `C80_ids_partial` are met by the subtraction of mesh 1 from mesh 0. -/
example : ∃ d S t' tr, Reach false (.leaf d) S ∧ IdSet d.info.length (subtractIds [0, 1]) (fun w => 0 < w 0 ∧ ∀ id ∈ [1], ¬ w id < 0) ∧
    traverse (subtractIds [0, 1]) chooseFirst groupByKey 20 20 (.leaf d) = some (t', tr) ∧ (∀ id, Closed (meshOf S id)) ∧ (∀ Q ∈ output tr, Ordinary Q.plane.n) ∧
    (∀ Q ∈ output tr, ∀ e ∈ Q.edges, NoMin3 e.line.d) ∧ (output tr).length = 9 := by
  obtain ⟨d, S, t', tr, h, ht, hf, hk, hg, hr, hc, hord, hmin, hT, ho, hD, hn⟩ := merged_example
  refine ⟨d, S, t', tr, h, .sub [1] ?_, ?_, hc, hord, hmin, hn⟩
  · intro id hid
    exact hk id (by simpa [subFilter, invertedIds] using hid)
  · rw [subtractIds_eval]
    exact hr

end Walnut.Props
