/-
C35, C36, C37: the boolean filters.

Specification: a content vector assigns to every mesh id a winding number; ids
that the tree has not seen have winding number zero.
-/
import Verif.Bsp.Filter
import Mathlib.Tactic.Common

namespace Walnut.Props
open Walnut.Bsp

/-- Winding number of mesh `id` at a point; zero for meshes without polygons. -/
def windingOf (c : List Info) (id : Nat) : Int := if h : id < c.length then c[id].pwn else 0

/-- Whether the subtree still holds polygons of mesh `id`. -/
def holds (c : List Info) (id : Nat) : Prop :=
  ∃ h : id < c.length, 0 < c[id].interior ∨ 0 < c[id].border

/-- The set of winding number assignments that a filter expression describes.
The second operand of a subtraction is given by an inverted mesh, so that
"outside of the mesh" is what its filter says. -/
def Inside : Filter → (Nat → Int) → Prop
  | .polygon id, w => 0 < w id
  | .inverted id, w => ¬ w id < 0
  | .odd id, w => w id % 2 = 1
  | .inter f g, w => Inside f w ∧ Inside g w
  | .union f g, w => Inside f w ∨ Inside g w
  | .sub f g, w => Inside f w ∧ Inside g w
  | .xor f g, w => ¬ (Inside f w ↔ Inside g w)

/-- The ids used with `InvertedPolygonFilter`. -/
def invertedIds : Filter → List Nat
  | .polygon _ => []
  | .inverted id => [id]
  | .odd _ => []
  | .inter f g | .union f g | .sub f g | .xor f g => invertedIds f ++ invertedIds g

/-- All ids of a filter expression. -/
def filterIds : Filter → List Nat
  | .polygon id | .inverted id | .odd id => [id]
  | .inter f g | .union f g | .sub f g | .xor f g => filterIds f ++ filterIds g

/-- `c'` describes a node below the node described by `c`: a mesh without
polygons in the subtree keeps its winding number and gets no polygons. -/
def Below (c c' : List Info) : Prop :=
  c'.length = c.length ∧ ∀ id, ¬ holds c id → windingOf c' id = windingOf c id ∧ ¬ holds c' id

theorem hasPolygons_iff (i : Info) : i.hasPolygons = true ↔ 0 < i.interior ∨ 0 < i.border := by
  unfold Info.hasPolygons
  rw [decide_eq_true_iff, ne_eq, Nat.or_eq_zero_iff]
  omega

/-- C35: the first component of a filter's result is the boolean combination it
describes, provided the ids of its inverted operands are known to the tree. -/
theorem C35_filter_partial (f : Filter) (c : List Info)
    (h : ∀ id ∈ invertedIds f, id < c.length) :
    (f.eval c).1 = true ↔ Inside f (windingOf c) := by
  induction f with
  | polygon id =>
    simp only [Filter.eval, Inside, windingOf]
    by_cases hl : id < c.length
    · simp [hl]
    · simp [hl]
  | inverted id =>
    have hl : id < c.length := h id (by simp [invertedIds])
    simp [Filter.eval, Inside, windingOf, hl]
  | odd id =>
    simp only [Filter.eval, Inside, windingOf]
    by_cases hl : id < c.length
    · simp only [hl, getElem?_pos, dite_true, decide_eq_true_eq]; omega
    · simp [hl]
  | inter f g hf hg =>
    simp only [invertedIds, List.mem_append] at h
    simp only [Filter.eval, Inside, Bool.and_eq_true, hf fun i hi => h i (.inl hi),
      hg fun i hi => h i (.inr hi)]
  | sub f g hf hg =>
    simp only [invertedIds, List.mem_append] at h
    simp only [Filter.eval, Inside, Bool.and_eq_true, hf fun i hi => h i (.inl hi),
      hg fun i hi => h i (.inr hi)]
  | union f g hf hg =>
    simp only [invertedIds, List.mem_append] at h
    simp only [Filter.eval, Inside, Bool.or_eq_true, hf fun i hi => h i (.inl hi),
      hg fun i hi => h i (.inr hi)]
  | xor f g hf hg =>
    simp only [invertedIds, List.mem_append] at h
    have h1 := hf fun i hi => h i (.inl hi)
    have h2 := hg fun i hi => h i (.inr hi)
    simp only [Filter.eval, Inside, ← h1, ← h2]
    cases (f.eval c).1 <;> cases (g.eval c).1 <;> simp

/-- A box minus an inverted box at a point inside the first and outside the
second. -/
example : (Filter.eval (.sub (.polygon 0) (.inverted 1)) [⟨3, 0, 1⟩, ⟨2, 1, 0⟩]).1 = true ∧
    (Filter.eval (.sub (.polygon 0) (.inverted 1)) [⟨3, 0, 1⟩, ⟨2, 1, -1⟩]).1 = false := by decide

/-- C35 is false for an inverted operand whose id the tree has not seen: its
winding number is zero, which `InvertedPolygonFilter` calls inside, but the
filter returns "outside".  Subtracting an empty mesh removes everything. -/
theorem C35_filter_false :
    ¬ ∀ (f : Filter) (c : List Info), (f.eval c).1 = true ↔ Inside f (windingOf c) := by
  intro h
  have := h (.sub (.polygon 0) (.inverted 1)) [⟨3, 0, 1⟩]
  revert this
  simp [Filter.eval, Inside, windingOf]

/-- C36: when a filter says that its value cannot change any more, the value is
the same, and still final, at every content below. -/
theorem C36_pruning (f : Filter) (c c' : List Info) (hb : Below c c')
    (h : (f.eval c).2 = false) : f.eval c' = f.eval c := by
  have key : ∀ f : Filter, (f.eval c).2 = false → f.eval c' = f.eval c := by
    have base : ∀ id : Nat, (∀ i : Info, c[id]? = some i → i.hasPolygons = false) →
        (c[id]? = none ∧ c'[id]? = none) ∨
        ∃ i i' : Info, c[id]? = some i ∧ c'[id]? = some i' ∧ i'.pwn = i.pwn ∧
          i.hasPolygons = false ∧ i'.hasPolygons = false := by
      intro id hid
      by_cases hl : id < c.length
      · right
        have hl' : id < c'.length := by rw [hb.1]; exact hl
        have h0 : c[id].hasPolygons = false := hid _ (by simp [hl])
        have hn : ¬ holds c id := by
          rintro ⟨_, hh⟩
          have := (hasPolygons_iff c[id]).mpr hh
          rw [h0] at this; exact absurd this (by simp)
        obtain ⟨h1, h2⟩ := hb.2 id hn
        refine ⟨c[id], c'[id], by simp [hl], by simp [hl'], ?_, h0, ?_⟩
        · simpa [windingOf, hl, hl'] using h1
        · cases h3 : c'[id].hasPolygons with
          | false => rfl
          | true => exact absurd ⟨hl', (hasPolygons_iff _).mp h3⟩ h2
      · left
        have hl' : ¬ id < c'.length := by rw [hb.1]; exact hl
        constructor <;> simp <;> omega
    intro f
    induction f with
    | polygon id =>
      intro h
      simp only [Filter.eval] at h ⊢
      rcases base id (by intro i hi; rw [hi] at h; exact h) with ⟨h1, h2⟩ | ⟨i, i', h1, h2, h3, h4, h5⟩
      · rw [h1, h2]
      · rw [h1, h2]; simp only [h3, h4, h5]
    | inverted id =>
      intro h
      simp only [Filter.eval] at h ⊢
      rcases base id (by intro i hi; rw [hi] at h; exact h) with ⟨h1, h2⟩ | ⟨i, i', h1, h2, h3, h4, h5⟩
      · rw [h1, h2]
      · rw [h1, h2]; simp only [h3, h4, h5]
    | odd id =>
      intro h
      simp only [Filter.eval] at h ⊢
      rcases base id (by intro i hi; rw [hi] at h; exact h) with ⟨h1, h2⟩ | ⟨i, i', h1, h2, h3, h4, h5⟩
      · rw [h1, h2]
      · rw [h1, h2]; simp only [h3, h4, h5]
    | inter f g hf hg | sub f g hf hg | union f g hf hg | xor f g hf hg =>
      intro h
      simp only [Filter.eval] at h ⊢
      generalize f.eval c = r1 at *
      generalize g.eval c = r2 at *
      generalize f.eval c' = r1' at *
      generalize g.eval c' = r2' at *
      obtain ⟨a1, b1⟩ := r1
      obtain ⟨a2, b2⟩ := r2
      obtain ⟨a1', b1'⟩ := r1'
      obtain ⟨a2', b2'⟩ := r2'
      simp only [Prod.mk.injEq] at *
      revert h hf hg
      revert a1 b1 a2 b2 a1' b1' a2' b2'
      decide
  exact key f h

/-- Below a node that has used up the polygons of mesh 1, a union with mesh 1
around the point stays "inside". -/
example : Below [⟨3, 0, 0⟩, ⟨0, 0, 1⟩] [⟨1, 1, 1⟩, ⟨0, 0, 1⟩] ∧
    (Filter.eval (.union (.polygon 0) (.polygon 1)) [⟨3, 0, 0⟩, ⟨0, 0, 1⟩]) = (true, false) := by
  refine ⟨⟨rfl, ?_⟩, by decide⟩
  intro id
  match id with
  | 0 => simp [holds, windingOf]
  | 1 => simp [holds, windingOf]
  | n + 2 => simp [holds, windingOf]

/-- Result that describes a value which is final when the second component is
false. -/
def Settled (r r' : Bool × Bool) : Prop := r.2 = false → r' = r

/-- The per-id result inside the id-list filters is settled below. -/
theorem settled_id {c c' : List Info} (hb : Below c c') (f : Nat → Filter)
    (id : Nat) : Settled ((f id).eval c) ((f id).eval c') :=
  fun h => C36_pruning (f id) c c' hb h

/-- C37: `UnionIdsFilter` is the union over the listed ids. -/
theorem C37_union (ids : List Nat) (c : List Info) :
    (unionIds ids c).1 = true ↔ ∃ id ∈ ids, 0 < windingOf c id := by
  have step : ∀ t id, (unionIdsStep c t id).1 = true ↔ t.1 = true ∨ 0 < windingOf c id := by
    intro t id
    simp only [unionIdsStep, windingOf]
    by_cases hl : id < c.length <;> simp [hl]
  have key : ∀ (ids : List Nat) t, (ids.foldl (unionIdsStep c) t).1 = true ↔
      t.1 = true ∨ ∃ id ∈ ids, 0 < windingOf c id := by
    intro ids
    induction ids with
    | nil => simp
    | cons id ids ih =>
      intro t
      rw [List.foldl_cons, ih, step]
      simp [or_assoc]
  rw [unionIds, key]
  simp

example : (unionIds [2, 0] [⟨0, 0, 1⟩, ⟨0, 0, 0⟩]).1 = true := by decide

/-- C37: `IntersectIdsFilter` is the intersection over the listed ids. -/
theorem C37_intersect (ids : List Nat) (c : List Info) :
    (intersectIds ids c).1 = true ↔ ∀ id ∈ ids, 0 < windingOf c id := by
  have step : ∀ t id, (intersectIdsStep c t id).1 = true ↔ t.1 = true ∧ 0 < windingOf c id := by
    intro t id
    simp only [intersectIdsStep, windingOf]
    by_cases hl : id < c.length <;> simp [hl]
  have key : ∀ (ids : List Nat) t, (ids.foldl (intersectIdsStep c) t).1 = true ↔
      t.1 = true ∧ ∀ id ∈ ids, 0 < windingOf c id := by
    intro ids
    induction ids with
    | nil => simp
    | cons id ids ih =>
      intro t
      rw [List.foldl_cons, ih, step]
      simp [and_assoc]
  rw [intersectIds, key]
  simp

example : (intersectIds [1, 0] [⟨0, 0, 1⟩, ⟨0, 0, 2⟩]).1 = true ∧
    (intersectIds [1, 2] [⟨0, 0, 1⟩, ⟨0, 0, 2⟩]).1 = false := by decide

/-- C37 for `SubtractIdsFilter`, when the minuend is id `0` and all subtracted
ids are known to the tree.  The meshes to subtract are inverted.  Missing: other
minuends and unknown subtracted ids, see `C37_subtract_false`. -/
theorem C37_subtract_partial (rest : List Nat) (c : List Info)
    (h : ∀ id ∈ rest, id < c.length) :
    (subtractIds (0 :: rest) c).1 = true ↔
      0 < windingOf c 0 ∧ ∀ id ∈ rest, ¬ windingOf c id < 0 := by
  have step : ∀ t id, id < c.length →
      ((subtractIdsStep c t id).1 = true ↔ t.1 = true ∧ ¬ windingOf c id < 0) := by
    intro t id hl
    simp [subtractIdsStep, windingOf, hl]
  have key : ∀ (ids : List Nat) t, (∀ id ∈ ids, id < c.length) →
      ((ids.foldl (subtractIdsStep c) t).1 = true ↔
      t.1 = true ∧ ∀ id ∈ ids, ¬ windingOf c id < 0) := by
    intro ids
    induction ids with
    | nil => simp
    | cons id ids ih =>
      intro t hl
      rw [List.foldl_cons, ih _ fun i hi => hl i (by simp [hi]), step _ _ (hl id (by simp))]
      simp [and_assoc]
  cases c with
  | nil => simp [subtractIds, windingOf]
  | cons i is =>
    have : subtractIds (0 :: rest) (i :: is) =
        rest.foldl (subtractIdsStep (i :: is)) (decide (i.pwn > 0), i.hasPolygons) := by
      simp [subtractIds]
    rw [this, key _ _ h]
    simp [windingOf]

example : (subtractIds [0, 2, 1] [⟨1, 0, 1⟩, ⟨1, 0, 0⟩, ⟨1, 0, 0⟩]).1 = true ∧
    (subtractIds [0, 2, 1] [⟨1, 0, 1⟩, ⟨1, 0, -1⟩, ⟨1, 0, 0⟩]).1 = false := by decide

/-- C37 is false for `SubtractIdsFilter` when the minuend is not id `0`: the
code looks at id `0` instead. -/
theorem C37_subtract_false :
    ¬ ∀ (id0 : Nat) (rest : List Nat) (c : List Info), (∀ id ∈ id0 :: rest, id < c.length) →
      ((subtractIds (id0 :: rest) c).1 = true ↔
        0 < windingOf c id0 ∧ ∀ id ∈ rest, ¬ windingOf c id < 0) := by
  intro h
  have := h 1 [0] [⟨1, 0, 0⟩, ⟨1, 0, 1⟩] (by decide)
  revert this
  simp [windingOf]
  decide

/-- C37 is also false for a subtracted id that the tree has not seen: subtracting
an empty mesh removes everything. -/
theorem C37_subtract_unknown_false :
    ¬ ∀ (rest : List Nat) (c : List Info), (subtractIds (0 :: rest) c).1 = true ↔
        0 < windingOf c 0 ∧ ∀ id ∈ rest, ¬ windingOf c id < 0 := by
  intro h
  have := h [1] [⟨1, 0, 1⟩]
  revert this
  simp [windingOf]
  decide

theorem foldl_settled {step step' : Bool × Bool → Nat → Bool × Bool}
    (hs : ∀ t t' id, Settled t t' → Settled (step t id) (step' t' id)) :
    ∀ (ids : List Nat) t t', Settled t t' → Settled (ids.foldl step t) (ids.foldl step' t') := by
  intro ids
  induction ids with
  | nil => intro t t' h; exact h
  | cons id ids ih => intro t t' h; exact ih _ _ (hs t t' id h)

/-- C36 for the id-list filters: a final value is the same at every content
below. -/
theorem C36_id_lists (ids : List Nat) (c c' : List Info) (hb : Below c c') :
    ((unionIds ids c).2 = false → unionIds ids c' = unionIds ids c) ∧
    ((intersectIds ids c).2 = false → intersectIds ids c' = intersectIds ids c) ∧
    ((subtractIds ids c).2 = false → subtractIds ids c' = subtractIds ids c) := by
  have bool_or : ∀ t t' r r' : Bool × Bool, Settled t t' → Settled r r' →
      Settled (t.1 || r.1, (!t.1 || t.2) && (!r.1 || r.2) && (t.2 || r.2))
        (t'.1 || r'.1, (!t'.1 || t'.2) && (!r'.1 || r'.2) && (t'.2 || r'.2)) := by
    rintro ⟨a, b⟩ ⟨a', b'⟩ ⟨d, e⟩ ⟨d', e'⟩
    unfold Settled
    simp only [Prod.mk.injEq]
    revert a b a' b' d e d' e'
    decide
  have bool_and : ∀ t t' r r' : Bool × Bool, Settled t t' → Settled r r' →
      Settled (t.1 && r.1, (t.1 || t.2) && (r.1 || r.2) && (t.2 || r.2))
        (t'.1 && r'.1, (t'.1 || t'.2) && (r'.1 || r'.2) && (t'.2 || r'.2)) := by
    rintro ⟨a, b⟩ ⟨a', b'⟩ ⟨d, e⟩ ⟨d', e'⟩
    unfold Settled
    simp only [Prod.mk.injEq]
    revert a b a' b' d e d' e'
    decide
  refine ⟨?_, ?_, ?_⟩
  · exact foldl_settled (fun t t' id ht => bool_or t t' _ _ ht (settled_id hb .polygon id)) ids _ _
      (fun _ => rfl)
  · exact foldl_settled (fun t t' id ht => bool_and t t' _ _ ht (settled_id hb .polygon id)) ids _ _
      (fun _ => rfl)
  · cases ids with
    | nil => intro _; rfl
    | cons id0 rest =>
      simp only [subtractIds, hb.1]
      by_cases h0 : id0 ≥ c.length
      · simp [h0]
      · rw [if_neg h0, if_neg h0]
        have h1 := settled_id hb .polygon 0
        cases c with
        | nil => simp at h0
        | cons i is =>
          cases c' with
          | nil => simp [Below] at hb
          | cons i' is' =>
            exact foldl_settled
              (fun t t' id ht => bool_and t t' _ _ ht (settled_id hb .inverted id)) rest _ _ h1

example : (unionIds [0, 1] [⟨3, 0, 0⟩, ⟨0, 0, 1⟩]).2 = false ∧
    (unionIds [0, 1] [⟨3, 0, 0⟩, ⟨1, 0, 1⟩]).2 = true := by decide

end Walnut.Props
