/- C43: the split of the lowest cost. -/
import Verif.Bsp.DiscountProof
import Verif.Props.Events

namespace Walnut.Props
open Walnut.Geom Walnut.Bsp

/-- **C43.**  For every array of event points of fewer than 2^56 polygons, of which `exclude_count` have the excluded id,
`GetLowestCost` runs without a failure, and its result is the split of the least cost among all positions after an end that is
followed by a start or is the last event: it has the number of polygons that start before and that end after the position, and
the costs are those of `C42` for these numbers. Among several splits of the least cost the first one is returned. -/
theorem C43 {dim : Fin 3} {polys : List EPoly} {ev : List EP} {s t : Nat → Nat} {loc : Nat → ℚ} {excl : Option Nat} {c : Nat}
    (h : EventsOk dim polys ev s t loc) (hn : polys.length < 2 ^ 56) (h0 : polys ≠ [])
    (hc : c = polys.countP fun q => decide (some q.id = excl)) :
    ∃ r, lowestCost excl c polys ev = some r ∧ LowestOk excl polys ev s t r :=
  lowestCost_spec h hn h0 hc

/-- C43: for a split found by `GetLowestCost`, `DiscountBorderPolygons` runs without a failure, and afterwards the counts are the
numbers of polygons with a point on the negative side of the plane, with a point on its positive side, and inside of the plane;
the range of event points is the one at the plane, and nothing else has changed. -/
theorem C43_discount {dim : Fin 3} {polys : List EPoly} {ev : List EP} {s t : Nat → Nat} {loc : Nat → ℚ} {excl : Option Nat} {r : EPart}
    (h : EventsOk dim polys ev s t loc) (hr : LowestOk excl polys ev s t r) :
    ∃ r', discountBorder ev polys.length r = some r' ∧ DiscountOk dim polys loc (loc r.split.toNat) r' ∧
      r' = { r with neg := r'.neg, pos := r'.pos, border := r'.border, locBegin := r'.locBegin, locEnd := r'.locEnd } :=
  discountBorder_spec h hr.candidate hr.neg hr.pos hr.border

/-- C43: the plane of the split passes through the location of its event and is oriented so that lesser components are on its
negative side. -/
theorem C43_plane {dim : Fin 3} {polys : List EPoly} {ev : List EP} {s t : Nat → Nat} {loc : Nat → ℚ} {excl : Option Nat} {r : EPart}
    (h : EventsOk dim polys ev s t loc) (hx : Extents dim polys) (hr : LowestOk excl polys ev s t r) :
    ∃ H, eventPlane dim polys ev r = some H ∧
      ∀ q : Q3, (H.side q = 0 ↔ q dim = loc r.split.toNat) ∧ (H.side q < 0 ↔ q dim < loc r.split.toNat) :=
  eventPlane_spec h hx hr.candidate

/-- The event points of `evPolys`. -/
def evArray : List EP :=
  [⟨true, true, 2⟩, ⟨true, true, 5⟩, ⟨true, false, 3⟩, ⟨false, true, 4⟩, ⟨false, false, 2⟩, ⟨false, false, 0⟩,
    ⟨false, true, 7⟩, ⟨true, false, 1⟩]

/-- The array satisfies the hypothesis of `C43` by `C44`. -/
theorem evArray_ok : ∃ s t loc, EventsOk 0 evPolys evArray s t loc := by
  obtain ⟨ev, s, t, loc, h1, h2⟩ := C44 sortHeap_ok evPolys_extents (mem := evMem) rfl
  have e : makeEvents sortHeap 0 evPolys evMem = some evArray := by decide +kernel
  rw [e] at h1
  cases h1
  exact ⟨s, t, loc, h2⟩

/-- The hypotheses of `C43` hold for the four polygons with the mesh 0 excluded. -/
example : (∃ s t loc, EventsOk 0 evPolys evArray s t loc) ∧ evPolys.length < 2 ^ 56 ∧ evPolys ≠ [] ∧
    2 = evPolys.countP fun q => decide (some q.id = some 0) :=
  ⟨evArray_ok, by decide, by decide, by decide⟩

/-- What the functions compute for them: three polygons are on the negative side of x = 2 at first, one of them is in the
plane. -/
example : (lowestCost (some 0) 2 evPolys evArray).map (fun r => (r.split.toNat, r.cost.toNat, r.neg, r.pos, r.border)) =
      some (5, 4, 3, 1, 0) ∧
    ((lowestCost (some 0) 2 evPolys evArray).bind (discountBorder evArray 4)).map (fun r => (r.neg, r.pos, r.border, r.locBegin, r.locEnd)) =
      some (2, 1, 1, 2, 7) := by decide +kernel

/-- C43 is false without its hypothesis on `exclude_count`: with a greater number the estimator is used outside of its domain. -/
theorem C43_exclude_undefined : lowestCost (some 0) 3 evPolys evArray = none := by decide +kernel

/-- C43 for no polygons: the cost and the index are the greatest numbers, and `DiscountBorderPolygons` would read outside of the
array. -/
theorem C43_empty (excl : Option Nat) :
    ∃ r, lowestCost excl 0 [] [] = some r ∧ r.split = BitVec.allOnes 64 ∧ r.cost = BitVec.allOnes 64 ∧ discountBorder [] 0 r = none := by
  refine ⟨{ split := BitVec.allOnes 64, cost := BitVec.allOnes 64, negCost := BitVec.allOnes 64, posCost := BitVec.allOnes 64 }, by rfl, rfl, rfl, ?_⟩
  have : ∀ k neg border, discountBack [] k neg border = none := by
    intro k neg border
    cases k <;> simp [discountBack]
  simp [discountBorder, this]

/-! ### The excluded mesh -/

theorem excludeLoop_spec (l pre : List Nat) (best : Option Nat × Nat) (count : Nat)
    (hcount : count = pre.countP (fun c => decide (c ≠ 0)))
    (hbest : (best = (none, 0) ∧ ∀ c ∈ pre, c = 0) ∨
      (∃ id, best = (some id, best.2) ∧ pre[id]? = some best.2 ∧ best.2 ≠ 0 ∧ (∀ c ∈ pre, c ≤ best.2) ∧ ∀ (j c : Nat), j < id → pre[j]? = some c → c < best.2)) :
    ∃ b n, excludeLoop pre.length l best count = (b, n) ∧ n = (pre ++ l).countP (fun c => decide (c ≠ 0)) ∧
      ((b = (none, 0) ∧ ∀ c ∈ pre ++ l, c = 0) ∨
      (∃ id, b = (some id, b.2) ∧ (pre ++ l)[id]? = some b.2 ∧ b.2 ≠ 0 ∧ (∀ c ∈ pre ++ l, c ≤ b.2) ∧
        ∀ (j c : Nat), j < id → (pre ++ l)[j]? = some c → c < b.2)) := by
  induction l generalizing pre best count with
  | nil => exact ⟨best, count, rfl, by simpa using hcount, by simpa using hbest⟩
  | cons x l ih =>
    have hlen : (pre ++ [x]).length = pre.length + 1 := by simp
    have happ : pre ++ x :: l = (pre ++ [x]) ++ l := by simp
    unfold excludeLoop
    rw [happ, ← hlen]
    have keep : (x = 0 ∨ x ≤ best.2 ∧ best ≠ (none, 0)) →
        ((best = (none, 0) ∧ ∀ c ∈ pre ++ [x], c = 0) ∨
        (∃ id, best = (some id, best.2) ∧ (pre ++ [x])[id]? = some best.2 ∧ best.2 ≠ 0 ∧ (∀ c ∈ pre ++ [x], c ≤ best.2) ∧
          ∀ (j c : Nat), j < id → (pre ++ [x])[j]? = some c → c < best.2)) := by
      intro hx
      rcases hbest with ⟨h1, h2⟩ | ⟨id, h1, h2, h3, h4, h5⟩
      · refine Or.inl ⟨h1, fun c hc => ?_⟩
        rcases List.mem_append.1 hc with hc | hc
        · exact h2 c hc
        · rcases hx with hx | hx
          · simpa [hx] using hc
          · exact absurd h1 hx.2
      · have hid := (List.getElem?_eq_some_iff.1 h2).1
        refine Or.inr ⟨id, h1, by rw [List.getElem?_append_left hid, h2], h3, fun c hc => ?_, fun j c hj hc => ?_⟩
        · rcases List.mem_append.1 hc with hc | hc
          · exact h4 c hc
          · obtain rfl : c = x := by simpa using hc
            rcases hx with hx | hx
            · omega
            · exact hx.1
        · rw [List.getElem?_append_left (by omega)] at hc
          exact h5 j c hj hc
    by_cases hx : x ≠ 0
    · rw [if_pos hx]
      refine ih (pre ++ [x]) _ _ (by rw [List.countP_append, hcount]; simp [hx]) ?_
      by_cases hlt : best.2 < x
      · rw [if_pos hlt]
        refine Or.inr ⟨pre.length, rfl, by simp, hx, fun c hc => ?_, fun j c hj hc => ?_⟩
        · rcases List.mem_append.1 hc with hc | hc
          · rcases hbest with ⟨h1, h2⟩ | ⟨id, h1, h2, h3, h4, h5⟩
            · rw [h2 c hc]; omega
            · exact (h4 c hc).trans hlt.le
          · simp at hc; simp [hc]
        · rw [List.getElem?_append_left hj] at hc
          have hmem := List.mem_of_getElem? hc
          rcases hbest with ⟨h1, h2⟩ | ⟨id, h1, h2, h3, h4, h5⟩
          · rw [h2 c hmem]; simp only; omega
          · exact lt_of_le_of_lt (h4 c hmem) hlt
      · rw [if_neg hlt]
        refine keep (Or.inr ⟨by omega, fun hb => ?_⟩)
        rw [hb] at hlt
        simp only at hlt; omega
    · rw [if_neg hx]
      simp only [not_not] at hx
      exact ih (pre ++ [x]) _ _ (by rw [List.countP_append, hcount]; simp [hx]) (keep (Or.inl hx))

/-- C43: the mesh that the callers exclude. If at least two meshes have polygons inside of the node, it is the first one with
the most polygons, together with their number; otherwise none is excluded. -/
theorem C43_exclude (counts : List Nat) :
    (2 ≤ counts.countP (fun c => decide (c ≠ 0)) →
      ∃ id c, costExclude counts = (some id, c) ∧ counts[id]? = some c ∧ c ≠ 0 ∧ (∀ x ∈ counts, x ≤ c) ∧
        ∀ (j x : Nat), j < id → counts[j]? = some x → x < c) ∧
    (counts.countP (fun c => decide (c ≠ 0)) < 2 → costExclude counts = (none, 0)) := by
  obtain ⟨b, n, h1, h2, h3⟩ := excludeLoop_spec counts [] (none, 0) 0 rfl (Or.inl ⟨rfl, by simp⟩)
  simp only [List.length_nil, List.nil_append] at h1 h2 h3
  have e : costExclude counts = if 1 < n then b else (none, 0) := by unfold costExclude; rw [h1]
  rw [e, ← h2]
  constructor
  · intro hn
    rw [if_pos (by omega)]
    rcases h3 with ⟨h4, h5⟩ | ⟨id, h4, h5⟩
    · exfalso
      have : counts.countP (fun c => decide (c ≠ 0)) = 0 := List.countP_eq_zero.2 fun c hc => by simp [h5 c hc]
      omega
    · exact ⟨id, b.2, h4, h5⟩
  · intro hn
    rw [if_neg (by omega)]

example : costExclude [0, 3, 0, 5, 5] = (some 3, 5) ∧ costExclude [0, 3] = (none, 0) := by decide

end Walnut.Props
