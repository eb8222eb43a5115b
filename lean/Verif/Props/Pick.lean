/-
C60 (the choice of a split plane).

The statements are about `NodeData.pickSplitPlane` (the model of `PickSplitPlane`) on a leaf
of a tree that a program can build.  `nth` is `std::nth_element`: any function that does what
the C++ standard says.
-/
import Verif.Bsp.PickProof
import Verif.Props.Partition
import Mathlib.Data.List.Sort

namespace Walnut.Props
open Walnut.Geom Walnut.Poly Walnut.Bsp

theorem leaf_ok {aabb : Bool} {t : Node} {S : List Source} (h : Reach aabb t S) {path : List Bool} {d : NodeData} (hl : t.leafAt path = some d) :
    ∃ anc, TreeOK anc (.leaf d) ∧ ∀ (g : HS3) (t' : Node), t.splitAt [] path g = some t' →
      ∃ d' n p, split (anc.map Prod.snd) d g = some (.inner d' g (.leaf n) (.leaf p)) ∧
        t'.leafAt (path ++ [false]) = some n ∧ t'.leafAt (path ++ [true]) = some p := Node.leafAt_ok t [] path d h.spec.1 hl

/-- C60, as far as it holds: `PickSplitPlane` returns the plane of a polygon of the node, or,
if that polygon's mesh has more than 40 facets there, possibly a plane perpendicular to it
with points of the mesh strictly on both sides.  The polygon's mesh has at most as many
facets in the node as any other mesh with at least two.  Missing: meshes with a single facet
(see `C60_false`). -/
theorem C60_smallest_partial {aabb : Bool} {t : Node} {S : List Source} (h : Reach aabb t S) {path : List Bool} {d : NodeData} (hl : t.leafAt path = some d)
    (h0 : d.contents ≠ []) {nth : List Dist → Nat → List Dist} (hn : IsNthElement nth) {g : HS3} (hg : d.pickSplitPlane nth = some g) :
    ∃ p ∈ d.contents, (g = p.poly.plane ∨ (40 < d.facets p.id ∧ dotQ g.n.q p.poly.plane.n.q = 0 ∧ Separates g d.contents p.id)) ∧
      ∀ y ∈ d.contents, 2 ≤ d.facets y.id → d.facets p.id ≤ d.facets y.id := by
  obtain ⟨anc, hd, _⟩ := leaf_ok h hl
  exact pickSplitPlane_spec hn hd.2.2 (fun x hx => (hd.1 x hx).convex) h0 hg

/-- C60: splitting the leaf along the chosen plane makes progress: an interior polygon is
moved to the border of a child, or both children get interior polygons. -/
theorem C60_progress {aabb : Bool} {t : Node} {S : List Source} (h : Reach aabb t S) {path : List Bool} {d : NodeData} (hl : t.leafAt path = some d)
    (h0 : d.contents ≠ []) {nth : List Dist → Nat → List Dist} (hn : IsNthElement nth) {g : HS3} (hg : d.pickSplitPlane nth = some g) {t' : Node}
    (ht : t.splitAt [] path g = some t') :
    ∃ n p, t'.leafAt (path ++ [false]) = some n ∧ t'.leafAt (path ++ [true]) = some p ∧
      ((∃ x ∈ d.contents, ∃ y ∈ n.border ++ p.border, y.id = x.id ∧ y.poly.plane = x.poly.plane) ∨ (n.contents ≠ [] ∧ p.contents ≠ [])) := by
  obtain ⟨anc, hd, hs⟩ := leaf_ok h hl
  obtain ⟨x, hx, hx', _⟩ := pickSplitPlane_spec hn hd.2.2 (fun x hx => (hd.1 x hx).convex) h0 hg
  obtain ⟨d', n, p, e, e1, e2⟩ := hs g t' ht
  refine ⟨n, p, e1, e2, ?_⟩
  rcases hx' with hx' | ⟨_, _, ⟨y, hy, _, q, hq, hlt⟩, ⟨z, hz, _, r, hr, hgt⟩⟩
  · exact Or.inl ⟨x, hx, split_border hd e hx hx'⟩
  · obtain ⟨a, ha, _⟩ := (split_keeps hd e hy hq).1 hlt
    obtain ⟨b, hb, _⟩ := (split_keeps hd e hz hr).2 hgt
    exact Or.inr ⟨List.ne_nil_of_mem ha, List.ne_nil_of_mem hb⟩

/-- C60: choosing a plane is defined if no mesh has more than 40 facets in the node.  (With
more, `Reduce` of the perpendicular plane can overflow, see C61.) -/
theorem C60_defined {aabb : Bool} {t : Node} {S : List Source} (h : Reach aabb t S) {path : List Bool} {d : NodeData} (hl : t.leafAt path = some d)
    (h0 : d.contents ≠ []) (h40 : ∀ x ∈ d.contents, d.facets x.id ≤ 40) (nth : List Dist → Nat → List Dist) :
    ∃ g, d.pickSplitPlane nth = some g := by
  obtain ⟨anc, hd, _⟩ := leaf_ok h hl
  have hid : ∀ x ∈ d.contents, x.id < d.info.length := by
    intro x hx
    by_contra hc
    have h1 := (hd.2.2 x.id).1
    have h2 : 0 < d.contents.countP (fun y => y.id == x.id) := countP_id_pos.2 ⟨x, hx, rfl⟩
    unfold NodeData.infoFor at h1
    rw [List.getD_eq_getElem?_getD, List.getElem?_eq_none (by omega)] at h1
    have h3 : ({} : Info).interior = 0 := rfl
    simp only [Option.getD_none, h3] at h1
    omega
  obtain ⟨i, hi⟩ := pickIndex_defined hid h0
  have hlt := (pickIndex_spec hi h0).1
  obtain ⟨c, hc⟩ := meshCount_defined hid hlt
  unfold NodeData.pickSplitPlane
  rw [if_neg (by simpa using h0)]
  simp only [hi, hc, List.getElem?_eq_getElem hlt]
  have hcf := meshCount_facets hd.2.2 (List.getElem?_eq_getElem hlt) hc
  have := h40 _ (List.getElem_mem hlt)
  split_ifs with h1 h2
  · exact ⟨_, rfl⟩
  · omega
  · exact ⟨_, rfl⟩

/-- The facets in the node, as `GetCostExclude` sees them. -/
theorem costExcludeLoop_spec : ∀ (l : List Info) (k : Nat) (best : Option Nat × Nat) (count : Nat),
    (costExcludeLoop l k best count).2 = count + l.countP (fun i => i.interior != 0) ∧
    (best.2 ≤ (costExcludeLoop l k best count).1.2 ∧ ∀ i ∈ l, i.interior ≤ (costExcludeLoop l k best count).1.2) ∧
    ((costExcludeLoop l k best count).1 = best ∨
      ∃ (j : Nat) (i : Info), l[j]? = some i ∧ (costExcludeLoop l k best count).1 = (some (k + j), i.interior) ∧
        best.2 < i.interior ∧ ∀ (j' : Nat) (i' : Info), j' < j → l[j']? = some i' → i'.interior < i.interior) := by
  intro l
  induction l with
  | nil => intro k best count; simp [costExcludeLoop]
  | cons i l ih =>
    intro k best count
    unfold costExcludeLoop
    split_ifs with h0 hb
    · obtain ⟨a, ⟨b1, b2⟩, c⟩ := ih (k + 1) (some k, i.interior) (count + 1)
      refine ⟨by rw [a, List.countP_cons]; simp [h0]; omega, ⟨by simp only at b1; omega, ?_⟩, Or.inr ?_⟩
      · intro x hx
        rcases List.mem_cons.1 hx with rfl | hx
        · exact b1
        · exact b2 x hx
      · rcases c with c | ⟨j, y, hy, e, e1, e2⟩
        · exact ⟨0, i, rfl, c, hb, fun j' i' h => by omega⟩
        · refine ⟨j + 1, y, by simpa using hy, by rw [e]; congr 2; omega, hb.trans e1, fun j' i' hj hi => ?_⟩
          cases j' with
          | zero => simp at hi; rw [← hi]; exact e1
          | succ j' => exact e2 j' i' (by omega) (by simpa using hi)
    · obtain ⟨a, ⟨b1, b2⟩, c⟩ := ih (k + 1) best (count + 1)
      refine ⟨by rw [a, List.countP_cons]; simp [h0]; omega, ⟨b1, ?_⟩, ?_⟩
      · intro x hx
        rcases List.mem_cons.1 hx with rfl | hx
        · omega
        · exact b2 x hx
      · rcases c with c | ⟨j, y, hy, e, e1, e2⟩
        · exact Or.inl c
        · refine Or.inr ⟨j + 1, y, by simpa using hy, by rw [e]; congr 2; omega, e1, fun j' i' hj hi => ?_⟩
          cases j' with
          | zero => simp at hi; rw [← hi]; omega
          | succ j' => exact e2 j' i' (by omega) (by simpa using hi)
    · obtain ⟨a, ⟨b1, b2⟩, c⟩ := ih (k + 1) best count
      have hz : i.interior = 0 := by omega
      refine ⟨by rw [a, List.countP_cons]; simp [hz], ⟨b1, ?_⟩, ?_⟩
      · intro x hx
        rcases List.mem_cons.1 hx with rfl | hx
        · omega
        · exact b2 x hx
      · rcases c with c | ⟨j, y, hy, e, e1, e2⟩
        · exact Or.inl c
        · refine Or.inr ⟨j + 1, y, by simpa using hy, by rw [e]; congr 2; omega, e1, fun j' i' hj hi => ?_⟩
          cases j' with
          | zero => simp at hi; rw [← hi]; omega
          | succ j' => exact e2 j' i' (by omega) (by simpa using hi)

/-- C60: `GetCostExclude` returns the mesh with most facets in the leaf and their number (of
several such meshes the one with the smallest id), if there are facets of at least two
meshes, and no mesh otherwise. -/
theorem C60_cost_exclude {aabb : Bool} {t : Node} {S : List Source} (h : Reach aabb t S) {path : List Bool} {d : NodeData} (hl : t.leafAt path = some d) :
    (∀ a b : BPoly, a ∈ d.contents → b ∈ d.contents → a.id ≠ b.id →
      ∃ x ∈ d.contents, d.costExclude = (some x.id, d.facets x.id) ∧ ∀ y ∈ d.contents, d.facets y.id ≤ d.facets x.id ∧
        (y.id < x.id → d.facets y.id < d.facets x.id)) ∧
    ((∀ a b : BPoly, a ∈ d.contents → b ∈ d.contents → a.id = b.id) → d.costExclude = (none, 0)) := by
  obtain ⟨anc, hd, _⟩ := leaf_ok h hl
  have hcount : ∀ id, (d.info.getD id {}).interior = d.facets id := fun id => (hd.2.2 id).1
  obtain ⟨c1, ⟨_, c2⟩, c3⟩ := costExcludeLoop_spec d.info 0 (none, 0) 0
  have get : ∀ x ∈ d.contents, ∃ i, d.info[x.id]? = some i ∧ i.interior = d.facets x.id ∧ 0 < d.facets x.id := by
    intro x hx
    have h2 : 0 < d.facets x.id := countP_id_pos.2 ⟨x, hx, rfl⟩
    have h1 := hcount x.id
    rw [List.getD_eq_getElem?_getD] at h1
    cases hi : d.info[x.id]? with
    | none => rw [hi] at h1; have h3 : ({} : Info).interior = 0 := rfl; simp only [Option.getD_none, h3] at h1; omega
    | some i => rw [hi] at h1; exact ⟨i, rfl, h1, h2⟩
  have back : ∀ j i, d.info[j]? = some i → i.interior ≠ 0 → ∃ x ∈ d.contents, x.id = j ∧ d.facets x.id = i.interior := by
    intro j i hi h0
    have h1 := hcount j
    rw [List.getD_eq_getElem?_getD, hi] at h1
    simp only [Option.getD_some] at h1
    obtain ⟨x, hx, e⟩ := countP_id_pos.1 (show 0 < d.contents.countP (fun x => x.id == j) by unfold NodeData.facets at h1; omega)
    exact ⟨x, hx, e, by rw [e, h1]⟩
  constructor
  · intro a b ha hb hab
    obtain ⟨i, hi, ei, pi⟩ := get a ha
    obtain ⟨j, hj, ej, pj⟩ := get b hb
    have two : 1 < d.info.countP (fun i => i.interior != 0) := by
      rcases lt_or_gt_of_ne hab with hlt | hlt
      · exact countP_two hi hj hlt (by simp; omega) (by simp; omega)
      · exact countP_two hj hi hlt (by simp; omega) (by simp; omega)
    unfold NodeData.costExclude
    simp only [c1, Nat.zero_add]
    rw [if_pos two]
    rcases c3 with c3 | ⟨k, y, hy, e, -, e2⟩
    · exfalso
      have := c2 i (List.mem_of_getElem? hi)
      rw [c3] at this
      simp at this; omega
    · have hy0 : y.interior ≠ 0 := by
        have := c2 i (List.mem_of_getElem? hi)
        rw [e] at this
        simp only at this; omega
      obtain ⟨x, hx, ex, ef⟩ := back k y hy hy0
      refine ⟨x, hx, by rw [e, ef, ex]; simp, fun z hz => ?_⟩
      obtain ⟨w, hw, ew, _⟩ := get z hz
      have := c2 w (List.mem_of_getElem? hw)
      rw [e] at this
      simp only at this
      refine ⟨by omega, fun hlt => ?_⟩
      have := e2 z.id w (by omega) hw
      omega
  · intro hone
    unfold NodeData.costExclude
    simp only [c1, Nat.zero_add]
    rw [if_neg]
    intro htwo
    obtain ⟨j, k, x, y, hjk, hx, hy, px, py⟩ := exists_two htwo
    obtain ⟨a, ha, ea, _⟩ := back j x hx (by simpa using px)
    obtain ⟨b, hb, eb, _⟩ := back k y hy (by simpa using py)
    have := hone a b ha hb
    omega

/-! ### Examples -/

/-- Sorting does what `std::nth_element` has to do. -/
def nthBySort (l : List Dist) (_ : Nat) : List Dist := l.insertionSort fun a b => Dist.value a ≤ Dist.value b

theorem nthBySort_ok : IsNthElement nthBySort := by
  intro l k hl hk
  have hp : (nthBySort l k).Perm l := List.perm_insertionSort _ _
  have hs : (nthBySort l k).Pairwise fun a b => Dist.value a ≤ Dist.value b := by
    letI : Std.Total fun a b : Dist => Dist.value a ≤ Dist.value b := ⟨fun a b => le_total _ _⟩
    letI : IsTrans Dist fun a b => Dist.value a ≤ Dist.value b := ⟨fun a b c h1 h2 => h1.trans h2⟩
    exact List.pairwise_insertionSort _ l
  have hk' : k < (nthBySort l k).length := by rw [hp.length_eq]; exact hk
  have hmem : ∀ x ∈ nthBySort l k, x.2 ≠ 0 := fun x hx => hl x (hp.mem_iff.1 hx)
  have e : nthBySort l k = (nthBySort l k).take k ++ (nthBySort l k)[k] :: (nthBySort l k).drop (k + 1) := by simp
  have hm := hmem _ (List.getElem_mem hk')
  refine ⟨hp, _, List.getElem?_eq_getElem hk', fun x hx => ?_, fun x hx => ?_⟩
  · rw [distLess_iff hm (hmem x (List.mem_of_mem_take hx)), not_lt]
    rw [e, List.pairwise_append] at hs
    exact hs.2.2 x hx _ List.mem_cons_self
  · rw [distLess_iff (hmem x (List.mem_of_mem_drop hx)) hm, not_lt]
    rw [e, List.pairwise_append] at hs
    exact (List.pairwise_cons.1 hs.2.1).1 x hx

/-- C60 (disagreement): the polygon just before the middle of the list is never considered.
A node holds one facet of mesh 0 and two of mesh 1, and the plane of one of the latter is
chosen. -/
theorem C60_false : ∃ t S d, Api false t S ∧ t.leafAt [] = some d ∧ d.contents ≠ [] ∧ ∀ nth, ∃ g, d.pickSplitPlane nth = some g ∧
    ∀ p ∈ d.contents, g = p.poly.plane → ∃ y ∈ d.contents, d.facets y.id < d.facets p.id := by
  have h : ((twice [triangle 2 ⟨0, 0, 0⟩ ⟨0, 4, 0⟩ ⟨4, 0, 0⟩] [triangle 1 ⟨0, 0, 0⟩ ⟨4, 0, 0⟩ ⟨0, 0, 4⟩, triangle 0 ⟨0, 0, 0⟩ ⟨0, 0, 4⟩ ⟨0, 4, 0⟩]).bind fun t =>
      (t.leafAt []).map fun d => (d.pickIndex, d.meshCount 1, d.contents.map fun x => (x.id, x.poly.plane))) =
      some (some 1, some 2, [(0, ⟨⟨0, 0, -16⟩, 0⟩), (1, ⟨⟨0, -16, 0⟩, 0⟩), (1, ⟨⟨-16, 0, 0⟩, 0⟩)]) := by decide +kernel
  obtain ⟨t, ht, h⟩ := Option.bind_eq_some_iff.1 h
  obtain ⟨d, hd, h⟩ := Option.map_eq_some_iff.1 h
  simp only [Prod.mk.injEq] at h
  obtain ⟨h1, h2, h3⟩ := h
  have hlen : d.contents.length = 3 := by simpa using congrArg List.length h3
  obtain ⟨a, b, c, hc⟩ := List.length_eq_three.1 hlen
  rw [hc] at h3
  simp only [List.map_cons, List.map_nil, List.cons.injEq, Prod.mk.injEq, and_true] at h3
  obtain ⟨⟨ia, pa⟩, ⟨ib, pb⟩, ic, pc⟩ := h3
  refine ⟨t, _, d, twice_api ?_ ?_ ht, hd, by simp [hc], fun nth => ⟨b.poly.plane, ?_, ?_⟩⟩
  · simp only [List.mem_singleton, forall_eq]
    exact triangle_convex _ _ _ _ (by decide)
  · simp only [List.mem_cons, List.not_mem_nil, or_false, forall_eq_or_imp, forall_eq]
    exact ⟨triangle_convex _ _ _ _ (by decide), triangle_convex _ _ _ _ (by decide)⟩
  · unfold NodeData.pickSplitPlane
    simp [h1, h2, hc]
  · intro p hp e
    refine ⟨a, by simp [hc], ?_⟩
    rw [hc] at hp
    simp only [List.mem_cons, List.not_mem_nil, or_false] at hp
    unfold NodeData.facets
    rcases hp with rfl | rfl | rfl
    · rw [pa, pb] at e; exact absurd e (by decide)
    · simp [hc, ia, ib, ic]
    · simp [hc, ia, ib, ic]

/-- The hypotheses of C60 are met by the union of two tetrahedra. -/
example : ∃ t S d g t', Reach false t S ∧ t.leafAt [] = some d ∧ d.contents.length = 8 ∧ IsNthElement nthBySort ∧ d.pickSplitPlane nthBySort = some g ∧
    t.splitAt [] [] g = some t' := by
  have h : ((twice tetra tetra).bind fun t => (t.leafAt []).bind fun d => (d.pickSplitPlane fun l _ => l).bind fun g => (t.splitAt [] [] g).map fun _ =>
      (d.contents.length, d.pickIndex, d.meshCount 4)) = some (8, some 4, some 4) := by decide +kernel
  obtain ⟨t, ht, h⟩ := Option.bind_eq_some_iff.1 h
  obtain ⟨d, hd, h⟩ := Option.bind_eq_some_iff.1 h
  obtain ⟨g, hg, h⟩ := Option.bind_eq_some_iff.1 h
  obtain ⟨t', ht', e⟩ := Option.map_eq_some_iff.1 h
  simp only [Prod.mk.injEq] at e
  refine ⟨t, _, d, g, t', (twice_api tetra_convex tetra_convex ht).spec.1, hd, e.1, nthBySort_ok, ?_, ht'⟩
  rw [← hg]
  unfold NodeData.pickSplitPlane
  simp only [e.2.1, e.2.2]
  simp [e.1]

/-- A mesh of 42 facets. -/
def many : List (Polygon Unit) :=
  List.replicate 14 (triangle 1 ⟨0, 0, 0⟩ ⟨4, 0, 0⟩ ⟨0, 0, 4⟩) ++ List.replicate 14 (triangle 0 ⟨9, 0, 4⟩ ⟨9, 4, 0⟩ ⟨9, 0, 0⟩) ++
    List.replicate 14 (triangle 0 ⟨0, 0, 8⟩ ⟨8, 0, 0⟩ ⟨0, 8, 0⟩)

/-- The plane chosen for it is perpendicular to the facets in the middle of the list and has
a third of the facets on either side. -/
example : (((Node.leaf {}).addContents false 0 many).bind fun t => (t.leafAt []).bind fun d => (d.pickSplitPlane nthBySort).map fun g =>
    (g, d.pickIndex, d.contents.length)) = some (⟨⟨0, -1, -1⟩, -4⟩, some 21, 42) := by decide +kernel

end Walnut.Props
