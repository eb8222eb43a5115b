import Verif.Vtk.ImportProof

namespace Walnut.Vtk
open Walnut.Geom Walnut.Poly Walnut.Bsp Walnut.Util Walnut.Props

theorem CellOf.count {c : Cell} {P : Polygon Unit} (h : CellOf c P) : P.count = c.length := by simpa using h.2.1.perm.length_eq

theorem CellOf.region {c : Cell} {P : Polygon Unit} (h : CellOf c P) : P.region = c.region := by
  unfold Polygon.region Cell.region
  congr 1
  ext q
  simp only [Set.mem_setOf_eq]
  rw [← h.2.1.mem_iff]
  simp only [List.mem_map, List.mem_range]
  constructor
  · rintro ⟨i, hi, rfl⟩; exact ⟨i, hi, rfl⟩
  · rintro ⟨i, hi, rfl⟩; exact ⟨i, hi, rfl⟩

theorem sign_mul {μ a : ℚ} (hμ : 0 < μ) : (0 < μ * a ↔ 0 < a) ∧ (μ * a < 0 ↔ a < 0) :=
  ⟨mul_pos_iff_of_pos_left hμ, by constructor <;> intro h <;> nlinarith⟩

theorem CellOf.hits {c : Cell} {P : Polygon Unit} (h : CellOf c P) (q v : Q3) : Props.hits q v P = c.hits q v := by
  obtain ⟨μ, hμ, hn⟩ := h.2.2
  have e : dotQ P.plane.n.q v = μ * dotQ c.normal v := by simp only [dotQ, hn, Pi.smul_apply, smul_eq_mul]; ring
  unfold Props.hits Cell.hits
  rw [h.region, e]
  simp only [(sign_mul hμ).1, (sign_mul hμ).2]

theorem sides_rotate (l : Cell) (n : Nat) : Cell.sides (List.rotate l n) = (Cell.sides l).rotate n := by
  unfold Cell.sides
  rw [List.zip_eq_zipWith, List.zip_eq_zipWith, List.zipWith_rotate_distrib _ _ _ _ (by simp), List.rotate_rotate, List.rotate_rotate, Nat.add_comm]

theorem CellOf.sides {c : Cell} {P : Polygon Unit} (h : CellOf c P) :
    ((List.range P.count).map fun i => (P.pt i, P.pt ((i + 1) % P.count))).Perm c.sides := by
  obtain ⟨n, hn⟩ := h.2.1
  have e : ((List.range P.count).map fun i => (P.pt i, P.pt ((i + 1) % P.count))) = Cell.sides ((List.range P.count).map P.pt) := by
    unfold Cell.sides
    refine List.ext_getElem (by simp) fun i h1 h2 => ?_
    simp [List.getElem_rotate]
  rw [e, ← hn, sides_rotate]
  exact (List.rotate_perm _ _).symm

/-- A property of three elements, in their order, that does not depend on where a cycle starts. -/
theorem sub3_rotate {α : Type} {R : α → α → α → Prop} (hR : ∀ x y z, R x y z → R y z x) {l : List α} (h : ∀ x y z, [x, y, z].Sublist l → R x y z) {l' : List α} (hr : l ~r l') :
    ∀ x y z, [x, y, z].Sublist l' → R x y z := by
  have swap : ∀ {l l' : List α}, (∀ x y z, [x, y, z].Sublist (l ++ l') → R x y z) → ∀ x y z, [x, y, z].Sublist (l' ++ l) → R x y z := by
    intro l l' h x y z hx
    obtain ⟨r1, r2, e, h1, h2⟩ := List.sublist_append_iff.1 hx
    have key := h2.append h1
    match r1, r2, e with
    | [], [_, _, _], e => cases e; exact h x y z (by simpa using key)
    | [_], [_, _], e => cases e; exact hR _ _ _ (hR _ _ _ (h y z x (by simpa using key)))
    | [_, _], [_], e => cases e; exact hR _ _ _ (h z x y (by simpa using key))
    | [_, _, _], [], e => cases e; exact h x y z (by simpa using key)
  obtain ⟨n, rfl⟩ := hr
  rcases Nat.eq_zero_or_pos l.length with h0 | h0
  · rw [List.length_eq_zero_iff] at h0; subst h0; simpa using h
  · rw [← List.rotate_mod, List.rotate_eq_drop_append_take (Nat.mod_lt _ h0).le]
    apply swap
    rwa [List.take_append_drop]

theorem sub3_get {α : Type} {l : List α} {a b c : Nat} (h1 : a < b) (h2 : b < c) (h3 : c < l.length) : [l[a], l[b], l[c]].Sublist l := by
  have e : l.take b ++ (l[b] :: l.drop (b + 1)) = l := by
    rw [← List.drop_eq_getElem_cons, List.take_append_drop]
  have m1 : l[a] ∈ l.take b := List.mem_iff_getElem.2 ⟨a, by simp; omega, by simp⟩
  have m2 : l[c] ∈ l.drop (b + 1) := List.mem_iff_getElem.2 ⟨c - (b + 1), by simp; omega, by simp; congr 1; omega⟩
  have := (List.singleton_sublist.2 m1).append ((List.singleton_sublist.2 m2).cons_cons l[b])
  rw [e] at this
  exact this

theorem turn_rotate (n x y z : Q3) : Poly.turn n y z x = Poly.turn n x y z := by
  simp [Poly.turn, dotQ, crossQ]; ring

theorem CellOf.strict {c : Cell} {P : Polygon Unit} (h : CellOf c P) (hc : StrictlyConvex c) {i j m : Nat} (h1 : i < j) (h2 : j < m) (h3 : m < P.count) :
    0 < Poly.turn P.plane.n.q (P.pt i) (P.pt j) (P.pt m) := by
  obtain ⟨k, hk, hn⟩ := h.2.2
  have key := sub3_rotate (R := fun x y z => 0 < Poly.turn P.plane.n.q x y z) (fun x y z h => by rw [turn_rotate]; exact h) (l := c) (fun x y z hs => by
    obtain ⟨μ, hμ, e⟩ := hc.turns x y z hs
    have : Poly.turn P.plane.n.q x y z = k * μ * dotQ c.normal c.normal := by
      have e' : ∀ a, crossQ (fun a => y a - x a) (fun a => z a - x a) a = μ * c.normal a := fun a => congrFun e a
      simp only [Poly.turn, dotQ, hn, e', Pi.smul_apply, smul_eq_mul]; ring
    rw [this]
    exact mul_pos (mul_pos hk hμ) (dot_self_pos hc.normal)) h.2.1.symm
  have := sub3_get (l := (List.range P.count).map P.pt) h1 h2 (by simpa using h3)
  simpa using key _ _ _ this

theorem CellOf.offEdges {c : Cell} {P : Polygon Unit} (h : CellOf c P) (hc : StrictlyConvex c) {x : Q3} (hr : x ∈ c.region) (hx : ∀ e ∈ c.sides, x ∉ segment ℚ e.1 e.2) :
    OffEdges P x := by
  intro i hi
  rw [← h.region] at hr
  have hs : (P.pt i, P.pt ((i + 1) % P.count)) ∈ c.sides := h.sides.mem_iff.1 (List.mem_map.2 ⟨i, List.mem_range.2 hi, rfl⟩)
  have hx := hx _ hs
  simp only at hx
  have h3 : 3 ≤ P.count := by rw [h.count]; exact hc.three
  set A := P.pt i
  set B := P.pt ((i + 1) % P.count)
  let S : Set Q3 := {y | 0 < Poly.turn P.plane.n.q A B y ∨ (Poly.turn P.plane.n.q A B y = 0 ∧ y ∈ segment ℚ A B)}
  have lin : ∀ (y z : Q3) (α β : ℚ), α + β = 1 → Poly.turn P.plane.n.q A B (α • y + β • z) = α * Poly.turn P.plane.n.q A B y + β * Poly.turn P.plane.n.q A B z := by
    intro y z α β hab
    obtain rfl : α = 1 - β := by linarith
    simp [Poly.turn, dotQ, crossQ]; ring
  have hS : Convex ℚ S := by
    intro y hy z hz α β hα hβ hab
    rcases hy with hy | ⟨hy, hy'⟩ <;> rcases hz with hz | ⟨hz, hz'⟩
    · left
      rw [lin y z α β hab]
      rcases lt_or_eq_of_le hα with h | h
      · have := mul_pos h hy
        have := mul_nonneg hβ hz.le
        linarith
      · subst h
        rw [zero_add] at hab
        subst hab
        simpa using hz
    · rcases lt_or_eq_of_le hα with h | h
      · left
        rw [lin y z α β hab, hz]
        have := mul_pos h hy
        linarith
      · subst h
        rw [zero_add] at hab
        subst hab
        right
        simpa using ⟨hz, hz'⟩
    · rcases lt_or_eq_of_le hβ with h | h
      · left
        rw [lin y z α β hab, hy]
        have := mul_pos h hz
        linarith
      · subst h
        rw [add_zero] at hab
        subst hab
        right
        simpa using ⟨hy, hy'⟩
    · right
      exact ⟨by rw [lin y z α β hab, hy, hz]; ring, convex_segment A B hy' hz' hα hβ hab⟩
  have hsub : P.region ⊆ S := by
    refine convexHull_min ?_ hS
    rintro _ ⟨j, hj, rfl⟩
    have deg : ∀ n a b : Q3, Poly.turn n a b a = 0 ∧ Poly.turn n a b b = 0 := by
      intro n a b
      constructor <;> simp [Poly.turn, dotQ, crossQ] <;> ring
    by_cases e1 : j = i
    · subst e1
      exact .inr ⟨(deg _ _ _).1, left_mem_segment ℚ _ _⟩
    by_cases e2 : j = (i + 1) % P.count
    · subst e2
      exact .inr ⟨(deg _ _ _).2, right_mem_segment ℚ _ _⟩
    left
    by_cases hl : i + 1 < P.count
    · have eB : (i + 1) % P.count = i + 1 := Nat.mod_eq_of_lt hl
      rw [eB] at e2
      simp only [A, B, eB]
      by_cases h4 : j < i
      · rw [turn_rotate]
        exact h.strict hc h4 (by omega) hl
      · exact h.strict hc (by omega) (by omega) hj
    · have eB : (i + 1) % P.count = 0 := by
        rw [show i + 1 = P.count by omega, Nat.mod_self]
      rw [eB] at e2
      simp only [A, B, eB]
      rw [← turn_rotate]
      exact h.strict hc (by omega) (by omega) hi
  rcases hsub hr with h | ⟨-, h⟩
  · exact h
  · exact absurd h hx

/-! ### Meshes -/

/-- The polygons are these polygons, one for one. -/
def MeshOf (T : List Cell) (M : List (Polygon Unit)) : Prop := List.Forall₂ CellOf T M

theorem MeshOf.convex {T : List Cell} {M : List (Polygon Unit)} (h : MeshOf T M) : ∀ P ∈ M, IsConvexPolygon P := by
  induction h with
  | nil => simp
  | cons h1 _ ih =>
    intro P hP
    rcases List.mem_cons.1 hP with rfl | hP
    · exact h1.1
    · exact ih P hP

theorem MeshOf.region {T : List Cell} {M : List (Polygon Unit)} (h : MeshOf T M) : ∀ P ∈ M, ∃ t ∈ T, CellOf t P := by
  induction h with
  | nil => simp
  | cons h1 _ ih =>
    intro P hP
    rcases List.mem_cons.1 hP with rfl | hP
    · exact ⟨_, by simp, h1⟩
    · obtain ⟨t, ht, h⟩ := ih P hP
      exact ⟨t, by simp [ht], h⟩

theorem MeshOf.sides {T : List Cell} {M : List (Polygon Unit)} (h : MeshOf T M) : (meshSides M).Perm (Vtk.sides T) := by
  induction h with
  | nil => exact List.Perm.refl _
  | cons h1 _ ih =>
    unfold meshSides Vtk.sides at *
    rw [List.flatMap_cons, List.flatMap_cons]
    exact h1.sides.append ih

theorem MeshOf.closed {T : List Cell} {M : List (Polygon Unit)} (h : MeshOf T M) (hc : ClosedInput T) : Closed M := by
  intro a b
  rw [h.sides.count_eq, h.sides.count_eq]
  exact hc a b

theorem MeshOf.winding {T : List Cell} {M : List (Polygon Unit)} (h : MeshOf T M) (q v : Q3) : windingNumber M q v = cellWinding T q v := by
  unfold windingNumber cellWinding
  induction h with
  | nil => rfl
  | cons h1 _ ih => rw [List.map_cons, List.map_cons, List.sum_cons, List.sum_cons, ih, h1.hits]

theorem MeshOf.transversal {T : List Cell} {M : List (Polygon Unit)} (h : MeshOf T M) (hT : ∀ c ∈ T, StrictlyConvex c) {q v : Q3} (hg : Generic T q v) : Transversal M q v := by
  refine ⟨hg.1, fun P hP s hs hr => ?_⟩
  obtain ⟨t, ht, hP⟩ := h.region P hP
  exact hP.offEdges (hT t ht) (hP.region ▸ hr) (hg.2 t ht s hs)

/-! ### Flipped polygons -/

theorem region_flipped (c : Cell) : c.flipped.region = c.region := by
  unfold Cell.region Cell.flipped
  congr 1
  ext q
  simp

theorem hits_flipped {c : Cell} (h : StrictlyConvex c) (q v : Q3) : c.flipped.hits q v = -c.hits q v := by
  unfold Cell.hits
  obtain ⟨-, μ, hμ, e⟩ := h.flipped
  rw [region_flipped, e]
  have e : dotQ (-(μ • c.normal)) v = -(μ * dotQ c.normal v) := by simp only [dotQ, Pi.neg_apply, Pi.smul_apply, smul_eq_mul]; ring
  rw [e]
  simp only [neg_pos, neg_lt_zero, (sign_mul hμ).1, (sign_mul hμ).2]
  split_ifs <;> first | rfl | (exfalso; linarith)

theorem winding_flipped {T : List Cell} (h : ∀ c ∈ T, StrictlyConvex c) (q v : Q3) : cellWinding (T.map Cell.flipped) q v = -cellWinding T q v := by
  unfold cellWinding
  induction T with
  | nil => rfl
  | cons t T ih =>
    have := ih fun c hc => h c (by simp [hc])
    simp only [List.map_cons, List.sum_cons] at *
    rw [this, hits_flipped (h t (by simp))]; ring

theorem Cell.sides_flipped (c : Cell) : c.flipped.sides.Perm (c.sides.map Prod.swap) := by
  unfold Cell.flipped Cell.sides
  rcases Nat.lt_or_ge c.length 2 with h | h
  · match c, h with
    | [], _ => simp
    | [a], _ => simp
  · rw [List.zip_swap, List.zip_eq_zipWith, List.rotate_reverse, Nat.mod_eq_of_lt (by omega), ← List.reverse_zipWith (by simp)]
    refine (List.reverse_perm _).trans ((List.rotate_perm _ 1).symm.trans ?_)
    rw [List.zipWith_rotate_distrib _ _ _ _ (by simp), List.rotate_rotate, Nat.sub_add_cancel (by omega), List.rotate_length, ← List.zip_eq_zipWith]

theorem sides_flipped (T : List Cell) : (Vtk.sides (T.map Cell.flipped)).Perm ((Vtk.sides T).map Prod.swap) := by
  induction T with
  | nil => exact List.Perm.refl _
  | cons t T ih =>
    unfold Vtk.sides at *
    rw [List.map_cons, List.flatMap_cons, List.flatMap_cons, List.map_append]
    exact List.Perm.append t.sides_flipped ih

theorem closed_flipped {T : List Cell} (h : ClosedInput T) : ClosedInput (T.map Cell.flipped) := by
  intro a b
  have e : ∀ a b : Q3, (Vtk.sides (T.map Cell.flipped)).count (a, b) = (Vtk.sides T).count (b, a) := by
    intro a b
    rw [(sides_flipped T).count_eq]
    exact List.count_map_of_injective _ _ Prod.swap_injective (b, a)
  rw [e, e]
  exact (h a b).symm

theorem generic_flipped {T : List Cell} {q v : Q3} (h : Generic T q v) : Generic (T.map Cell.flipped) q v := by
  refine ⟨h.1, fun t ht s hs e he => ?_⟩
  obtain ⟨t, ht', rfl⟩ := List.mem_map.1 ht
  obtain ⟨e', he', rfl⟩ := List.mem_map.1 (t.sides_flipped.mem_iff.1 he)
  have := h.2 t ht' s hs e' he'
  rwa [segment_symm]

theorem import_mesh {minExponent : Int} {data : PolyData} {T : List Cell} (h : CellData minExponent data T) (flip : Bool) :
    ∃ mesh, (∀ out, Imports data minExponent flip out ↔ out = mesh) ∧ MeshOf (T.map (oriented flip)) mesh := by
  obtain ⟨mesh, h1, h2⟩ := import_spec h flip
  exact ⟨mesh, h1, List.forall₂_map_left_iff.2 h2⟩

end Walnut.Vtk
