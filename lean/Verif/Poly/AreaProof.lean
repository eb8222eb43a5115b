/-
Proofs about the projected area and centroid of a polygon.
-/
import Verif.Poly.Area
import Verif.Poly.Plane2
import Verif.Geom.Bridge
import Mathlib.Algebra.BigOperators.Fin
import Mathlib.Algebra.BigOperators.Field
import Mathlib.Analysis.Convex.Combination

namespace Walnut.Poly
open Walnut.Geom

variable {D : Type}

/-! ### gcd and exact division -/

theorem gcd?_dvd {x y g : Int} (h : gcd? x y = some g) : g ∣ x ∧ g ∣ y := by
  have e := gcd?_natAbs h
  constructor
  · rw [← Int.natAbs_dvd, e]; exact Int.gcd_dvd_left ..
  · rw [← Int.natAbs_dvd, e]; exact Int.gcd_dvd_right ..

theorem gcd?_ne {x y g : Int} (h : gcd? x y = some g) (hy : y ≠ 0) : g ≠ 0 := by
  have e := gcd?_natAbs h
  intro h0
  rw [h0, Int.natAbs_zero] at e
  exact hy (Int.gcd_eq_zero_iff.mp e.symm).2

theorem div?_exact {x g q : Int} (h : div? x g = some q) (hd : g ∣ x) : q * g = x := by
  unfold div? divRem? at h
  split at h
  · cases h
  · simp only [Option.map_some, Option.some.injEq] at h
    rw [← h]; exact Int.tdiv_mul_cancel hd

theorem gcd?_pos {x y g : Int} (hx : 0 ≤ x) (hy : 0 ≤ y) (h : gcd? x y = some g) : 0 ≤ g := by
  induction hn : y.natAbs using Nat.strong_induction_on generalizing x y with
  | _ n ih =>
    by_cases hy0 : y = 0
    · subst hy0; rw [gcd?_zero] at h; cases h; exact hx
    · have hm : ¬ (x = -2 ^ 63 ∧ y = -1) := by omega
      rw [gcd?_step hy0 hm] at h
      have hlt : (x.tmod y).natAbs < y.natAbs := by
        rw [Int.natAbs_tmod]; exact Nat.mod_lt _ (by omega)
      exact ih _ (by omega) hy (Int.tmod_nonneg _ hx) h rfl

theorem div?_defined {x g : Int} (hx : 0 ≤ x) (hg : g ≠ 0) : div? x g = some (x.tdiv g) := by
  unfold div? divRem?
  rw [if_neg (by omega)]; rfl

/-- One round with positive denominators is defined. -/
theorem round_defined {den w : Int} (hd : 0 < den) (hw : 0 < w) :
    ∃ g nc tc, gcd? den w = some g ∧ div? w g = some nc ∧ div? den g = some tc ∧ 0 < tc ∧ 0 < nc ∧ 0 < g := by
  obtain ⟨g, hg⟩ := gcd?_defined (x := den) (y := w) (Or.inl hd.le)
  have h0 := gcd?_ne hg hw.ne'
  have h1 := gcd?_pos hd.le hw.le hg
  have hgp : 0 < g := by omega
  obtain ⟨d1, d2⟩ := gcd?_dvd hg
  have e1 := div?_defined hw.le h0
  have e2 := div?_defined hd.le h0
  refine ⟨g, _, _, hg, e1, e2, ?_, ?_, hgp⟩
  · have := div?_exact e2 d1
    by_contra hc
    nlinarith
  · have := div?_exact e1 d2
    by_contra hc
    nlinarith

/-! ### Sums over a closed chain -/

/-- First coordinate left after dropping `drop`. -/
def cx (drop : Fin 3) (v : HP3) : ℚ := v.pt (drop + 1)
/-- Second coordinate left after dropping `drop`. -/
def cy (drop : Fin 3) (v : HP3) : ℚ := v.pt (drop + 2)

/-- `x_v y_w - x_w y_v`. -/
def crs (drop : Fin 3) (v w : HP3) : ℚ := cx drop v * cy drop w - cx drop w * cy drop v

theorem after0 (v : HP3) (drop : Fin 3) : v.v.componentAfterDrop 0 drop = v.v.comp (drop + 1) := by
  fin_cases drop <;> rfl

theorem after1 (v : HP3) (drop : Fin 3) : v.v.componentAfterDrop 1 drop = v.v.comp (drop + 2) := by
  fin_cases drop <;> rfl

theorem crs_eq (drop : Fin 3) {v w : HP3} (hv : v.w ≠ 0) (hw : w.w ≠ 0) :
    (crossAfterDrop drop v w : ℚ) = crs drop v w * (v.w * w.w) := by
  have hv' : (v.w : ℚ) ≠ 0 := by exact_mod_cast hv
  have hw' : (w.w : ℚ) ≠ 0 := by exact_mod_cast hw
  unfold crossAfterDrop crs cx cy HP3.pt
  simp only [after0, after1]
  push_cast
  field_simp

/-- Sum over the pairs of successive elements. -/
def pairSum (f : HP3 → HP3 → ℚ) : List HP3 → ℚ
  | v :: w :: l => f v w + pairSum f (w :: l)
  | _ => 0

/-- Sum over the fan triangles. -/
def fanSum (f : HP3 → HP3 → HP3 → ℚ) (a : HP3) : List HP3 → ℚ
  | b :: c :: l => f a b c + fanSum f a (c :: l)
  | _ => 0

/-- Closing a chain and cutting it into triangles. -/
theorem closed_fan {f : HP3 → HP3 → ℚ} {g : HP3 → HP3 → HP3 → ℚ} (h0 : ∀ a b, f a b = -f b a)
    (h : ∀ a b c, g a b c = f a b + f b c + f c a) (a : HP3) : ∀ (b : HP3) (l : List HP3),
    pairSum f (a :: b :: l) + f ((b :: l).getLast (by simp)) a = fanSum g a (b :: l) := by
  intro b l
  induction l generalizing b with
  | nil => simp [pairSum, fanSum]; rw [h0 a b]; ring
  | cons c l ih =>
    have e := ih c
    simp only [pairSum] at e ⊢
    rw [List.getLast_cons (by simp), fanSum, ← e, h a b c, h0 c a]
    ring

/-- The area of the loop: the invariant of `areaLoop`. -/
theorem areaLoop_spec (drop : Fin 3) : ∀ (l : List HP3) (v : HP3) {num den n d : Int},
    areaLoop drop (v :: l) num den = some (n, d) → (∀ u ∈ v :: l, u.w ≠ 0) → den ≠ 0 →
    d ≠ 0 ∧ (n : ℚ) / (d * ((v :: l).getLast (by simp)).w) = num / (den * v.w) + pairSum (crs drop) (v :: l) := by
  intro l
  induction l with
  | nil =>
    intro v num den n d h hw hd
    simp only [areaLoop, Option.some.injEq, Prod.mk.injEq] at h
    obtain ⟨rfl, rfl⟩ := h
    exact ⟨hd, by simp [pairSum]⟩
  | cons w l ih =>
    intro v num den n d h hw hd
    simp only [areaLoop, Option.bind_eq_bind, Option.bind_eq_some_iff] at h
    obtain ⟨g, hg, nc, h1, tc, h2, h3⟩ := h
    have hv0 : v.w ≠ 0 := hw v (by simp)
    have hw0 : w.w ≠ 0 := hw w (by simp)
    obtain ⟨d1, d2⟩ := gcd?_dvd hg
    have g0 := gcd?_ne hg hw0
    have e1 := div?_exact h1 d2
    have e2 := div?_exact h2 d1
    have t0 : tc ≠ 0 := by rintro rfl; simp at e2; exact hd e2.symm
    have n0 : nc ≠ 0 := by rintro rfl; simp at e1; exact hw0 e1.symm
    obtain ⟨r1, r2⟩ := ih w h3 (fun u hu => hw u (by simp [hu])) (mul_ne_zero t0 hv0)
    refine ⟨r1, ?_⟩
    rw [List.getLast_cons (by simp), r2, pairSum]
    have a1 : (v.w : ℚ) ≠ 0 := by exact_mod_cast hv0
    have a2 : (w.w : ℚ) ≠ 0 := by exact_mod_cast hw0
    have a3 : (g : ℚ) ≠ 0 := by exact_mod_cast g0
    have a4 : (tc : ℚ) ≠ 0 := by exact_mod_cast t0
    have a5 : (nc : ℚ) ≠ 0 := by exact_mod_cast n0
    have b1 : (w.w : ℚ) = nc * g := by exact_mod_cast e1.symm
    have b2 : (den : ℚ) = tc * g := by exact_mod_cast e2.symm
    push_cast
    rw [crs_eq drop hv0 hw0, b2, b1]
    field_simp
    ring

theorem areaLoop_defined (drop : Fin 3) : ∀ (l : List HP3) {num den : Int}, (∀ u ∈ l, 0 < u.w) → 0 < den →
    ∃ r, areaLoop drop l num den = some r := by
  intro l
  induction l with
  | nil => intro num den _ _; exact ⟨_, rfl⟩
  | cons v l ih =>
    intro num den hw hd
    cases l with
    | nil => exact ⟨_, rfl⟩
    | cons w l =>
      obtain ⟨g, nc, tc, e1, e2, e3, p, _, _⟩ := round_defined hd (hw w (by simp))
      simp only [areaLoop, Option.bind_eq_bind, e1, e2, e3, Option.bind_some]
      exact ih (fun u hu => hw u (by simp [hu])) (mul_pos p (hw v (by simp)))

/-- The first moment of an edge in coordinate `k`. -/
def mom (drop k : Fin 3) (v w : HP3) : ℚ := (v.pt k + w.pt k) * crs drop v w

/-- The accumulators of the centroid loop as rational sums. -/
structure CentroidVal (drop : Fin 3) (s : CentroidAcc) (w : Int) (A M0 M1 : ℚ) : Prop where
  den : s.den ≠ 0
  area : (s.area : ℚ) / (s.den * w) = A
  c0 : (s.c0 : ℚ) / (s.den * w) ^ 2 = M0
  c1 : (s.c1 : ℚ) / (s.den * w) ^ 2 = M1

theorem centroidStep_spec {drop : Fin 3} {v w : HP3} {s t : CentroidAcc} {A M0 M1 : ℚ}
    (h : centroidStep drop v w s = some t) (hv0 : v.w ≠ 0) (hw0 : w.w ≠ 0)
    (hs : CentroidVal drop s v.w A M0 M1) :
    CentroidVal drop t w.w (A + crs drop v w) (M0 + mom drop (drop + 1) v w) (M1 + mom drop (drop + 2) v w) := by
  simp only [centroidStep, Option.bind_eq_bind, Option.bind_eq_some_iff] at h
  obtain ⟨g, hg, nc, h1, tc, h2, h3⟩ := h
  have hd := hs.den
  obtain ⟨d1, d2⟩ := gcd?_dvd hg
  have g0 := gcd?_ne hg hw0
  have e1 := div?_exact h1 d2
  have e2 := div?_exact h2 d1
  have t0 : tc ≠ 0 := by rintro rfl; simp at e2; exact hd e2.symm
  have n0 : nc ≠ 0 := by rintro rfl; simp at e1; exact hw0 e1.symm
  have a1 : (v.w : ℚ) ≠ 0 := by exact_mod_cast hv0
  have a2 : (w.w : ℚ) ≠ 0 := by exact_mod_cast hw0
  have a3 : (g : ℚ) ≠ 0 := by exact_mod_cast g0
  have a4 : (tc : ℚ) ≠ 0 := by exact_mod_cast t0
  have a5 : (nc : ℚ) ≠ 0 := by exact_mod_cast n0
  have b1 : (w.w : ℚ) = nc * g := by exact_mod_cast e1.symm
  have b2 : (s.den : ℚ) = tc * g := by exact_mod_cast e2.symm
  simp only [Option.pure_def, Option.some.injEq] at h3
  have cv : ∀ k : Fin 3, (v.v.comp k : ℚ) = v.pt k * v.w := fun k => by unfold HP3.pt; field_simp
  have cw : ∀ k : Fin 3, (w.v.comp k : ℚ) = w.pt k * w.w := fun k => by unfold HP3.pt; field_simp
  obtain ⟨_, ha, hc0, hc1⟩ := hs
  subst h3
  refine ⟨mul_ne_zero t0 hv0, ?_, ?_, ?_⟩
  · rw [← ha]
    push_cast
    rw [crs_eq drop hv0 hw0, b2, b1]
    field_simp
  · rw [← hc0]
    unfold mom
    simp only [after0, after1]
    push_cast
    rw [crs_eq drop hv0 hw0, cv, cw, b2, b1]
    field_simp
  · rw [← hc1]
    unfold mom
    simp only [after0, after1]
    push_cast
    rw [crs_eq drop hv0 hw0, cv, cw, b2, b1]
    field_simp

theorem centroidLoop_spec (drop : Fin 3) : ∀ (l : List HP3) (v : HP3) {s t : CentroidAcc} {A M0 M1 : ℚ},
    centroidLoop drop (v :: l) s = some t → (∀ u ∈ v :: l, u.w ≠ 0) → CentroidVal drop s v.w A M0 M1 →
    CentroidVal drop t ((v :: l).getLast (by simp)).w (A + pairSum (crs drop) (v :: l))
      (M0 + pairSum (mom drop (drop + 1)) (v :: l)) (M1 + pairSum (mom drop (drop + 2)) (v :: l)) := by
  intro l
  induction l with
  | nil =>
    intro v s t A M0 M1 h hw hs
    simp only [centroidLoop, Option.some.injEq] at h
    subst h
    simpa [pairSum] using hs
  | cons w l ih =>
    intro v s t A M0 M1 h hw hs
    simp only [centroidLoop, Option.bind_eq_bind, Option.bind_eq_some_iff] at h
    obtain ⟨s', h1, h2⟩ := h
    have := ih w h2 (fun u hu => hw u (by simp [hu])) (centroidStep_spec h1 (hw v (by simp)) (hw w (by simp)) hs)
    simp only [pairSum]
    rw [List.getLast_cons (by simp)]
    simpa only [add_assoc] using this

theorem centroidLoop_defined (drop : Fin 3) : ∀ (l : List HP3) {s : CentroidAcc}, (∀ u ∈ l, 0 < u.w) → 0 < s.den →
    ∃ r, centroidLoop drop l s = some r := by
  intro l
  induction l with
  | nil => intro s _ _; exact ⟨_, rfl⟩
  | cons v l ih =>
    intro s hw hd
    cases l with
    | nil => exact ⟨_, rfl⟩
    | cons w l =>
      obtain ⟨g, nc, tc, e1, e2, e3, p, _, _⟩ := round_defined hd (hw w (by simp))
      simp only [centroidLoop, centroidStep, Option.bind_eq_bind, e1, e2, e3, Option.bind_some, Option.pure_def]
      exact ih (fun u hu => hw u (by simp [hu])) (mul_pos p (hw v (by simp)))

/-! ### From lists to indices -/

theorem pt_verts (P : Polygon D) (i : Nat) (hi : i < P.verts.length) : (P.verts[i]).pt = P.pt i := by
  have hi' : i < P.edges.length := by simpa [Polygon.verts] using hi
  unfold Polygon.pt Polygon.vertexD Polygon.verts
  rw [List.getElem?_eq_getElem hi']
  exact congrArg HP3.pt (List.getElem_map ..)

theorem fanSum_eq (f : Q3 → Q3 → Q3 → ℚ) (a : HP3) (l : List HP3) (q : Nat → Q3)
    (hq : ∀ i (hi : i < l.length), (l[i]).pt = q i) :
    fanSum (fun a b c => f a.pt b.pt c.pt) a l = ∑ i ∈ Finset.range (l.length - 1), f a.pt (q i) (q (i + 1)) := by
  induction l generalizing q with
  | nil => simp [fanSum]
  | cons b l ih =>
    cases l with
    | nil => simp [fanSum]
    | cons c l =>
      rw [fanSum, ih (fun i => q (i + 1)) (fun i hi => by
        have := hq (i + 1) (by simpa using hi)
        simpa using this)]
      have e : (b :: c :: l).length - 1 = ((c :: l).length - 1) + 1 := by simp
      rw [e, Finset.sum_range_succ' (fun i => f a.pt (q i) (q (i + 1)))]
      have h0 : b.pt = q 0 := hq 0 (by simp)
      have h1 : c.pt = q 1 := hq 1 (by simp)
      rw [h0, h1, add_comm]

theorem verts_cons (P : Polygon D) (h : 0 < P.count) : ∃ a l, P.verts = a :: l ∧ l.length + 1 = P.count := by
  cases hv : P.verts with
  | nil => have : P.count = P.verts.length := by simp [Polygon.count, Polygon.verts]
           rw [hv] at this; simp at this; omega
  | cons a l =>
    refine ⟨a, l, rfl, ?_⟩
    have : P.count = P.verts.length := by simp [Polygon.count, Polygon.verts]
    rw [this, hv]; rfl

theorem verts_finite {P : Polygon D} (h : ∀ i, i < P.count → (P.vertexD i).w ≠ 0) : ∀ u ∈ P.verts, u.w ≠ 0 := by
  intro u hu
  obtain ⟨i, hi, rfl⟩ := List.mem_iff_getElem.mp hu
  have hi' : i < P.edges.length := by simpa [Polygon.verts] using hi
  have := h i hi'
  unfold Polygon.vertexD at this
  rw [List.getElem?_eq_getElem hi'] at this
  simpa [Polygon.verts] using this

theorem verts_pos {P : Polygon D} (h : ∀ i, i < P.count → 0 < (P.vertexD i).w) : ∀ u ∈ P.verts, 0 < u.w := by
  intro u hu
  obtain ⟨i, hi, rfl⟩ := List.mem_iff_getElem.mp hu
  have hi' : i < P.edges.length := by simpa [Polygon.verts] using hi
  have := h i hi'
  unfold Polygon.vertexD at this
  rw [List.getElem?_eq_getElem hi'] at this
  simpa [Polygon.verts] using this

/-! ### Positive area -/

theorem Convex2.fan_pos {n : Nat} {X Y : Nat → ℚ} (h : Convex2 n X Y) :
    0 < ∑ i ∈ Finset.range (n - 2), area2 X Y 0 (i + 1) (i + 2) := by
  have hge : ∀ i ∈ Finset.range (n - 2), 0 ≤ area2 X Y 0 (i + 1) (i + 2) := by
    intro i hi
    rw [Finset.mem_range] at hi
    exact h.ccw 0 (i + 1) (i + 2) (by omega) (by omega) (by omega)
  by_contra hc
  have h0 : ∑ i ∈ Finset.range (n - 2), area2 X Y 0 (i + 1) (i + 2) = 0 :=
    le_antisymm (not_lt.mp hc) (Finset.sum_nonneg hge)
  have hz := (Finset.sum_eq_zero_iff_of_nonneg hge).mp h0
  have hn : 3 ≤ n := by obtain ⟨i, j, k, _, _, _, _⟩ := h.ex; omega
  have all : ∀ i, i + 1 < n → area2 X Y 0 1 (i + 1) = 0 := by
    intro i
    induction i with
    | zero => intro _; unfold area2; ring
    | succ i ih =>
      intro hi
      have e1 := ih (by omega)
      have e2 := hz i (by rw [Finset.mem_range]; omega)
      unfold area2 at e1 e2 ⊢
      rw [show i + 1 + 1 = i + 2 by omega]
      rcases h.ne 0 (i + 1) (by omega) (by omega) with hne | hne
      · have hv : X (i + 1) - X 0 ≠ 0 := fun hh => hne (by linarith)
        apply mul_left_cancel₀ hv
        linear_combination (X 1 - X 0) * e2 + (X (i + 2) - X 0) * e1
      · have hv : Y (i + 1) - Y 0 ≠ 0 := fun hh => hne (by linarith)
        apply mul_left_cancel₀ hv
        linear_combination (Y 1 - Y 0) * e2 + (Y (i + 2) - Y 0) * e1
  obtain ⟨m, hm, hne⟩ := h.off_line (p := 0) (q := 1) (h.ne 0 1 (by omega) (by omega))
  rcases Nat.eq_zero_or_pos m with rfl | hp
  · apply hne; unfold area2; ring
  · obtain ⟨k, rfl⟩ : ∃ k, m = k + 1 := ⟨m - 1, by omega⟩
    exact hne (all k hm)

end Walnut.Poly
