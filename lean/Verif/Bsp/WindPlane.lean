/-
Planes with rational coefficients, where they meet a convex polygon, and the points left of
a polygon's edges.
-/
import Verif.Bsp.WindTau
import Verif.Poly.Hull

namespace Walnut.Bsp
open Walnut.Geom Walnut.Poly

variable {D : Type}

/-- An oriented plane: the points with `n · x = o`. -/
structure Pl where
  n : Q3
  o : ℚ

/-- Negative inside, positive outside. -/
def Pl.val (p : Pl) (x : Q3) : ℚ := dotQ p.n x - p.o

theorem Pl.val_comb (p : Pl) {x y : Q3} {a b : ℚ} (h : a + b = 1) : p.val (a • x + b • y) = a * p.val x + b * p.val y := by
  unfold Pl.val dotQ
  simp only [Pi.add_apply, Pi.smul_apply, smul_eq_mul]
  linear_combination p.o * h

/-- The point that the plane `N · x = D` has in common with two others. -/
def meet (N : Q3) (D : ℚ) (a b : Pl) : Q3 := fun i =>
  (D * crossQ a.n b.n i + a.o * crossQ b.n N i + b.o * crossQ N a.n i) / det3 N a.n b.n

theorem meet_swap (N : Q3) (D : ℚ) (a b : Pl) : meet N D b a = meet N D a b := by
  unfold meet
  rw [det3_swap]
  funext i
  rw [div_neg, ← neg_div]
  congr 1
  fin_cases i <;> simp only [crossQ, Fin.zero_eta, Fin.mk_one, Fin.reduceFinMk, Matrix.cons_val] <;> ring

theorem meet_spec {N : Q3} {D : ℚ} {a b : Pl} (h : det3 N a.n b.n ≠ 0) :
    dotQ N (meet N D a b) = D ∧ a.val (meet N D a b) = 0 ∧ b.val (meet N D a b) = 0 := by
  unfold Pl.val meet
  simp only [dotQ, crossQ_zero, crossQ_one, crossQ_two]
  refine ⟨?_, ?_, ?_⟩
  · field_simp; unfold det3 dotQ; simp only [crossQ_zero, crossQ_one, crossQ_two]; ring
  · field_simp; unfold det3 dotQ; simp only [crossQ_zero, crossQ_one, crossQ_two]; ring
  · field_simp; unfold det3 dotQ; simp only [crossQ_zero, crossQ_one, crossQ_two]; ring

theorem three_eqs {N p q x : Q3} (h : det3 N p q ≠ 0) (h1 : dotQ N x = 0) (h2 : dotQ p x = 0) (h3 : dotQ q x = 0) : x = 0 := by
  have e : ∀ i, det3 N p q * x i = 0 := by
    intro i
    unfold det3
    unfold dotQ at *
    simp only [crossQ_zero, crossQ_one, crossQ_two]
    fin_cases i <;> simp only [Fin.zero_eta, Fin.mk_one, Fin.reduceFinMk]
    · linear_combination (p 1 * q 2 - p 2 * q 1) * h1 + (q 1 * N 2 - q 2 * N 1) * h2 + (N 1 * p 2 - N 2 * p 1) * h3
    · linear_combination (p 2 * q 0 - p 0 * q 2) * h1 + (q 2 * N 0 - q 0 * N 2) * h2 + (N 2 * p 0 - N 0 * p 2) * h3
    · linear_combination (p 0 * q 1 - p 1 * q 0) * h1 + (q 0 * N 1 - q 1 * N 0) * h2 + (N 0 * p 1 - N 1 * p 0) * h3
  funext i
  exact (mul_eq_zero.1 (e i)).resolve_left h

theorem meet_unique {N : Q3} {D : ℚ} {a b : Pl} (h : det3 N a.n b.n ≠ 0) {x : Q3} (h0 : dotQ N x = D) (h1 : a.val x = 0) (h2 : b.val x = 0) :
    meet N D a b = x := by
  obtain ⟨m0, m1, m2⟩ := meet_spec (D := D) h
  have := three_eqs (x := fun i => meet N D a b i - x i) h
    (by unfold dotQ at *; linarith) (by unfold Pl.val dotQ at *; linarith) (by unfold Pl.val dotQ at *; linarith)
  funext i
  have := congrFun this i
  simp only [Pi.zero_apply] at this
  linarith

/-! ### The edges of a polygon -/

theorem side_dot (h : HS3) (x : Q3) : h.side x = dotQ h.n.q x - h.d := rfl

theorem turn_comb (N a b : Q3) {x y : Q3} {s t : ℚ} (h : s + t = 1) :
    Poly.turn N a b (s • x + t • y) = s * Poly.turn N a b x + t * Poly.turn N a b y := by
  obtain rfl : t = 1 - s := by linarith
  unfold Poly.turn dotQ
  simp only [crossQ_zero, crossQ_one, crossQ_two, Pi.add_apply, Pi.smul_apply, smul_eq_mul]
  ring

/-- The vertices are left of every edge. -/
theorem turn_vertex {P : Polygon D} (h : IsConvexPolygon P) {i k : Nat} (hi : i < P.count) (hk : k < P.count) :
    0 ≤ Poly.turn P.plane.n.q (P.pt i) (P.pt ((i + 1) % P.count)) (P.pt k) := by
  have hi' : (i + 1) % P.count < P.count := Nat.mod_lt _ (by omega)
  rw [turn_nonneg_iff P.plane h.drop (h.onPlane i hi) (h.onPlane _ hi') (h.onPlane k hk)]
  have key : 0 ≤ area2 (fun i => px P.drop (P.pt i)) (fun i => py P.plane P.drop (P.pt i)) (i % P.count) ((i + 1) % P.count) (k % P.count) := by
    rcases Nat.lt_or_ge i k with c | c
    · exact h.convex2.cyc_le (by omega) c (by omega)
    · have := h.convex2.cyc_le (a := i) (b := i + 1) (c := k + P.count) (by omega) (by omega) (by omega)
      rwa [Nat.add_mod_right] at this
  rw [Nat.mod_eq_of_lt hi, Nat.mod_eq_of_lt hk] at key
  exact key

theorem turn_region {P : Polygon D} (h : IsConvexPolygon P) {i : Nat} (hi : i < P.count) {z : Q3} (hz : z ∈ P.region) :
    0 ≤ Poly.turn P.plane.n.q (P.pt i) (P.pt ((i + 1) % P.count)) z := by
  refine convexHull_min (t := {z | 0 ≤ Poly.turn P.plane.n.q (P.pt i) (P.pt ((i + 1) % P.count)) z}) ?_ ?_ hz
  · rintro _ ⟨k, hk, rfl⟩
    exact turn_vertex h hi hk
  · intro x hx y hy s t hs ht hst
    simp only [Set.mem_ofPred_eq] at *
    rw [turn_comb _ _ _ hst]
    exact add_nonneg (mul_nonneg hs hx) (mul_nonneg ht hy)

/-- A point of the plane left of every edge belongs to the polygon. -/
theorem mem_of_turns {P : Polygon D} (h : IsConvexPolygon P) {z : Q3} (h0 : P.plane.side z = 0)
    (hz : ∀ i, i < P.count → 0 ≤ Poly.turn P.plane.n.q (P.pt i) (P.pt ((i + 1) % P.count)) z) : z ∈ P.region := by
  have hp := h.three
  refine h.mem_of_edges h0 fun i => ?_
  have h1 : i % P.count < P.count := Nat.mod_lt _ (by omega)
  have h2 : (i % P.count + 1) % P.count < P.count := Nat.mod_lt _ (by omega)
  have := hz (i % P.count) h1
  rw [turn_nonneg_iff P.plane h.drop (h.onPlane _ h1) (h.onPlane _ h2) h0, Nat.mod_add_mod] at this
  exact this

/-- A plane's value as an affine function of the coordinates that remain. -/
theorem val_affine (h : HS3) (g : Pl) {i : Fin 3} (hi : h.n.comp i ≠ 0) : ∃ α β γ : ℚ, ∀ a, h.side a = 0 →
    g.val a = α * px i a + β * py h i a + γ := by
  have hs := sg_sq h hi
  have hi' : (h.n.comp i : ℚ) ≠ 0 := by exact_mod_cast hi
  refine ⟨(g.n (i + 1) * h.n.comp i - g.n i * h.n.comp (i + 1)) / h.n.comp i,
    sg h i * ((g.n (i + 2) * h.n.comp i - g.n i * h.n.comp (i + 2)) / h.n.comp i), g.n i * h.d / h.n.comp i - g.o, fun a ha => ?_⟩
  have e : sg h i * ((g.n (i + 2) * h.n.comp i - g.n i * h.n.comp (i + 2)) / h.n.comp i) * py h i a =
      (g.n (i + 2) * h.n.comp i - g.n i * h.n.comp (i + 2)) / h.n.comp i * a (i + 2) := by
    unfold py
    linear_combination ((g.n (i + 2) * h.n.comp i - g.n i * h.n.comp (i + 2)) / h.n.comp i * a (i + 2) : ℚ) * hs
  rw [e]
  unfold px Pl.val dotQ
  rw [HS3.side_eq] at ha
  obtain rfl | rfl | rfl := fin3 i <;> simp [V3.comp, fin3_eqs] at hi' ⊢ <;> field_simp
  · linear_combination g.n 0 * ha
  · linear_combination g.n 1 * ha
  · linear_combination g.n 2 * ha

/-- A plane through no vertex changes its sign at most once in each direction: if it is
negative, positive and negative again along the vertices, it is not positive after that. -/
theorem no_alternation {P : Polygon D} (h : IsConvexPolygon P) (g : Pl) {a b c d : Nat} (h1 : a < b) (h2 : b < c) (h3 : c < d) (h4 : d < a + P.count)
    (s : ℚ) (ga : 0 < s * g.val (P.pt (a % P.count))) (gb : s * g.val (P.pt (b % P.count)) < 0) (gc : 0 < s * g.val (P.pt (c % P.count)))
    (gd : s * g.val (P.pt (d % P.count)) < 0) : False := by
  have hp := h.three
  obtain ⟨α, β, γ, e⟩ := val_affine P.plane g h.drop
  have m : ∀ x, P.plane.side (P.pt (x % P.count)) = 0 := fun x => h.onPlane _ (Nat.mod_lt _ (by omega))
  rw [e _ (m _)] at ga gb gc gd
  refine h.convex2.alternate (s * α) (s * β) (s * γ) h1 h2 h3 h4 ⟨?_, ?_, ?_, ?_⟩
  · linarith
  · rw [not_lt]; linarith
  · linarith
  · rw [not_lt]; linarith

end Walnut.Bsp
