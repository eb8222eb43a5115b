/-
Merging edges keeps the links.
-/
import Verif.Poly.LinkLists

namespace Walnut.Poly
open Walnut.Geom Walnut.Props Walnut.Mono

theorem Beyond.symm {A B C : Q3} (h : Beyond A B C) : Beyond C B A := by
  obtain ⟨μ, h0, h⟩ := h
  refine ⟨μ⁻¹, inv_pos.2 h0, fun i => ?_⟩
  have := h i
  field_simp
  linear_combination this

/-- Only the directions matter. -/
theorem Beyond.shrink {A B C A2 C1 : Q3} (h : Beyond A B C) (hA : A2 = A ∨ Beyond A A2 B) (hC : C1 = C ∨ Beyond B C1 C) : Beyond A2 B C1 := by
  obtain ⟨μ, h0, h⟩ := h
  obtain ⟨α, a0, ha⟩ : ∃ α : ℚ, 0 < α ∧ ∀ i, B i - A2 i = α * (B i - A i) := by
    rcases hA with rfl | ⟨ν, n0, hn⟩
    · exact ⟨1, one_pos, fun i => by ring⟩
    · refine ⟨ν / (1 + ν), by positivity, fun i => ?_⟩
      have := hn i
      field_simp
      linear_combination this
  obtain ⟨β, b0, hb⟩ : ∃ β : ℚ, 0 < β ∧ ∀ i, C1 i - B i = β * (C i - B i) := by
    rcases hC with rfl | ⟨ρ, r0, hr⟩
    · exact ⟨1, one_pos, fun i => by ring⟩
    · refine ⟨1 / (1 + ρ), by positivity, fun i => ?_⟩
      have := hr i
      field_simp
      linear_combination -this
  refine ⟨β * μ / α, by positivity, fun i => ?_⟩
  rw [hb, h, ha]
  field_simp

theorem EdgeLine.d_ne {l : PL} {p q : Q3} (he : EdgeLine l p q) (hne : p ≠ q) : l.d ≠ ⟨0, 0, 0⟩ := by
  intro e0
  obtain ⟨s, s0, f⟩ := he.dir
  apply hne
  funext i
  have : l.d.q i = 0 := by
    rw [e0]; obtain rfl | rfl | rfl := fin3 i <;> simp [V3.q, V3.comp]
  rw [f i] at this
  rcases mul_eq_zero.1 this with e | e
  · exact absurd e s0.ne'
  · linarith

/-- What the assertions about two consecutive edges say. -/
theorem straight_iff {e f : Edge Nat} {A B C : Q3} (e1 : EdgeLine e.line A B) (e2 : EdgeLine f.line B C) (hAB : A ≠ B) (hBC : B ≠ C)
    (m1 : NoMin3 e.line.d) (m2 : NoMin3 f.line.d) (hw : f.vertex.w ≠ 0) (hB : f.vertex.pt = B) :
    World.straight e f = true ↔ Beyond A B C := by
  have co : e.line.isCoincident f.vertex = true := by
    rw [isCoincident_iff _ _ hw, hB]
    change crossQ B _ = _
    obtain ⟨s, s0, f⟩ := e1.dir
    rw [← e1.on]
    apply q3_ext <;> simp only [crossQ, f, Matrix.cons_val_zero, Matrix.cons_val_one, Matrix.cons_val_two, Matrix.head_cons, Matrix.tail_cons] <;> ring
  obtain ⟨r, hr, hr'⟩ := C19_same_dir_partial _ _ (e1.d_ne hAB) (e2.d_ne hBC) m1 m2
  have e0 : World.straight e f = r := by
    unfold World.straight
    rw [co, hr]
    cases r <;> rfl
  rw [e0, hr']
  obtain ⟨s, s0, f1⟩ := e1.dir
  obtain ⟨t, t0, f2⟩ := e2.dir
  constructor
  · rintro ⟨k, l, hk, hl, e3⟩
    have hk' : (0 : ℚ) < k := by exact_mod_cast hk
    have hl' : (0 : ℚ) < l := by exact_mod_cast hl
    refine ⟨k * s / (l * t), by positivity, fun i => ?_⟩
    have c : e.line.d.comp i * k = f.line.d.comp i * l := by
      have := congrArg (fun v => V3.comp v i) e3
      simpa only [comp_scale] using this
    have c' : (e.line.d.q i) * k = f.line.d.q i * l := by unfold V3.q; exact_mod_cast c
    rw [f1, f2] at c'
    field_simp
    linear_combination -c'
  · rintro ⟨μ, μ0, hy⟩
    have c0 : 0 < t * μ / s := by positivity
    have key : ∀ i, f.line.d.q i = t * μ / s * e.line.d.q i := by
      intro i
      rw [f2 i, f1 i, hy]
      field_simp
    generalize t * μ / s = c at c0 key
    refine ⟨c.num, c.den, Rat.num_pos.2 c0, by exact_mod_cast c.den_pos, ?_⟩
    rw [v3_ext_comp]
    intro i
    have := key i
    unfold V3.q at this
    have hd : (c.den : ℚ) ≠ 0 := by exact_mod_cast c.den_ne_zero
    rw [← Rat.num_div_den c] at this
    have e : (e.line.d.comp i : ℚ) * c.num = f.line.d.comp i * c.den := by
      rw [this]; field_simp
    rw [comp_scale, comp_scale]
    exact_mod_cast e

/-- The first edges of a convex polygon. -/
theorem straight_first {P : Polygon Nat} (hP : IsConvexPolygon P) {e f g : Edge Nat} {t : List (Edge Nat)} (hr : P.edges ~r e :: f :: g :: t)
    (m1 : NoMin3 e.line.d) (m2 : NoMin3 f.line.d) : World.straight e f = true ↔ Beyond e.vertex.pt f.vertex.pt g.vertex.pt := by
  obtain ⟨c, -⟩ := hP.isRotated hr
  generalize hR : ({ P with edges := e :: f :: g :: t } : Polygon Nat) = R at c
  have g0 : R.edges[0]? = some e := by rw [← hR]; rfl
  have g1 : R.edges[1]? = some f := by rw [← hR]; rfl
  have g2 : R.edges[2]? = some g := by rw [← hR]; rfl
  have n3 := c.three
  have l0 := c.line 0 (by omega)
  have l1 := c.line 1 (by omega)
  rw [Nat.mod_eq_of_lt (by omega), (pt_get g0).1, (pt_get g0).2.2] at l0
  rw [Nat.mod_eq_of_lt (by omega), (pt_get g1).1, (pt_get g2).1, (pt_get g1).2.2] at l1
  rw [Nat.zero_add, (pt_get g1).1] at l0
  have d0 := c.distinct 0 1 (by omega) (by omega)
  have d1 := c.distinct 1 2 (by omega) (by omega)
  rw [(pt_get g0).1, (pt_get g1).1] at d0
  rw [(pt_get g2).1, (pt_get g1).1] at d1
  have w := c.finite 1 (by omega)
  rw [(pt_get g1).2.1] at w
  exact straight_iff l0 l1 d0 d1 m1 m2 w rfl

/-- Removing a vertex at which the boundary goes straight on. -/
theorem erase_spec {P : Polygon Nat} (hP : IsConvexPolygon P) {i : Nat} {e f : Edge Nat} (he : P.edges[i]? = some e)
    (hf : P.edges[(i + 1) % P.count]? = some f) (m1 : NoMin3 e.line.d) (m2 : NoMin3 f.line.d) (hs : World.straight e f = true) :
    IsConvexPolygon { P with edges := P.edges.eraseIdx ((i + 1) % P.count) } ∧
      Polygon.region { P with edges := P.edges.eraseIdx ((i + 1) % P.count) } = P.region ∧
      ∃ C H, Beyond e.vertex.pt f.vertex.pt C ∧
        (halfEdges P.edges).Perm ((e.data, e.vertex.pt, f.vertex.pt) :: (f.data, f.vertex.pt, C) :: H) ∧
        (halfEdges (P.edges.eraseIdx ((i + 1) % P.count))).Perm ((e.data, e.vertex.pt, C) :: H) := by
  have n3 := hP.three
  obtain ⟨t, r1, r2⟩ := erase_next (by omega) he hf
  cases t with
  | nil =>
    have := r1.perm.length_eq
    unfold Polygon.count at n3
    simp at this; omega
  | cons g t =>
    have hb := (straight_first hP r1 m1 m2).1 hs
    obtain ⟨a1, a2⟩ := hP.isRotated r1
    obtain ⟨b1, b2, -⟩ := a1.straighten (e := e) (f := f) (t := g :: t) rfl (by
      rw [ring2_get (e := e) rfl, ring2_get (e := f) rfl, ring2_get (e := g) rfl]
      obtain ⟨μ, -, h⟩ := hb
      have hg : ∀ i, g.vertex.pt i = f.vertex.pt i + μ * (f.vertex.pt i - e.vertex.pt i) := fun i => by linear_combination h i
      simp only [ar, pr, px, py, hg]
      ring)
    obtain ⟨d1, d2⟩ := b1.isRotated r2
    obtain ⟨H, h1, h2⟩ := halfEdges_omit e f g t
    refine ⟨d1, by rw [d2, b2, a2], g.vertex.pt, H, hb, ?_, ?_⟩
    · rw [← h1]; exact halfEdges_rotated r1
    · rw [← h2]; exact (halfEdges_rotated r2).symm

theorem findIdx_label {l : List (Edge Nat)} (nd : (l.map (·.data)).Nodup) {i : Nat} {e : Edge Nat} (h : l[i]? = some e) :
    l.findIdx? (fun f => f.data == e.data) = some i := by
  induction l generalizing i with
  | nil => simp at h
  | cons a l ih =>
    rw [List.map_cons, List.nodup_cons] at nd
    rw [List.findIdx?_cons]
    cases i with
    | zero =>
      simp at h
      subst h
      simp
    | succ i =>
      rw [List.getElem?_cons_succ] at h
      have hne : a.data ≠ e.data := by
        intro e0
        apply nd.1
        rw [e0]
        exact List.mem_map_of_mem (List.mem_of_getElem? h)
      rw [if_neg (by simpa using hne), ih nd.2 h]; rfl

end Walnut.Poly
