/- Half-edges in a plane whose projections are on the same line. -/
import Verif.Conn.PlaneOrder

namespace Walnut.Conn
open Walnut.Geom Walnut.Props

section
variable {N : Net} {n : V3} {c : ℚ} {drop : Fin 3} {e f g : Nat}

theorem EdgeIn.perp (h : EdgeIn N n c e) (hn : n.comp drop ≠ 0) : ((N.line e).project2D drop).n ≠ ⟨0, 0⟩ := by
  have := h.dir2 hn
  intro h0
  apply this
  simp only [PL.project2D, V2.perp, V2.mk.injEq, neg_eq_zero] at h0
  simp only [Conn.dir2] at *
  generalize (N.line e).d.dropDimension drop = d at *
  obtain ⟨x, y⟩ := d
  simpa using h0.symm

theorem hasSameLine_iff (he : EdgeIn N n c e) (hf : EdgeIn N n c f) (hn : n.comp drop ≠ 0) :
    ((N.line f).project2D drop).hasSameLine ((N.line e).project2D drop) = true ↔ LineEq N drop e f := by
  rw [C25_has_same_line _ _ (hf.perp hn) (he.perp hn), sameLine_iff (hf.perp hn) (he.perp hn)]
  have d1 := he.dim hn
  have d2 := hf.dim hn
  constructor
  · rintro ⟨k, l, hk, hl, h1, h2, h3⟩
    simp only [PL.project2D, V2.perp, V3.dropDimension] at h1 h2 h3
    have hp : Par N drop e f := ⟨l, k, hl, hk, by
      simp only [V2.scale, V3.dropDimension, V2.mk.injEq]
      exact ⟨h2.symm, by linear_combination h1⟩⟩
    refine ⟨hp, ?_⟩
    unfold dist2
    rw [← hp.dim] at d2 ⊢
    rw [div_eq_div_int d1 d2]
    have hs : (N.line f).d.comp (sortedDim N drop e) * k = (N.line e).d.comp (sortedDim N drop e) * l := by
      unfold sortedDim
      split
      · linear_combination -h1
      · exact h2
    have : l * ((N.line e).m.comp drop * (N.line f).d.comp (sortedDim N drop e)) = l * ((N.line f).m.comp drop * (N.line e).d.comp (sortedDim N drop e)) := by
      linear_combination h3 * (N.line f).d.comp (sortedDim N drop e) + (N.line f).m.comp drop * hs
    exact Int.eq_of_mul_eq_mul_left hl this
  · rintro ⟨hp, hd⟩
    unfold dist2 at hd
    rw [← hp.dim] at hd d2
    rw [div_eq_div_int d1 d2] at hd
    have hp' := (par_iff he hf hn).1 hp
    refine ⟨(N.line e).d.comp (sortedDim N drop e), (N.line f).d.comp (sortedDim N drop e), d1, d2, ?_, ?_, ?_⟩
    · simp only [PL.project2D, V2.perp, V3.dropDimension]
      unfold sortedDim
      split
      · ring
      · linear_combination hp'
    · simp only [PL.project2D, V2.perp, V3.dropDimension]
      unfold sortedDim
      split
      · linear_combination hp'
      · ring
    · simp only [PL.project2D]
      linear_combination hd

theorem cross_zero {n w d : Q3} (drop : Fin 3) (hw : n 0 * w 0 + n 1 * w 1 + n 2 * w 2 = 0) (hd : n 0 * d 0 + n 1 * d 1 + n 2 * d 2 = 0)
    (hn : n drop ≠ 0) (h : w (drop + 1) * d (drop + 2) - w (drop + 2) * d (drop + 1) = 0) : crossQ w d = 0 := by
  have key : ∀ i, crossQ w d i = 0 := by
    intro i
    apply (mul_eq_zero.1 (?_ : n drop * crossQ w d i = 0)).resolve_left hn
    fin_cases drop <;> fin_cases i <;> simp [crossQ, -mul_eq_zero] at h ⊢
    · rw [h, mul_zero]
    · linear_combination n 1 * h + w 2 * hd - d 2 * hw
    · linear_combination n 2 * h - w 1 * hd + d 1 * hw
    · linear_combination n 0 * h - w 2 * hd + d 2 * hw
    · rw [h, mul_zero]
    · linear_combination n 2 * h + w 0 * hd - d 0 * hw
    · linear_combination n 0 * h + w 1 * hd - d 1 * hw
    · linear_combination n 1 * h - w 0 * hd + d 0 * hw
    · rw [h, mul_zero]
  exact funext key

theorem side_iff (l : PL) (drop : Fin 3) (p : Q3) : (l.project2D drop).side ![p (drop + 1), p (drop + 2)] = 0 ↔ crossQ p l.d.q drop = l.m.q drop := by
  have : (l.project2D drop).side ![p (drop + 1), p (drop + 2)] = l.m.q drop - crossQ p l.d.q drop := by
    fin_cases drop <;> simp [HS2.side, PL.project2D, V2.perp, V3.dropDimension, V3.q, crossQ] <;> ring
  rw [this, sub_eq_zero, eq_comm]

/-- A point of the plane whose projection is on that of a line is on the line. -/
theorem EdgeIn.onLine (he : EdgeIn N n c e) (hn : n.comp drop ≠ 0) {p : Q3} (hp : n.q 0 * p 0 + n.q 1 * p 1 + n.q 2 * p 2 = c)
    (hs : ((N.line e).project2D drop).side ![p (drop + 1), p (drop + 2)] = 0) : OnLine (N.line e) p := by
  have o := he.ortho
  have hv := he.on
  have hv' := he.inV
  rw [side_iff] at hs
  unfold OnLine at hv ⊢
  have hn' : n.q drop ≠ 0 := by unfold V3.q; exact_mod_cast hn
  rw [← hv] at hs ⊢
  generalize (N.vertex e).pt = v at *
  generalize (N.line e).d.q = d at *
  have hw : n.q 0 * (fun i => p i - v i) 0 + n.q 1 * (fun i => p i - v i) 1 + n.q 2 * (fun i => p i - v i) 2 = 0 := by
    simp only
    linear_combination hp - hv'
  have := cross_zero (w := fun i => p i - v i) drop hw o hn' (by
    fin_cases drop <;> simp [crossQ] at hs ⊢ <;> linear_combination hs)
  funext i
  have hi := congrFun this i
  fin_cases i <;> simp [crossQ] at hi ⊢ <;> linear_combination hi

/-- Both ends of an edge are on the lines of the edges in the plane with the same projected line. -/
theorem LineEq.ends (he : EdgeIn N n c e) (hf : EdgeIn N n c f) (hn : n.comp drop ≠ 0) (h : LineEq N drop e f) :
    OnLine (N.line e) (N.vertex f).pt ∧ OnLine (N.line e) (N.target f).pt := by
  have hs := (C25_has_same_line _ _ (hf.perp hn) (he.perp hn)).1 ((hasSameLine_iff he hf hn).2 h)
  have ht : OnLine (N.line f) (N.target f).pt := by
    obtain ⟨t, _, hto⟩ := hf.toNext
    have hv := hf.on
    unfold OnLine at hv ⊢
    rw [← hv]
    funext i
    fin_cases i <;> simp [crossQ, hto, V3.q] <;> ring
  refine ⟨he.onLine hn hf.inV ((hs _).1 ((side_iff _ _ _).2 ?_)), he.onLine hn hf.inT ((hs _).1 ((side_iff _ _ _).2 ?_))⟩
  · exact congrFun hf.on drop
  · exact congrFun ht drop

/-- Edges in the plane have the same projected line iff they have the same line. -/
theorem lineEq_iff (he : EdgeIn N n c e) (hf : EdgeIn N n c f) (hn : n.comp drop ≠ 0) : LineEq N drop e f ↔ SameLine3 N e f := by
  have mem : ∀ {e}, EdgeIn N n c e → ∀ {p}, OnLine (N.line e) p → n.q 0 * p 0 + n.q 1 * p 1 + n.q 2 * p 2 = c := by
    intro e he p hp
    have o := he.ortho
    have hd : (N.line e).d.comp (sortedDim N drop e) ≠ 0 := he.dim hn
    have hd' : ((N.line e).d.comp (sortedDim N drop e) : ℚ) ≠ 0 := by exact_mod_cast hd
    have h0 := onLine_diff hp he.on (sortedDim N drop e) 0
    have h1 := onLine_diff hp he.on (sortedDim N drop e) 1
    have h2 := onLine_diff hp he.on (sortedDim N drop e) 2
    have hv := he.inV
    simp only [V3.q] at *
    apply mul_right_cancel₀ hd'
    linear_combination n.comp 0 * h0 + n.comp 1 * h1 + n.comp 2 * h2 + (p (sortedDim N drop e) - (N.vertex e).pt (sortedDim N drop e)) * o +
      ((N.line e).d.comp (sortedDim N drop e) : ℚ) * hv
  constructor
  · intro h p
    have hs := (C25_has_same_line _ _ (hf.perp hn) (he.perp hn)).1 ((hasSameLine_iff he hf hn).2 h)
    constructor
    · intro hp
      exact hf.onLine hn (mem he hp) ((hs _).2 ((side_iff _ _ _).2 (congrFun hp drop)))
    · intro hp
      exact he.onLine hn (mem hf hp) ((hs _).1 ((side_iff _ _ _).2 (congrFun hp drop)))
  · intro h
    rw [← hasSameLine_iff he hf hn, C25_has_same_line _ _ (hf.perp hn) (he.perp hn)]
    have il : ∀ {e}, EdgeIn N n c e → IsLine (N.line e) (N.vertex e).pt := fun he => ⟨he.dir, he.on⟩
    have ext : ∀ {e}, EdgeIn N n c e → ∀ q, lineThrough (N.vertex e).pt (N.line e).d.q q ↔ OnLine (N.line e) q := by
      intro e he q
      constructor
      · rintro ⟨t, ht⟩
        have hv := he.on
        unfold OnLine at hv ⊢
        rw [← hv]
        funext i
        fin_cases i <;> simp [crossQ, ht] <;> ring
      · intro hq
        have hd : (N.line e).d.comp (sortedDim N drop e) ≠ 0 := he.dim hn
        have hd' : ((N.line e).d.comp (sortedDim N drop e) : ℚ) ≠ 0 := by exact_mod_cast hd
        refine ⟨(q (sortedDim N drop e) - (N.vertex e).pt (sortedDim N drop e)) / (N.line e).d.comp (sortedDim N drop e), fun i => ?_⟩
        have := onLine_diff hq he.on (sortedDim N drop e) i
        simp only [V3.q]
        field_simp
        linear_combination this
    intro u
    rw [C26_project2D _ _ (il hf) _ (hf.dir2 hn), C26_project2D _ _ (il he) _ (he.dir2 hn)]
    constructor
    · rintro ⟨q, h1, h2⟩
      exact ⟨q, (ext he q).2 ((h q).2 ((ext hf q).1 h1)), h2⟩
    · rintro ⟨q, h1, h2⟩
      exact ⟨q, (ext hf q).2 ((h q).1 ((ext he q).1 h1)), h2⟩

end

end Walnut.Conn
