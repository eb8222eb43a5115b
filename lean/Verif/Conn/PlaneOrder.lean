/- The order of half-edges in a plane. -/
import Verif.Conn.PlaneSpec
import Verif.Conn.Geometry
import Verif.Props.Planes

namespace Walnut.Conn
open Walnut.Geom Walnut.Props

section
variable {N : Net} {n : V3} {c : ℚ} {drop : Fin 3} {e f g : Nat}

theorem EdgeIn.ortho (h : EdgeIn N n c e) :
    n.q 0 * (N.line e).d.q 0 + n.q 1 * (N.line e).d.q 1 + n.q 2 * (N.line e).d.q 2 = 0 := by
  obtain ⟨t, ht, hto⟩ := h.toNext
  have h1 := h.inT
  rw [hto 0, hto 1, hto 2] at h1
  have h2 := h.inV
  have : t * (n.q 0 * (N.line e).d.q 0 + n.q 1 * (N.line e).d.q 1 + n.q 2 * (N.line e).d.q 2) = 0 := by
    simp only [V3.q] at h1 h2 ⊢
    linear_combination h1 - h2
  exact (mul_eq_zero.1 this).resolve_left ht.ne'

/-- The direction of the projected edge. -/
abbrev dir2 (N : Net) (drop : Fin 3) (e : Nat) : V2 := (N.line e).d.dropDimension drop

theorem EdgeIn.dir2 (h : EdgeIn N n c e) (hn : n.comp drop ≠ 0) : dir2 N drop e ≠ ⟨0, 0⟩ := by
  intro h0
  have o := h.ortho
  simp only [Conn.dir2, V3.dropDimension, V2.mk.injEq] at h0
  apply h.dir
  clear h
  generalize (N.line e).d = d at h0 o ⊢
  obtain ⟨x, y, z⟩ := d
  obtain ⟨a, b, c'⟩ := n
  fin_cases drop
  · simp [V3.comp, V3.q] at h0 o hn ⊢
    obtain ⟨rfl, rfl⟩ := h0
    simp at o
    exact ⟨o.resolve_left hn, rfl, rfl⟩
  · simp [V3.comp, V3.q] at h0 o hn ⊢
    obtain ⟨rfl, rfl⟩ := h0
    simp at o
    exact ⟨rfl, o.resolve_left hn, rfl⟩
  · simp [V3.comp, V3.q] at h0 o hn ⊢
    obtain ⟨rfl, rfl⟩ := h0
    simp at o
    exact ⟨rfl, rfl, o.resolve_left hn⟩

theorem EdgeIn.dim (h : EdgeIn N n c e) (hn : n.comp drop ≠ 0) : (N.line e).d.comp (sortedDim N drop e) ≠ 0 := by
  have := h.dir2 hn
  unfold sortedDim
  split
  · rename_i h0
    intro h1
    exact this (by simp only [Conn.dir2, V3.dropDimension, h0, h1])
  · assumption

/-- Projected edges are parallel. -/
abbrev Par (N : Net) (drop : Fin 3) (e f : Nat) : Prop := Parallel2 (dir2 N drop e) (dir2 N drop f)

theorem par_iff (he : EdgeIn N n c e) (hf : EdgeIn N n c f) (hn : n.comp drop ≠ 0) :
    Par N drop e f ↔ (N.line e).d.comp (drop + 2) * (N.line f).d.comp (drop + 1) = (N.line f).d.comp (drop + 2) * (N.line e).d.comp (drop + 1) :=
  parallel2_iff (he.dir2 hn) (hf.dir2 hn)

theorem Par.symm (h : Par N drop e f) : Par N drop f e := by
  obtain ⟨k, l, h1, h2, h3⟩ := h
  exact ⟨l, k, h2, h1, h3.symm⟩

theorem Par.refl : Par N drop e e := ⟨1, 1, by decide, by decide, rfl⟩

theorem Par.trans (h : Par N drop e f) (h' : Par N drop f g) : Par N drop e g := by
  obtain ⟨k, l, h1, h2, h3⟩ := h
  obtain ⟨k', l', h1', h2', h3'⟩ := h'
  refine ⟨k * k', l * l', mul_ne_zero h1 h1', mul_ne_zero h2 h2', ?_⟩
  simp only [V2.scale, V2.mk.injEq] at h3 h3' ⊢
  exact ⟨by linear_combination k' * h3.1 + l * h3'.1, by linear_combination k' * h3.2 + l * h3'.2⟩

theorem Par.dim (h : Par N drop e f) : sortedDim N drop e = sortedDim N drop f := by
  obtain ⟨k, l, h1, h2, h3⟩ := h
  simp only [V2.scale, V2.mk.injEq, V3.dropDimension] at h3
  have : (N.line e).d.comp (drop + 1) = 0 ↔ (N.line f).d.comp (drop + 1) = 0 := by
    constructor
    · intro h
      have := h3.1
      rw [h, zero_mul] at this
      exact (mul_eq_zero.1 this.symm).resolve_right h2
    · intro h
      have := h3.1
      rw [h, zero_mul] at this
      exact (mul_eq_zero.1 this).resolve_right h1
  unfold sortedDim
  simp only [this]

/-- The distance by which parallel edges are compared. -/
def dist2 (N : Net) (drop : Fin 3) (e : Nat) : ℚ := ((N.line e).m.comp drop : ℚ) / (N.line e).d.comp (sortedDim N drop e)

/-- The location of the begin of an edge. -/
abbrev low (N : Net) (drop : Fin 3) (e : Nat) : ℚ := N.lo (sortedDim N drop e) e

/-- The projected edge has a less direction. -/
abbrev Half (N : Net) (drop : Fin 3) (e f : Nat) : Prop := (dir2 N drop e).isHalfRotationLessThan (dir2 N drop f) = true

/-- The line of an edge comes before that of another one. -/
def LineLt (N : Net) (drop : Fin 3) (e f : Nat) : Prop := Half N drop e f ∨ Par N drop e f ∧ dist2 N drop e < dist2 N drop f

/-- The edges are on the same projected line. -/
def LineEq (N : Net) (drop : Fin 3) (e f : Nat) : Prop := Par N drop e f ∧ dist2 N drop e = dist2 N drop f

def EdgeLt (N : Net) (drop : Fin 3) (e f : Nat) : Prop := LineLt N drop e f ∨ LineEq N drop e f ∧ low N drop e < low N drop f

theorem Half.not_par (he : EdgeIn N n c e) (hf : EdgeIn N n c f) (hn : n.comp drop ≠ 0) (h : Half N drop e f) : ¬ Par N drop e f := by
  intro hp
  have := ((C18_half_strict_weak_order _ _ _ (he.dir2 hn) (hf.dir2 hn) (hf.dir2 hn)).2.2.2).2 hp
  rw [h] at this
  simp at this

theorem edgeLess_iff (hN : N.Ok) (he : EdgeIn N n c e) (hf : EdgeIn N n c f) (hn : n.comp drop ≠ 0) :
    ∃ b, edgeLess N drop e f = some b ∧ (b = true ↔ EdgeLt N drop e f) := by
  unfold edgeLess
  rw [if_pos ⟨he.size, hf.size⟩]
  have hp := C19_same_or_opposite2 (dir2 N drop e) (dir2 N drop f) (he.dir2 hn) (hf.dir2 hn)
  by_cases hpar : Par N drop e f
  · rw [if_neg (by simpa using hp.2 hpar)]
    have d1 := he.dim hn
    have d2 := hf.dim hn
    rw [← hpar.dim] at d2
    have nh : ¬ Half N drop e f := fun h => h.not_par he hf hn hpar
    have eqd : dist2 N drop e = dist2 N drop f ↔ (N.line e).m.comp drop * (N.line f).d.comp (sortedDim N drop e) =
        (N.line f).m.comp drop * (N.line e).d.comp (sortedDim N drop e) := by
      unfold dist2
      rw [← hpar.dim]
      exact div_eq_div_int d1 d2
    simp only
    split
    · rename_i hd
      rw [if_pos ⟨d1, d2⟩]
      refine ⟨_, rfl, ?_⟩
      have lt : dist2 N drop e < dist2 N drop f ↔ lessThan (xor (decide ((N.line f).d.comp (sortedDim N drop e) < 0))
          (decide ((N.line e).d.comp (sortedDim N drop e) < 0))) ((N.line e).m.comp drop * (N.line f).d.comp (sortedDim N drop e))
          ((N.line f).m.comp drop * (N.line e).d.comp (sortedDim N drop e)) = true := by
        unfold dist2
        rw [← hpar.dim, div_lt_div_signs d1 d2, lessThan_iff]
        have := xor_decide_iff ((N.line f).d.comp (sortedDim N drop e) < 0) ((N.line e).d.comp (sortedDim N drop e) < 0)
        by_cases hs : (N.line e).d.comp (sortedDim N drop e) < 0 ↔ (N.line f).d.comp (sortedDim N drop e) < 0
        · rw [if_pos hs, if_neg (by rw [this]; simpa using hs.symm)]
        · rw [if_neg hs, if_pos (by rw [this]; intro hc; exact hs hc.symm)]
      rw [← lt]
      unfold EdgeLt LineLt LineEq
      constructor
      · intro h; exact .inl (.inr ⟨hpar, h⟩)
      · rintro ((h | h) | h)
        · exact absurd h nh
        · exact h.2
        · exact absurd (eqd.1 h.1.2) hd
    · rename_i hd
      have hq := eqd.2 (not_not.1 hd)
      rw [hN.beginLoc he.lt, hN.beginLoc hf.lt]
      refine ⟨_, rfl, ?_⟩
      have w : ∀ e, EdgeIn N n c e → ∀ k, (N.loPt k e).w ≠ 0 := by
        intro e he k
        unfold Net.loPt
        split
        · exact hN.fin _ he.lt
        · exact (hN.next he.lt).2
      rw [isLocationLess_iff (w e he _) (w f hf _)]
      change low N drop e < N.lo (sortedDim N drop e) f ↔ _
      rw [hpar.dim]
      change low N drop e < low N drop f ↔ _
      unfold EdgeLt LineLt LineEq
      constructor
      · intro h; exact .inr ⟨⟨hpar, hq⟩, h⟩
      · rintro ((h | h) | h)
        · exact absurd h nh
        · exact absurd hq (ne_of_lt h.2)
        · exact h.2
  · rw [if_pos (by
      have : ¬ (dir2 N drop e).isSameOrOppositeDir (dir2 N drop f) = true := fun h => hpar (hp.1 h)
      simpa using this)]
    refine ⟨_, rfl, ?_⟩
    unfold EdgeLt LineLt LineEq
    constructor
    · intro h; exact .inl (.inl h)
    · rintro ((h | h) | h)
      · exact h
      · exact absurd h.1 hpar
      · exact absurd h.1.1 hpar

/-! ## Laws -/

theorem Half.trans (he : EdgeIn N n c e) (hf : EdgeIn N n c f) (hg : EdgeIn N n c g) (hn : n.comp drop ≠ 0)
    (h : Half N drop e f) (h' : Half N drop f g) : Half N drop e g :=
  (C18_half_strict_weak_order _ _ _ (he.dir2 hn) (hf.dir2 hn) (hg.dir2 hn)).2.1 h h'

theorem Half.asymm (he : EdgeIn N n c e) (hf : EdgeIn N n c f) (hn : n.comp drop ≠ 0) (h : Half N drop e f) : ¬ Half N drop f e := by
  have := (C18_half_strict_weak_order _ _ _ (he.dir2 hn) (hf.dir2 hn) (hf.dir2 hn)).2.2.1 h
  intro h2
  rw [h2] at this; cases this

theorem half_total (he : EdgeIn N n c e) (hf : EdgeIn N n c f) (hn : n.comp drop ≠ 0) :
    Half N drop e f ∨ Half N drop f e ∨ Par N drop e f := by
  by_cases h1 : Half N drop e f
  · exact .inl h1
  · by_cases h2 : Half N drop f e
    · exact .inr (.inl h2)
    · exact .inr (.inr (((C18_half_strict_weak_order _ _ _ (he.dir2 hn) (hf.dir2 hn) (hf.dir2 hn)).2.2.2).1 ⟨by simpa using h1, by simpa using h2⟩))

theorem Half.par (he : EdgeIn N n c e) (hf : EdgeIn N n c f) (hg : EdgeIn N n c g) (hn : n.comp drop ≠ 0)
    (h : Half N drop e f) (h' : Par N drop f g) : Half N drop e g := by
  rcases half_total he hg hn with h1 | h1 | h1
  · exact h1
  · exact absurd h'.symm (Half.not_par hg hf hn (h1.trans hg he hf hn h))
  · exact absurd (h1.trans h'.symm) (h.not_par he hf hn)

theorem Par.half (he : EdgeIn N n c e) (hf : EdgeIn N n c f) (hg : EdgeIn N n c g) (hn : n.comp drop ≠ 0)
    (h : Par N drop e f) (h' : Half N drop f g) : Half N drop e g := by
  rcases half_total he hg hn with h1 | h1 | h1
  · exact h1
  · exact absurd h.symm (Half.not_par hf he hn (h'.trans hf hg he hn h1))
  · exact absurd (h.symm.trans h1) (h'.not_par hf hg hn)

theorem LineLt.trans (he : EdgeIn N n c e) (hf : EdgeIn N n c f) (hg : EdgeIn N n c g) (hn : n.comp drop ≠ 0)
    (h : LineLt N drop e f) (h' : LineLt N drop f g) : LineLt N drop e g := by
  rcases h with h | h <;> rcases h' with h' | h'
  · exact .inl (h.trans he hf hg hn h')
  · exact .inl (h.par he hf hg hn h'.1)
  · exact .inl (h.1.half he hf hg hn h')
  · exact .inr ⟨h.1.trans h'.1, h.2.trans h'.2⟩

theorem LineEq.refl : LineEq N drop e e := ⟨Par.refl, rfl⟩

theorem LineEq.symm (h : LineEq N drop e f) : LineEq N drop f e := ⟨h.1.symm, h.2.symm⟩

theorem LineEq.trans (h : LineEq N drop e f) (h' : LineEq N drop f g) : LineEq N drop e g := ⟨h.1.trans h'.1, h.2.trans h'.2⟩

theorem LineLt.eq (he : EdgeIn N n c e) (hf : EdgeIn N n c f) (hg : EdgeIn N n c g) (hn : n.comp drop ≠ 0)
    (h : LineLt N drop e f) (h' : LineEq N drop f g) : LineLt N drop e g := by
  rcases h with h | h
  · exact .inl (h.par he hf hg hn h'.1)
  · exact .inr ⟨h.1.trans h'.1, h'.2 ▸ h.2⟩

theorem LineEq.lt (he : EdgeIn N n c e) (hf : EdgeIn N n c f) (hg : EdgeIn N n c g) (hn : n.comp drop ≠ 0)
    (h : LineEq N drop e f) (h' : LineLt N drop f g) : LineLt N drop e g := by
  rcases h' with h' | h'
  · exact .inl (h.1.half he hf hg hn h')
  · exact .inr ⟨h.1.trans h'.1, h.2 ▸ h'.2⟩

theorem line_total (he : EdgeIn N n c e) (hf : EdgeIn N n c f) (hn : n.comp drop ≠ 0) :
    LineLt N drop e f ∨ LineLt N drop f e ∨ LineEq N drop e f := by
  rcases half_total he hf hn with h | h | h
  · exact .inl (.inl h)
  · exact .inr (.inl (.inl h))
  · rcases lt_trichotomy (dist2 N drop e) (dist2 N drop f) with h' | h' | h'
    · exact .inl (.inr ⟨h, h'⟩)
    · exact .inr (.inr ⟨h, h'⟩)
    · exact .inr (.inl (.inr ⟨h.symm, h'⟩))

theorem LineLt.not_eq (he : EdgeIn N n c e) (hf : EdgeIn N n c f) (hn : n.comp drop ≠ 0) (h : LineLt N drop e f) : ¬ LineEq N drop e f := by
  rintro ⟨h1, h2⟩
  rcases h with h | h
  · exact h.not_par he hf hn h1
  · exact absurd h2 (ne_of_lt h.2)

theorem LineLt.asymm (he : EdgeIn N n c e) (hf : EdgeIn N n c f) (hn : n.comp drop ≠ 0) (h : LineLt N drop e f) : ¬ LineLt N drop f e := by
  intro h'
  exact (h.trans he hf he hn h').not_eq he he hn LineEq.refl

theorem EdgeLt.trans (he : EdgeIn N n c e) (hf : EdgeIn N n c f) (hg : EdgeIn N n c g) (hn : n.comp drop ≠ 0)
    (h : EdgeLt N drop e f) (h' : EdgeLt N drop f g) : EdgeLt N drop e g := by
  rcases h with h | h <;> rcases h' with h' | h'
  · exact .inl (h.trans he hf hg hn h')
  · exact .inl (h.eq he hf hg hn h'.1)
  · exact .inl (h.1.lt he hf hg hn h')
  · exact .inr ⟨h.1.trans h'.1, h.2.trans h'.2⟩

theorem EdgeLt.irrefl (he : EdgeIn N n c e) (hn : n.comp drop ≠ 0) : ¬ EdgeLt N drop e e := by
  rintro (h | h)
  · exact h.not_eq he he hn LineEq.refl
  · exact lt_irrefl _ h.2

theorem edge_incomp (he : EdgeIn N n c e) (hf : EdgeIn N n c f) (hn : n.comp drop ≠ 0) :
    (¬ EdgeLt N drop e f ∧ ¬ EdgeLt N drop f e) ↔ LineEq N drop e f ∧ low N drop e = low N drop f := by
  constructor
  · rintro ⟨h1, h2⟩
    rcases line_total he hf hn with h | h | h
    · exact absurd (.inl h) h1
    · exact absurd (.inl h) h2
    · refine ⟨h, le_antisymm (not_lt.1 fun hl => h2 (.inr ⟨h.symm, hl⟩)) (not_lt.1 fun hl => h1 (.inr ⟨h, hl⟩))⟩
  · rintro ⟨h1, h2⟩
    refine ⟨?_, ?_⟩
    · rintro (h | h)
      · exact h.not_eq he hf hn h1
      · exact absurd h2 (ne_of_lt h.2)
    · rintro (h | h)
      · exact h.not_eq hf he hn h1.symm
      · exact absurd h2.symm (ne_of_lt h.2)

theorem deedLess_strictWeak (hN : N.Ok) (hn : n.comp drop ≠ 0) {l : List (Option Nat)} (hl : ∀ e, some e ∈ l → EdgeIn N n c e) :
    (∀ a ∈ l, ∀ b ∈ l, deedLess N drop a b ≠ none) ∧ StrictWeak (fun a b => (deedLess N drop a b).getD false) l := by
  have ee : ∀ e f, some e ∈ l → some f ∈ l → ((deedLess N drop (some e) (some f)).getD false = true ↔ EdgeLt N drop e f) := by
    intro e f he hf
    obtain ⟨b, h1, h2⟩ := edgeLess_iff hN (hl e he) (hl f hf) hn
    simp only [deedLess, h1, Option.getD_some]
    exact h2
  have ef : ∀ e f, some e ∈ l → some f ∈ l → ((deedLess N drop (some e) (some f)).getD false = false ↔ ¬ EdgeLt N drop e f) := by
    intro e f he hf
    rw [← ee e f he hf, Bool.not_eq_true]
  refine ⟨?_, ?_, ?_, ?_⟩
  · intro a ha b hb
    match a, b with
    | none, _ => simp [deedLess]
    | some _, none => simp [deedLess]
    | some e, some f =>
      obtain ⟨b, h1, h2⟩ := edgeLess_iff hN (hl e ha) (hl f hb) hn
      simp [deedLess, h1]
  · intro a ha
    match a with
    | none => simp [deedLess]
    | some e => exact (ef e e ha ha).2 (EdgeLt.irrefl (hl e ha) hn)
  · intro a ha b hb d hd
    match a, b, d with
    | none, none, _ => simp [deedLess]
    | none, some _, none => simp [deedLess]
    | none, some _, some _ => simp [deedLess]
    | some _, none, _ => simp [deedLess]
    | some _, some _, none => simp [deedLess]
    | some e, some f, some g =>
      intro h1 h2
      rw [ee e f ha hb] at h1
      rw [ee f g hb hd] at h2
      exact (ee e g ha hd).2 (h1.trans (hl e ha) (hl f hb) (hl g hd) hn h2)
  · intro a ha b hb d hd
    match a, b, d with
    | none, none, _ => intro _ _ h1 h2; exact ⟨h1, h2⟩
    | none, some _, _ => simp [deedLess]
    | some _, none, _ => simp [deedLess]
    | some _, some _, none => simp [deedLess]
    | some e, some f, some g =>
      intro h1 h2 h3 h4
      rw [ef e f ha hb] at h1
      rw [ef f e hb ha] at h2
      rw [ef f g hb hd] at h3
      rw [ef g f hd hb] at h4
      simp only [ef e g ha hd, ef g e hd ha]
      obtain ⟨p1, p2⟩ := (edge_incomp (hl e ha) (hl f hb) hn).1 ⟨h1, h2⟩
      obtain ⟨q1, q2⟩ := (edge_incomp (hl f hb) (hl g hd) hn).1 ⟨h3, h4⟩
      exact (edge_incomp (hl e ha) (hl g hd) hn).2 ⟨p1.trans q1, p2.trans q2⟩

end

end Walnut.Conn
