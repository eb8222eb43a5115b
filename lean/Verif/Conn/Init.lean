/- The state before the first location. -/
import Verif.Conn.NoError

namespace Walnut.Conn
open Walnut.Geom Walnut.Props

variable {k : Fin 3} {N : Net} {range : List Nat}

/-- The points and the lines. -/
abbrev onC (N : Net) (range : List Nat) : HP3 → Prop := fun p => p.w ≠ 0 ∧ ∀ e ∈ range, OnLine (N.line e) p.pt
abbrev inL (N : Net) (range : List Nat) : PL → Prop := fun l => ∃ e ∈ range, l = N.line e

theorem LineInput.lined (h : LineInput k N range) : Lined k (onC N range) (inL N range) := by
  refine ⟨fun p hp => hp.1, ?_, ?_⟩
  · rintro l ⟨e, he, rfl⟩; exact h.dir e he
  · rintro l ⟨e, he, rfl⟩ p hp; exact hp.2 e he

theorem LineInput.notIn (h : LineInput k N range) {e : Nat} (he : InE N range e) (hlt : e < N.count) : e ∈ range := by
  rcases he with he | he
  · exact he
  · omega

theorem LineInput.ninv (h : LineInput k N range) (x : ℚ) : NInv k (onC N range) (inL N range) range N N x := by
  refine ⟨h.ok, le_refl _, ?_, ?_, ?_, fun _ _ => ⟨rfl, rfl, rfl⟩, fun _ _ => ⟨rfl, rfl⟩, rfl, fun _ => List.Sublist.refl _, ?_, ?_⟩
  · intro e he hlt
    have he := h.notIn he hlt
    have w1 := h.ok.fin e hlt
    have w2 := (h.ok.next hlt).2
    exact ⟨⟨e, he, rfl⟩, ⟨w1, fun f hf => (isCoincident_iff _ _ w1).1 (h.on f hf e he).1⟩,
      ⟨w2, fun f hf => (isCoincident_iff _ _ w2).1 (h.on f hf e he).2⟩⟩
  · intro e he hlt
    exact h.len e (h.notIn he hlt)
  · intro e f he hf
    have := h.free e (h.notIn he (h.ok.exist _ _ hf))
    rw [this] at hf; cases hf
  · intro e he hlt
    exact ⟨e, h.notIn he hlt, rfl, rfl, le_refl _, le_refl _⟩
  · intro n h1 h2; omega

theorem LineInput.bnd (h : LineInput k N range) {x : ℚ} (hx : ∀ e ∈ range, x < N.lo k e) :
    Bnd k (onC N range) (inL N range) range N (St.init N) x range := by
  refine ⟨⟨h.ninv x, ?_, ?_, ?_, ?_, ?_, ?_, ?_⟩, ?_, rfl, ?_, List.Perm.refl _, ?_, ⟨h.nodup, h.sorted, ?_⟩, hx⟩
  · exact List.nodup_nil
  · intro g hg; cases hg
  · intro g hg; cases hg
  · intro g hg; cases hg
  · intro g hg; cases hg
  · intro g hg; cases hg
  · intro e f he hf
    have := h.free e (h.notIn he (h.ok.exist _ _ hf))
    change N.partner e = some f at hf
    rw [this] at hf; cases hf
  · intro g hg; cases hg
  · intro g hg; cases hg
  · intro i a b ha hb; simp [St.init] at hb
  · intro e he
    exact ⟨he, h.lt e he, rfl, h.free e he, by simp [St.init], by simp [St.init]⟩

theorem LineInput.whole (h : LineInput k N range) {x : ℚ} (hx : ∀ e ∈ range, x < N.lo k e) (Rel : ℚ → Bool → Nat → Nat → Prop) :
    Whole k range N Rel (St.init N) x range := by
  refine ⟨h.lt, ?_, ?_, id, ?_, fun _ _ => rfl, ?_, ?_⟩
  · intro e he hlt hl
    exact absurd (hx e (h.notIn he hlt)) (not_lt.2 hl.le)
  · intro e he hlt _
    exact .inl (h.notIn he hlt)
  · intro g hg; cases hg
  · intro e he hlt
    exact ⟨h.notIn he hlt, rfl, rfl, le_refl _, le_refl _⟩
  · intro e f he hf
    have := h.free e (h.notIn he (h.ok.exist _ _ hf))
    change N.partner e = some f at hf
    rw [this] at hf; cases hf

theorem LineInput.cbnd (h : LineInput k N range) {x : ℚ} (hx : ∀ e ∈ range, x < N.lo k e) (Ord : ℚ → List Nat) :
    CBnd k range N Ord (St.init N) x range := by
  refine ⟨h.whole hx _, ?_, ?_, ?_, ?_, fun e he => .inl he⟩
  · intro g hg; cases hg
  · intro g hg; cases hg
  · exact List.Pairwise.nil
  · intro g hg; cases hg

theorem exists_below (f : Nat → ℚ) (l : List Nat) : ∃ x : ℚ, ∀ e ∈ l, x < f e := by
  induction l with
  | nil => exact ⟨0, by simp⟩
  | cons a l ih =>
    obtain ⟨x, hx⟩ := ih
    refine ⟨min x (f a - 1), ?_⟩
    intro e he
    rcases List.mem_cons.1 he with rfl | he
    · exact (min_le_right _ _).trans_lt (by linarith)
    · exact (min_le_left _ _).trans_lt (hx e he)

end Walnut.Conn
