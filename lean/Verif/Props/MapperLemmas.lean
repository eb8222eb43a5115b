/-
Lemmas about the mapper from vertices to double points.
-/
import Verif.Poly.Mapper
import Verif.Props.Redirect
import Mathlib.Logic.Relation
import Mathlib.Data.List.Nodup

namespace Walnut.Props
open Walnut.Util Walnut.Poly Walnut.Geom

/-- Two objects access the same value. -/
def SameValue (s : RHeap) (a b : Nat) : Prop := ∃ r, Accesses s a r ∧ Accesses s b r

/-- Merging `a` and `b` is defined, given enough steps, and afterwards exactly those
objects access the same value that did before or where one shared its value with `a` and the
other one with `b`. -/
def UnitesAt (merger : Nat → RHeap → Nat → Nat → Option RHeap) (s : RHeap) (a b : Nat) : Prop :=
  ∃ N s', (∀ fuel, N ≤ fuel → merger fuel s a b = some s') ∧ RInv s' ∧ (∀ c, (s' c).isSome = (s c).isSome) ∧
    ∀ c d, SameValue s' c d ↔ SameValue s c d ∨ (SameValue s c a ∧ SameValue s d b) ∨ (SameValue s c b ∧ SameValue s d a)

theorem SameValue.symm {s : RHeap} {a b : Nat} (h : SameValue s a b) : SameValue s b a := by
  obtain ⟨r, h1, h2⟩ := h; exact ⟨r, h2, h1⟩

theorem SameValue.trans {s : RHeap} {a b c : Nat} (h : SameValue s a b) (h' : SameValue s b c) : SameValue s a c := by
  obtain ⟨r, h1, h2⟩ := h
  obtain ⟨r', h3, h4⟩ := h'
  obtain rfl := h2.det h3
  exact ⟨r, h1, h4⟩

/-- If nothing that is accessed changes for the objects of `s`, they share values as before. -/
theorem same_of_preserved {s s' : RHeap} (hi : RInv s) (h : ∀ b x, Accesses s b x → Accesses s' b x) {c d : Nat}
    (hc : (s c).isSome) (hd : (s d).isSome) : SameValue s' c d ↔ SameValue s c d := by
  obtain ⟨x, hx⟩ := hi.accesses c hc
  obtain ⟨y, hy⟩ := hi.accesses d hd
  constructor
  · rintro ⟨r, h1, h2⟩
    obtain rfl := (h _ _ hx).det h1
    obtain rfl := (h _ _ hy).det h2
    exact ⟨y, hx, hy⟩
  · rintro ⟨r, h1, h2⟩
    exact ⟨r, h _ _ h1, h _ _ h2⟩

theorem primary_mono {s : RHeap} {fuel a : Nat} {r : RHeap × Nat} (h : primary s fuel a = some r) :
    primary s (fuel + 1) a = some r := by
  induction fuel generalizing s with
  | zero => simp [primary] at h
  | succ n ih =>
    rw [primary] at h ⊢
    cases hA : s a with
    | none => rw [hA] at h; cases h
    | some A =>
      rw [hA] at h
      dsimp only at h ⊢
      cases hR : s A.redirect with
      | none => rw [hR] at h; cases h
      | some R =>
        rw [hR] at h
        dsimp only at h ⊢
        split at h
        · rename_i h3; rw [if_pos h3]; exact h
        · rename_i h3; rw [if_neg h3]; exact ih h

theorem primary_mono_le {s : RHeap} {fuel a : Nat} {r : RHeap × Nat} (h : primary s fuel a = some r) {n : Nat} (hn : fuel ≤ n) :
    primary s n a = some r := by
  induction n, hn using Nat.le_induction with
  | base => exact h
  | succ n _ ih => exact primary_mono ih

theorem primary_result {s : RHeap} (hi : RInv s) {a : Nat} (ha : (s a).isSome) :
    ∃ N s' r, ∀ fuel, N ≤ fuel → primary s fuel a = some (s', r) := by
  obtain ⟨n, hn⟩ := primary_terminates hi a ha
  obtain ⟨⟨s', r⟩, h⟩ := Option.isSome_iff_exists.1 (hn n (Nat.le_refl _))
  exact ⟨n, s', r, fun fuel hf => primary_mono_le h hf⟩

theorem redirect_mono_le {s s' : RHeap} {fuel a b : Nat} (h : redirect s fuel a b = some s') {n : Nat} (hn : fuel ≤ n) :
    redirect s n a b = some s' := by
  unfold redirect at h ⊢
  split at h
  · cases h
  · rename_i s1 t hp
    rw [primary_mono_le hp hn]
    dsimp only
    split at h
    · cases h
    · rename_i A hA
      split at h
      · rename_i h1; rw [if_pos h1]; exact h
      · rename_i h1
        rw [if_neg h1]
        split at h
        · cases h
        · rename_i h2
          rw [if_neg h2]
          dsimp only at h ⊢
          split at h
          · cases h
          · rename_i s2 r2 hp2
            rw [primary_mono_le hp2 hn]
            exact h

/-- `a.Redirect(b)` merges the values if `a` is a primary. -/
theorem redirect_unites {s : RHeap} (hi : RInv s) {a b : Nat} (ha : Accesses s a a) (hb : (s b).isSome) (hab : ¬ SameValue s a b) :
    UnitesAt redirectMerger s a b := by
  obtain ⟨v, hv⟩ := hi.accesses b hb
  obtain ⟨n, hn⟩ := primary_terminates hi b hb
  -- defined
  have hdef : ∃ s', redirect s n a b = some s' := by
    obtain ⟨⟨s1, t⟩, hp⟩ := Option.isSome_iff_exists.1 (hn n (Nat.le_refl _))
    obtain ⟨d1, d2, d3, d4, ⟨T0, d5, d5'⟩, -⟩ := primary_spec hi _ _ _ _ hp
    obtain ⟨T, hT, hTt⟩ := (d3 _ _ d2).root
    have hs1 : (s1 a).isSome := by rw [d4]; exact ha.live
    obtain ⟨A, hA⟩ := Option.isSome_iff_exists.1 hs1
    obtain ⟨k, rfl⟩ : ∃ k, n = k + 1 := by
      cases n with
      | zero => simp [primary] at hp
      | succ k => exact ⟨k, rfl⟩
    unfold redirect
    simp only [hp, hA]
    split
    · exact ⟨_, rfl⟩
    · rename_i hne
      have hc := d1.con a A hA
      have hnd : ¬ (A.redirect = a ∧ A.constructed = false) := by
        rintro ⟨h1, h2⟩
        rw [hc.2 h1] at h2
        simp at h2
      rw [if_neg hnd]
      have hat : b ≠ a := by
        rintro rfl
        rw [d5] at hA
        obtain rfl := Option.some.inj hA
        exact hne d5'.symm
      have hta : t ≠ a := by
        rintro rfl
        rw [hT] at hA
        obtain rfl := Option.some.inj hA
        exact hne hTt.symm
      by_cases hroot : A.redirect = a
      · simp [hroot, primary, RHeap.set, hat, d5, d5', hta, hT, hTt]
      · simp [hroot, primary, d5, d5', hT, hTt, hA]
  obtain ⟨s', hr⟩ := hdef
  refine ⟨n, s', fun fuel hf => redirect_mono_le hr hf, ?_⟩
  obtain ⟨s1, t, A, hp, hA, hf⟩ := redirect_form hi hr
  obtain ⟨d1, d2, d3, d4, ⟨T0, d5, d5'⟩, -⟩ := primary_spec hi _ _ _ _ hp
  obtain rfl := d2.det hv
  obtain ⟨T, hT, hTt⟩ := (d3 _ _ d2).root
  have ht : Accesses s1 t t := .own t T hT hTt
  have hAa : A.redirect = a := by
    obtain ⟨A', hA', hr'⟩ := (d3 _ _ ha).root
    rw [hA] at hA'
    obtain rfl := Option.some.inj hA'
    exact hr'
  have hta : t ≠ a := by
    rintro rfl
    exact hab ⟨t, ha, hv⟩
  rcases hf with ⟨he, rfl⟩ | ⟨hne, hta, rfl⟩
  · exact absurd (he.symm.trans hAa) hta
  · obtain ⟨hi', g⟩ := set_redirect d1 hA hT hTt hta
    have live' : ∀ c, (s1.set a (some ⟨t, false⟩) c).isSome = (s c).isSome := by
      intro c
      simp only [RHeap.set]
      split
      · rename_i hc; subst hc; rw [ha.live]; rfl
      · exact d4 c
    refine ⟨hi', live', ?_⟩
    -- who accesses what afterwards
    have g1 : ∀ c x, x ≠ a → Accesses s c x → Accesses (s1.set a (some ⟨t, false⟩)) c x := by
      intro c x hx hc
      rcases g c x (d3 _ _ hc) with g | ⟨g, g'⟩
      · exact g
      · exact absurd (g'.det (d3 _ _ ha)) hx
    have g2 : ∀ c, Accesses s c a → Accesses (s1.set a (some ⟨t, false⟩)) c t := by
      intro c hc
      rcases g c a (d3 _ _ hc) with g | ⟨g, -⟩
      · obtain ⟨W, hW, hWr⟩ := g.root
        simp only [RHeap.set, if_true, Option.some.injEq] at hW
        subst hW
        exact absurd hWr hta
      · exact g
    intro c d
    constructor
    · rintro ⟨r, h1, h2⟩
      have lc : (s c).isSome := by rw [← live']; exact h1.live
      have ld : (s d).isSome := by rw [← live']; exact h2.live
      obtain ⟨x, hx⟩ := hi.accesses c lc
      obtain ⟨y, hy⟩ := hi.accesses d ld
      by_cases hxa : x = a
      · subst hxa
        have e1 := (g2 _ hx).det h1
        by_cases hya : y = x
        · subst hya; exact Or.inl ⟨_, hx, hy⟩
        · have e2 := (g1 _ _ hya hy).det h2
          refine Or.inr (Or.inl ⟨⟨_, hx, ha⟩, ⟨y, hy, ?_⟩⟩)
          rw [e2, ← e1]; exact hv
      · have e1 := (g1 _ _ hxa hx).det h1
        by_cases hya : y = a
        · subst hya
          have e2 := (g2 _ hy).det h2
          refine Or.inr (Or.inr ⟨⟨x, hx, ?_⟩, ⟨_, hy, ha⟩⟩)
          rw [e1, ← e2]; exact hv
        · have e2 := (g1 _ _ hya hy).det h2
          refine Or.inl ⟨x, hx, ?_⟩
          rw [e1, ← e2]; exact hy
    · have cross : ∀ {c d}, SameValue s c a → SameValue s d b → SameValue (s1.set a (some ⟨t, false⟩)) c d := by
        rintro c d ⟨r, h1, h2⟩ ⟨r', h3, h4⟩
        obtain rfl := h2.det ha
        obtain rfl := h4.det hv
        exact ⟨_, g2 _ h1, g1 _ _ hta h3⟩
      rintro (⟨r, h1, h2⟩ | ⟨h1, h2⟩ | ⟨h1, h2⟩)
      · by_cases hra : r = a
        · subst hra; exact ⟨t, g2 _ h1, g2 _ h2⟩
        · exact ⟨r, g1 _ _ hra h1, g1 _ _ hra h2⟩
      · exact cross h1 h2
      · exact (cross h2 h1).symm

/-- Redirecting the primary always merges the values. -/
theorem primary_unites {s : RHeap} (hi : RInv s) {a b : Nat} (ha : (s a).isSome) (hb : (s b).isSome) (hab : ¬ SameValue s a b) :
    UnitesAt primaryMerger s a b := by
  obtain ⟨N, s1, r, h⟩ := primary_result hi ha
  obtain ⟨d1, d2, d3, d4, -, -⟩ := primary_spec hi _ _ _ _ (h N (Nat.le_refl _))
  have same : ∀ c d, SameValue s1 c d ↔ SameValue s c d := by
    intro c d
    by_cases hc : (s c).isSome
    · by_cases hd : (s d).isSome
      · exact same_of_preserved hi d3 hc hd
      · refine iff_of_false ?_ ?_
        · rintro ⟨r, -, h⟩; exact hd (by rw [← d4]; exact h.live)
        · rintro ⟨r, -, h⟩; exact hd h.live
    · refine iff_of_false ?_ ?_
      · rintro ⟨r, h, -⟩; exact hc (by rw [← d4]; exact h.live)
      · rintro ⟨r, h, -⟩; exact hc h.live
  have hrr : Accesses s1 r r := by
    obtain ⟨R, hR, hr⟩ := (d3 _ _ d2).root
    exact .own r R hR hr
  have har : SameValue s1 a r := ⟨r, d3 _ _ d2, hrr⟩
  have hrb : ¬ SameValue s1 r b := fun h => hab ((same _ _).1 (har.trans h))
  obtain ⟨N', s', h', hi', l', g⟩ := redirect_unites d1 hrr (by rw [d4]; exact hb) hrb
  refine ⟨max N N', s', fun fuel hf => ?_, hi', fun c => (l' c).trans (d4 c), fun c d => ?_⟩
  · unfold primaryMerger
    rw [h fuel (by omega), Option.bind_some]
    exact h' fuel (by omega)
  · have e : ∀ c, SameValue s1 c r ↔ SameValue s c a := fun c =>
      ⟨fun h => (same _ _).1 (h.trans har.symm), fun h => ((same _ _).2 h).trans har⟩
    rw [g, same, e, e, same, same]

end Walnut.Props
