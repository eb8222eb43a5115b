/- More fuel does not change a result of `ApplySecondary`, so that a failed assertion can be recognized by running the outer
loop up to it. -/
import Verif.Bsp.KdStrategy

namespace Walnut.Bsp
open Walnut.Geom Walnut.Poly

variable {E : SecEnv}

theorem heapEnds_mono : ∀ {f : Nat} {st r : Sec}, Sec.heapEnds E f st = some r → Sec.heapEnds E (f + 1) st = some r := by
  intro f
  induction f with
  | zero => intro st r h; cases h
  | succ f ih =>
    intro st r h
    rw [Sec.heapEnds] at h ⊢
    split_ifs at h ⊢ with h1
    · exact h
    · split at h <;> rename_i e
      · cases h
      · split_ifs at h ⊢ with h2
        · exact h
        · obtain ⟨s, hs, h⟩ := Option.bind_eq_some_iff.1 h
          rw [hs, Option.bind_some]
          exact ih h

theorem mainEnds_mono : ∀ {f : Nat} {st r : Sec}, Sec.mainEnds E f st = some r → Sec.mainEnds E (f + 1) st = some r := by
  intro f
  induction f with
  | zero => intro st r h; cases h
  | succ f ih =>
    intro st r h
    rw [Sec.mainEnds] at h ⊢
    split_ifs at h ⊢ with h1
    · exact h
    · split at h <;> rename_i e
      · cases h
      · split_ifs at h ⊢ with h2
        · exact h
        · obtain ⟨s, hs, h⟩ := Option.bind_eq_some_iff.1 h
          rw [hs, Option.bind_some]
          exact ih h

theorem heapStarts_mono : ∀ {f : Nat} {st r : Sec}, Sec.heapStarts E f st = some r → Sec.heapStarts E (f + 1) st = some r := by
  intro f
  induction f with
  | zero => intro st r h; cases h
  | succ f ih =>
    intro st r h
    rw [Sec.heapStarts] at h ⊢
    split_ifs at h ⊢ with h1
    · exact h
    · split at h <;> rename_i e
      · cases h
      · split_ifs at h ⊢ with h2
        · obtain ⟨s, hs, h⟩ := Option.bind_eq_some_iff.1 h
          rw [hs, Option.bind_some]
          exact ih h
        · exact h

theorem mainStarts_mono : ∀ {f : Nat} {st r : Sec}, Sec.mainStarts E f st = some r → Sec.mainStarts E (f + 1) st = some r := by
  intro f
  induction f with
  | zero => intro st r h; cases h
  | succ f ih =>
    intro st r h
    rw [Sec.mainStarts] at h ⊢
    split_ifs at h ⊢ with h1
    · exact h
    · split at h <;> rename_i e
      · cases h
      · split_ifs at h ⊢ with h2
        · obtain ⟨s, hs, h⟩ := Option.bind_eq_some_iff.1 h
          rw [hs, Option.bind_some]
          exact ih h
        · exact h

theorem atLocation_mono : ∀ {f : Nat} {st r : Sec}, Sec.atLocation E f st = some r → Sec.atLocation E (f + 1) st = some r := by
  intro f
  induction f with
  | zero => intro st r h; cases h
  | succ f ih =>
    intro st r h
    rw [Sec.atLocation] at h ⊢
    split_ifs at h ⊢ with h1
    · exact h
    · obtain ⟨s1, h1, h⟩ := Option.bind_eq_some_iff.1 h
      obtain ⟨s2, h2, h⟩ := Option.bind_eq_some_iff.1 h
      obtain ⟨s3, h3, h⟩ := Option.bind_eq_some_iff.1 h
      obtain ⟨s4, h4, h⟩ := Option.bind_eq_some_iff.1 h
      rw [heapEnds_mono h1, Option.bind_some, mainEnds_mono h2, Option.bind_some, heapStarts_mono h3, Option.bind_some, mainStarts_mono h4,
        Option.bind_some]
      exact ih h

theorem skip_mono : ∀ {f : Nat} {st r : Sec}, Sec.skip E f st = some r → Sec.skip E (f + 1) st = some r := by
  intro f
  induction f with
  | zero => intro st r h; cases h
  | succ f ih =>
    intro st r h
    rw [Sec.skip] at h ⊢
    split_ifs at h ⊢ with h1
    · exact h
    · split at h <;> rename_i e
      · cases h
      · split_ifs at h ⊢ with h2 h3
        · split at h <;> rename_i e2
          · cases h
          · split at h <;> rename_i e3
            · cases h
            · split_ifs at h ⊢ with h4
              · obtain ⟨s, hs, h⟩ := Option.bind_eq_some_iff.1 h
                rw [hs, Option.bind_some]
                exact ih h
              · exact h
        · exact ih h
        · exact h

theorem round_mono {f : Nat} {st r : Sec} (h : Sec.round E f st = some r) : Sec.round E (f + 1) st = some r := by
  unfold Sec.round at h ⊢
  split at h <;> rename_i e
  · cases h
  · split_ifs at h ⊢ with h1
    obtain ⟨s, hs, h⟩ := Option.bind_eq_some_iff.1 h
    rw [skip_mono hs, Option.bind_some]
    split_ifs at h ⊢ with h2
    · exact h
    · simp only at h ⊢
      split at h <;> rename_i e2
      · exact atLocation_mono h
      · split at h <;> rename_i e3 e4
        · obtain ⟨c, hc, h⟩ := Option.bind_eq_some_iff.1 h
          rw [hc, Option.bind_some]
          exact atLocation_mono h
        · cases h

theorem round_le {f f' : Nat} {st r : Sec} (h : Sec.round E f st = some r) (hf : f ≤ f') : Sec.round E f' st = some r := by
  obtain ⟨k, rfl⟩ := Nat.exists_eq_add_of_le hf
  induction k with
  | zero => exact h
  | succ k ih => exact round_mono (ih (by omega))

/-- `k` iterations of the outer loop. -/
def Sec.iterate (E : SecEnv) (fuel : Nat) : Nat → Sec → Option Sec
  | 0, st => some st
  | k + 1, st => if st.cur < E.parent * 2 then (st.round E fuel).bind (iterate E fuel k) else none

theorem rounds_iterate {K F : Nat} : ∀ {k : Nat} {st st' r : Sec}, Sec.iterate E K k st = some st' → Sec.rounds E F st = some r → ∃ F', Sec.rounds E F' st' = some r := by
  intro k
  induction k generalizing F with
  | zero => intro st st' r h hr; cases h; exact ⟨F, hr⟩
  | succ k ih =>
    intro st st' r h hr
    unfold Sec.iterate at h
    split_ifs at h with hc
    obtain ⟨s, hs, h⟩ := Option.bind_eq_some_iff.1 h
    cases F with
    | zero => cases hr
    | succ F =>
      rw [Sec.rounds, if_pos hc] at hr
      obtain ⟨s', hs', hr⟩ := Option.bind_eq_some_iff.1 hr
      have e : s = s' := Option.some.inj ((round_le hs (le_max_left K F)).symm.trans (round_le hs' (le_max_right K F)))
      exact ih h (e ▸ hr)

/-- The loop arrives at an iteration that starts with an event that is not the first at its location. -/
def Sec.stuck (E : SecEnv) (K k : Nat) (st : Sec) : Bool :=
  match Sec.iterate E K k st with
  | none => false
  | some st' => decide (st'.cur < E.parent * 2) && ((st'.ev[st'.cur]?).map fun e => !e.newLoc).getD false

theorem rounds_stuck {K k : Nat} {st : Sec} (h : Sec.stuck E K k st = true) (F : Nat) : Sec.rounds E F st = none := by
  rw [Option.eq_none_iff_forall_ne_some]
  intro r hr
  unfold Sec.stuck at h
  split at h <;> rename_i e
  · cases h
  · rename_i st'
    obtain ⟨F', h'⟩ := rounds_iterate e hr
    rw [Bool.and_eq_true, decide_eq_true_eq] at h
    cases F' with
    | zero => cases h'
    | succ F' =>
      rw [Sec.rounds, if_pos h.1] at h'
      obtain ⟨s, hs, _⟩ := Option.bind_eq_some_iff.1 h'
      unfold Sec.round at hs
      have h2 := h.2
      split at hs <;> rename_i e2
      · cases hs
      · rw [e2] at h2
        simp only [Option.map_some, Option.getD_some] at h2
        rw [if_pos h2] at hs
        cases hs

/-- The split of a leaf arrives at such an iteration when it divides the event points of dimension `i`. -/
def Strategy.stuck (E : KdEnv) (S : Strategy) (path : List Bool) (d : NodeData) (i : Fin 3) (K k : Nat) : Bool :=
  match S.plan E d with
  | some (.kd _ dim part ev) =>
    match kdSplit dim part path d (ev dim) (List.replicate (part.neg * 2) E.junk) (List.replicate d.contents.length 0) with
    | some (.inner _ _ (.leaf n) (.leaf p), st) =>
      match extents i n.contents, extents i p.contents with
      | some ns, some ps =>
        decide (i ≠ dim) && Sec.stuck ⟨E.merge, i, ns, ps, st.map, d.contents.length, part.neg + part.pos + part.border - d.contents.length⟩ K k
          { ev := ev i, negEv := List.replicate (part.neg * 2) E.junk, posEv := List.replicate (part.pos * 2) E.junk }
      | _, _ => false
    | _ => false
  | _ => false

theorem three_none {α : Type} {f : Fin 3 → Option α} (i : Fin 3) (h : f i = none) : three f = none := by
  unfold three
  match i, h with
  | 0, h => rw [h]
  | 1, h => rw [h]; cases f 0 <;> rfl
  | 2, h => rw [h]; cases f 0 <;> cases f 1 <;> rfl

theorem split_stuck {E : KdEnv} {S : Strategy} {path : List Bool} {d : NodeData} {i : Fin 3} {K k : Nat} (h : S.stuck E path d i K k = true) (fuel : Nat) :
    S.split E fuel path d = none := by
  unfold Strategy.stuck at h
  unfold Strategy.split
  split at h <;> rename_i e
  · simp only [e]
    split at h <;> rename_i e2
    · simp only [e2]
      split at h <;> rename_i e3 e4
      · rw [Bool.and_eq_true, decide_eq_true_eq] at h
        rw [three_none i]
        unfold divideEvents
        rw [if_neg h.1]
        simp only [e3, e4]
        unfold applySecondary
        simp only [rounds_stuck h.2]
      · cases h
    · cases h
  · cases h

end Walnut.Bsp
