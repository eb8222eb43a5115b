/- Invariants of deeds and their targets. -/
import Verif.Util.Deed
import Mathlib.Tactic.Common

namespace Walnut.Util

/-- The owner pointer of the target at `a`, if there is one. -/
def DeedWorld.own (s : DeedWorld) (a : Nat) : Option Nat := (s.targets a).bind Tgt.owner
/-- The union member of the deed at `d`. -/
def DeedWorld.ob (s : DeedWorld) (d : Nat) : Option Obj := (s.deeds d).map DeedSt.obj
/-- The lender pointer of the deed at `d`. -/
def DeedWorld.le (s : DeedWorld) (d : Nat) : Option Nat := (s.deeds d).bind DeedSt.lender

open DeedWorld in
/-- The invariant behind the properties. -/
structure DeedInv (s : DeedWorld) : Prop where
  own : ∀ a d, own s a = some d ↔ ob s d = some (.target a)
  len : ∀ d l, le s d = some l → ob s l = some .lent
  uniq : ∀ d d' l, le s d = some l → le s d' = some l → d = d'
  borrowed : ∀ l, ob s l = some .lent → ∃ d, le s d = some l

namespace DeedEffects
open DeedWorld
variable (s s' : DeedWorld)

theorem own_setDeed (d v x) : own (s.setDeed d v) x = own s x := rfl
theorem ob_setTarget (a v x) : ob (s.setTarget a v) x = ob s x := rfl
theorem le_setTarget (a v x) : le (s.setTarget a v) x = le s x := rfl
theorem ob_setDeed (d v x) : ob (s.setDeed d v) x = if x = d then v.map DeedSt.obj else ob s x := by
  simp only [ob, setDeed]; split <;> rfl
theorem le_setDeed (d v x) :
    le (s.setDeed d v) x = if x = d then v.bind DeedSt.lender else le s x := by
  simp only [le, setDeed]; split <;> rfl
theorem own_setTarget (a v x) :
    own (s.setTarget a v) x = if x = a then v.bind Tgt.owner else own s x := by
  simp only [own, setTarget]; split <;> rfl

theorem setObj_eff {p o} (h : s.setObj p o = some s') :
    (∀ x, ob s' x = if p = some x then some o else ob s x) ∧ (∀ x, le s' x = le s x) ∧
    (∀ x, own s' x = own s x) ∧ (∀ x, s'.targets x = s.targets x) ∧
    (∀ x, (s'.deeds x).isSome = (s.deeds x).isSome) := by
  unfold setObj at h
  split at h
  · simp only [Option.some.injEq] at h; subst h; simp
  · split at h <;> simp only [Option.some.injEq, reduceCtorEq] at h
    rename_i d D hD
    subst h
    refine ⟨fun x => ?_, fun x => ?_, fun x => rfl, fun x => rfl, fun x => ?_⟩
    · rw [ob_setDeed]; simp only [Option.some.injEq, Option.map_some]; grind
    · rw [le_setDeed]; split
      · subst_vars; simp [le, hD]
      · rfl
    · simp only [setDeed]; split
      · subst_vars; simp [hD]
      · rfl

theorem setOwner_eff {o p} (h : s.setOwner o p = some s') :
    (∀ x, own s' x = if o = .target x then p else own s x) ∧ (∀ x, le s' x = le s x) ∧
    (∀ x, ob s' x = ob s x) ∧ (∀ x, s'.deeds x = s.deeds x) := by
  unfold setOwner at h
  split at h
  · split at h <;> simp only [Option.some.injEq, reduceCtorEq] at h
    subst h
    refine ⟨fun x => ?_, fun x => rfl, fun x => rfl, fun x => rfl⟩
    rw [own_setTarget]; simp only [Obj.target.injEq, Option.bind_some, eq_comm]
  · simp only [Option.some.injEq] at h; subst h
    rename_i hne
    refine ⟨fun x => ?_, fun x => rfl, fun x => rfl, fun x => rfl⟩
    rw [if_neg (hne x)]

end DeedEffects
open DeedWorld DeedEffects

/-- Proves the invariant from the effects `f1` (union), `f2` (lender), `f3` (owner). -/
macro "deed_inv" f1:ident f2:ident f3:ident : tactic => `(tactic|
  (constructor <;> simp only [$f1:ident, $f2:ident, $f3:ident] <;> intros <;> grind))

theorem inv_moveAssign (s s' : DeedWorld) (a b : Nat) (hi : DeedInv s)
    (h : deedStep s (.moveAssignTarget a b) = some s') : DeedInv s' := by
  simp only [deedStep] at h
  split at h <;> try simp only [reduceCtorEq] at h
  rename_i A B hA hB
  rw [Option.bind_eq_some_iff] at h
  obtain ⟨s1, h1, h2⟩ := h
  obtain ⟨e1, e2, e3, -, -⟩ := setObj_eff _ _ h1
  obtain ⟨f1, f2, f3, -, -⟩ := setObj_eff _ _ h2
  have hAo : own s a = A.owner := by simp [own, hA]
  have hBo : own s b = B.owner := by simp [own, hB]
  simp only [ob_setTarget, le_setTarget, own_setTarget, e1, e2, e3, Option.bind_some] at f1 f2 f3
  obtain ⟨i1, i2, i3, i4⟩ := hi
  clear e1 e2 e3 h1 h2
  constructor
  · intro x d
    rw [f1, f3]
    grind
  · intro d l
    rw [f2, f1]
    grind
  · intro d d' l
    rw [f2, f2]
    exact i3 d d' l
  · intro l
    simp only [f2, f1]
    intro hl
    apply i4
    grind

theorem inv_newTarget (s s' : DeedWorld) (a x : Nat) (hi : DeedInv s)
    (h : deedStep s (.newTarget a x) = some s') : DeedInv s' := by
  simp only [deedStep] at h
  split at h <;> try simp only [reduceCtorEq] at h
  rename_i hA
  have hAo : own s a = none := by simp [own, hA]
  obtain ⟨i1, i2, i3, i4⟩ := hi
  simp only [Option.some.injEq] at h
  subst h
  constructor <;> simp only [ob_setTarget, le_setTarget, own_setTarget, Option.bind_some] <;> grind

theorem inv_copyTarget (s s' : DeedWorld) (a b : Nat) (hi : DeedInv s)
    (h : deedStep s (.copyTarget a b) = some s') : DeedInv s' := by
  simp only [deedStep] at h
  split at h <;> try simp only [reduceCtorEq] at h
  rename_i hA hB
  have hAo : own s a = none := by simp [own, hA]
  obtain ⟨i1, i2, i3, i4⟩ := hi
  simp only [Option.some.injEq] at h
  subst h
  constructor <;> simp only [ob_setTarget, le_setTarget, own_setTarget, Option.bind_some] <;> grind

theorem inv_copyAssign (s s' : DeedWorld) (a b : Nat) (hi : DeedInv s)
    (h : deedStep s (.copyAssignTarget a b) = some s') : DeedInv s' := by
  simp only [deedStep] at h
  split at h <;> try simp only [reduceCtorEq] at h
  rename_i A B hA hB
  have hAo : own s a = A.owner := by simp [own, hA]
  obtain ⟨i1, i2, i3, i4⟩ := hi
  simp only [Option.some.injEq] at h
  subst h
  constructor <;> simp only [ob_setTarget, le_setTarget, own_setTarget, Option.bind_some] <;> grind

theorem inv_moveTarget (s s' : DeedWorld) (a b j : Nat) (hi : DeedInv s)
    (h : deedStep s (.moveTarget a b j) = some s') : DeedInv s' := by
  simp only [deedStep] at h
  split at h <;> try simp only [reduceCtorEq] at h
  rename_i B hA hB
  obtain ⟨f1, f2, f3, -, -⟩ := setObj_eff _ _ h
  have hAo : own s a = none := by simp [own, hA]
  have hBo : own s b = B.owner := by simp [own, hB]
  have hab : a ≠ b := by rintro rfl; simp [hA] at hB
  simp only [ob_setTarget, le_setTarget, own_setTarget, Option.bind_some] at f1 f2 f3
  obtain ⟨i1, i2, i3, i4⟩ := hi
  clear h
  constructor
  · intro x d
    rw [f1, f3]
    grind
  · intro d l
    rw [f2, f1]
    grind
  · intro d d' l
    rw [f2, f2]
    exact i3 d d' l
  · intro l
    simp only [f2, f1]
    intro hl
    apply i4
    grind

theorem inv_destroyTarget (s s' : DeedWorld) (a : Nat) (hi : DeedInv s)
    (h : deedStep s (.destroyTarget a) = some s') : DeedInv s' := by
  simp only [deedStep] at h
  split at h <;> try simp only [reduceCtorEq] at h
  rename_i A hA
  rw [Option.map_eq_some_iff] at h
  obtain ⟨s1, h1, rfl⟩ := h
  obtain ⟨f1, f2, f3, -, -⟩ := setObj_eff _ _ h1
  have hAo : own s a = A.owner := by simp [own, hA]
  obtain ⟨i1, i2, i3, i4⟩ := hi
  clear h1
  constructor
  · intro x d
    rw [ob_setTarget, own_setTarget, f1, f3]
    grind
  · intro d l
    rw [ob_setTarget, le_setTarget, f2, f1]
    grind
  · intro d d' l
    rw [le_setTarget, le_setTarget, f2, f2]
    exact i3 d d' l
  · intro l
    simp only [ob_setTarget, le_setTarget, f2, f1]
    intro hl
    apply i4
    grind

theorem inv_newDeed (s s' : DeedWorld) (d : Nat) (hi : DeedInv s)
    (h : deedStep s (.newDeed d) = some s') : DeedInv s' := by
  simp only [deedStep] at h
  split at h <;> try simp only [reduceCtorEq] at h
  rename_i hD
  have hDo : ob s d = none := by simp [ob, hD]
  have hDl : le s d = none := by simp [le, hD]
  obtain ⟨i1, i2, i3, i4⟩ := hi
  simp only [Option.some.injEq] at h
  subst h
  constructor <;> simp only [ob_setDeed, le_setDeed, own_setDeed, Option.bind_some, Option.map_some] <;>
    grind

theorem inv_deedOf (s s' : DeedWorld) (d a : Nat) (hi : DeedInv s)
    (h : deedStep s (.deedOf d (some a)) = some s') : DeedInv s' := by
  simp only [deedStep] at h
  split at h <;> try simp only [reduceCtorEq] at h
  rename_i A hD hA
  rw [Option.map_eq_some_iff] at h
  obtain ⟨s1, h1, rfl⟩ := h
  obtain ⟨f1, f2, f3, -, -⟩ := setObj_eff _ _ h1
  have hDo : ob s d = none := by simp [ob, hD]
  have hDl : le s d = none := by simp [le, hD]
  have hAo : own s a = A.owner := by simp [own, hA]
  obtain ⟨i1, i2, i3, i4⟩ := hi
  clear h1
  constructor
  · intro x d
    simp only [ob_setTarget, own_setTarget, own_setDeed, ob_setDeed, Option.bind_some,
      Option.map_some, f1, f3]
    grind
  · intro d l
    simp only [ob_setTarget, le_setTarget, le_setDeed, ob_setDeed, Option.bind_some,
      Option.map_some, f1, f2]
    grind
  · intro d d' l
    simp only [le_setTarget, le_setDeed, Option.bind_some, f2]
    grind
  · intro l
    simp only [ob_setTarget, le_setTarget, le_setDeed, ob_setDeed, Option.bind_some,
      Option.map_some, f1, f2]
    intro hl
    by_cases hAl : A.owner = some l
    · exact ⟨d, by simp [hAl]⟩
    · have : l ≠ d := by rintro rfl; simp at hl
      simp only [this, if_false, hAl] at hl
      obtain ⟨e, he⟩ := i4 l hl
      exact ⟨e, by grind⟩

theorem inv_moveDeed (s s' : DeedWorld) (d e : Nat) (hi : DeedInv s)
    (h : deedStep s (.moveDeed d e) = some s') : DeedInv s' := by
  simp only [deedStep] at h
  split at h <;> try simp only [reduceCtorEq] at h
  rename_i E hD hE
  split at h <;> try simp only [reduceCtorEq] at h
  rename_i hnl
  obtain ⟨f1, f2, f3, -⟩ := setOwner_eff _ _ h
  have hDo : ob s d = none := by simp [ob, hD]
  have hDl : le s d = none := by simp [le, hD]
  have hEo : ob s e = some E.obj := by simp [ob, hE]
  have hEl : le s e = E.lender := by simp [le, hE]
  have hde : d ≠ e := by rintro rfl; simp [hD] at hE
  simp only [own_setDeed, ob_setDeed, le_setDeed, Option.bind_some, Option.map_some] at f1 f2 f3
  obtain ⟨i1, i2, i3, i4⟩ := hi
  clear h hD hE
  constructor
  · intro x y
    rw [f1, f3]
    have k1 := i1 x d
    have k2 := i1 x e
    have k3 := i1 x y
    grind
  · intro x l
    rw [f2, f3]
    grind
  · intro x y l
    rw [f2, f2]
    grind
  · intro l
    simp only [f2, f3]
    intro hl
    have h0 : ob s l = some .lent := by grind
    obtain ⟨x, hx⟩ := i4 l h0
    by_cases hxe : x = e
    · subst hxe; exact ⟨d, by grind⟩
    · exact ⟨x, by grind⟩

theorem inv_swapDeeds (s s' : DeedWorld) (d e : Nat) (hi : DeedInv s)
    (h : deedStep s (.swapDeeds d e) = some s') : DeedInv s' := by
  simp only [deedStep] at h
  split at h <;> try simp only [reduceCtorEq] at h
  rename_i D E hD hE
  split at h <;> try simp only [reduceCtorEq] at h
  rename_i hnl
  rw [not_or] at hnl
  rw [Option.bind_eq_some_iff] at h
  obtain ⟨s1, h1, h2⟩ := h
  obtain ⟨e1, e2, e3, -⟩ := setOwner_eff _ _ h1
  obtain ⟨f1, f2, f3, -⟩ := setOwner_eff _ _ h2
  have hDo : ob s d = some D.obj := by simp [ob, hD]
  have hDl : le s d = D.lender := by simp [le, hD]
  have hEo : ob s e = some E.obj := by simp [ob, hE]
  have hEl : le s e = E.lender := by simp [le, hE]
  simp only [own_setDeed, ob_setDeed, le_setDeed, Option.bind_some, Option.map_some, e1, e2, e3]
    at f1 f2 f3
  obtain ⟨i1, i2, i3, i4⟩ := hi
  clear h1 h2 hD hE e1 e2 e3
  constructor
  · intro x y
    rw [f1, f3]
    have k1 := i1 x d
    have k2 := i1 x e
    have k3 := i1 x y
    grind
  · intro x l
    rw [f2, f3]
    grind
  · intro x y l
    rw [f2, f2]
    grind
  · intro l
    simp only [f2, f3]
    intro hl
    have h0 : ob s l = some .lent := by grind
    obtain ⟨x, hx⟩ := i4 l h0
    by_cases hxe : x = e
    · subst hxe; exact ⟨d, by grind⟩
    · by_cases hxd : x = d
      · subst hxd; exact ⟨e, by grind⟩
      · exact ⟨x, by grind⟩

/-- The common part of `Return` and the destructor. -/
theorem inv_release (s s1 s2 : DeedWorld) (d : Nat) (D : DeedSt) (hi : DeedInv s) (hD : s.deeds d = some D)
    (hnl : D.obj ≠ .lent) (h1 : s.setObj D.lender D.obj = some s1)
    (h2 : s1.setOwner D.obj D.lender = some s2) (v : Option DeedSt)
    (hv : v = none ∨ v = some ⟨.null, none⟩) : DeedInv (s2.setDeed d v) := by
  obtain ⟨e1, e2, e3, -, -⟩ := setObj_eff _ _ h1
  obtain ⟨f1, f2, f3, -⟩ := setOwner_eff _ _ h2
  have hDo : ob s d = some D.obj := by simp [ob, hD]
  have hDl : le s d = D.lender := by simp [le, hD]
  simp only [e1, e2, e3] at f1 f2 f3
  obtain ⟨i1, i2, i3, i4⟩ := hi
  have g1 : ∀ x, ob (s2.setDeed d v) x ≠ some .lent ∧ (∀ a, ob (s2.setDeed d v) x ≠ some (.target a)) ∨
      x ≠ d ∧ ob (s2.setDeed d v) x = if D.lender = some x then some D.obj else ob s x := by
    intro x
    rw [ob_setDeed, f3]
    rcases hv with rfl | rfl <;> by_cases hx : x = d <;> simp [hx]
  have g2 : ∀ x, le (s2.setDeed d v) x = if x = d then none else le s x := by
    intro x
    rw [le_setDeed, f2]
    rcases hv with rfl | rfl <;> by_cases hx : x = d <;> simp [hx]
  have g1d : ob (s2.setDeed d v) d ≠ some .lent ∧ (∀ a, ob (s2.setDeed d v) d ≠ some (.target a)) := by
    rcases g1 d with h | h
    · exact h
    · exact absurd rfl h.1
  have g1x : ∀ x, x ≠ d → ob (s2.setDeed d v) x = if D.lender = some x then some D.obj else ob s x := by
    intro x hx
    rw [ob_setDeed, f3, if_neg hx]
  have g3 : ∀ x, own (s2.setDeed d v) x = if D.obj = Obj.target x then D.lender else own s x := by
    intro x; rw [own_setDeed, f1]
  clear h1 h2 hD e1 e2 e3 f1 f2 f3 g1 hv
  generalize s2.setDeed d v = s' at *
  constructor
  · intro x y
    by_cases hy : y = d
    · subst hy
      simp only [g1d.2 x, iff_false]
      rw [g3]
      have k1 := i1 x y
      grind
    · rw [g3, g1x y hy]
      have k1 := i1 x d
      have k2 := i1 x y
      grind
  · intro x l
    rw [g2]
    grind
  · intro x y l
    rw [g2, g2]
    grind
  · intro l hl
    have hld : l ≠ d := by rintro rfl; exact g1d.1 hl
    rw [g1x l hld] at hl
    have h0 : ob s l = some .lent := by grind
    obtain ⟨x, hx⟩ := i4 l h0
    refine ⟨x, ?_⟩
    rw [g2]
    grind

theorem inv_destroyDeed (s s' : DeedWorld) (d : Nat) (hi : DeedInv s)
    (h : deedStep s (.destroyDeed d) = some s') : DeedInv s' := by
  simp only [deedStep] at h
  split at h <;> try simp only [reduceCtorEq] at h
  rename_i D hD
  split at h <;> try simp only [reduceCtorEq] at h
  rename_i hnl
  rw [Option.bind_eq_some_iff] at h
  obtain ⟨s1, h1, h2⟩ := h
  rw [Option.map_eq_some_iff] at h2
  obtain ⟨s2, h2, rfl⟩ := h2
  exact inv_release s s1 s2 d D hi hD hnl h1 h2 _ (Or.inl rfl)

theorem inv_ret (s s' : DeedWorld) (d : Nat) (hi : DeedInv s)
    (h : deedStep s (.ret d) = some s') : DeedInv s' := by
  simp only [deedStep] at h
  split at h <;> try simp only [reduceCtorEq] at h
  rename_i D hD
  split at h <;> try simp only [reduceCtorEq] at h
  rename_i hnl
  rw [Option.bind_eq_some_iff] at h
  obtain ⟨s1, h1, h2⟩ := h
  rw [Option.map_eq_some_iff] at h2
  obtain ⟨s2, h2, rfl⟩ := h2
  exact inv_release s s1 s2 d D hi hD hnl h1 h2 _ (Or.inr rfl)

theorem inv_lend (s s' : DeedWorld) (d e : Nat) (hi : DeedInv s)
    (h : deedStep s (.lend d e) = some s') : DeedInv s' := by
  simp only [deedStep] at h
  split at h <;> try simp only [reduceCtorEq] at h
  rename_i E hE
  rw [Option.bind_eq_some_iff] at h
  obtain ⟨s1, h1, h2⟩ := h
  simp only [lendGeneric, hE] at h1
  split at h1 <;> try simp only [reduceCtorEq] at h1
  rename_i E' hD hE'
  obtain rfl := Option.some.inj hE'
  split at h1 <;> try simp only [reduceCtorEq] at h1
  rename_i hnl
  simp only [Option.some.injEq] at h1
  subst h1
  obtain ⟨f1, f2, f3, -⟩ := setOwner_eff _ _ h2
  have hDo : ob s d = none := by simp [ob, hD]
  have hDl : le s d = none := by simp [le, hD]
  have hEo : ob s e = some E.obj := by simp [ob, hE]
  have hEl : le s e = E.lender := by simp [le, hE]
  have hde : d ≠ e := by rintro rfl; simp [hD] at hE
  simp only [own_setDeed, ob_setDeed, le_setDeed, Option.bind_some, Option.map_some] at f1 f2 f3
  obtain ⟨i1, i2, i3, i4⟩ := hi
  clear h2 hD hE hE'
  constructor
  · intro x y
    rw [f1, f3]
    have k1 := i1 x d
    have k2 := i1 x e
    have k3 := i1 x y
    grind
  · intro x l
    rw [f2, f3]
    grind
  · intro x y l
    rw [f2, f2]
    grind
  · intro l
    simp only [f2, f3]
    intro hl
    by_cases hle : l = e
    · subst hle; exact ⟨d, by simp⟩
    · have h0 : ob s l = some .lent := by grind
      obtain ⟨x, hx⟩ := i4 l h0
      exact ⟨x, by grind⟩

theorem deedInv_step (s s' : DeedWorld) (op : DeedOp) (hi : DeedInv s)
    (hop : ∀ d e, op ≠ .lendGeneric d e) (h : deedStep s op = some s') : DeedInv s' := by
  cases op with
  | newTarget a x => exact inv_newTarget s s' a x hi h
  | copyTarget a b => exact inv_copyTarget s s' a b hi h
  | moveTarget a b j => exact inv_moveTarget s s' a b j hi h
  | copyAssignTarget a b => exact inv_copyAssign s s' a b hi h
  | moveAssignTarget a b => exact inv_moveAssign s s' a b hi h
  | destroyTarget a => exact inv_destroyTarget s s' a hi h
  | newDeed d => exact inv_newDeed s s' d hi h
  | deedOf d a =>
    cases a with
    | none => simp [deedStep] at h
    | some a => exact inv_deedOf s s' d a hi h
  | moveDeed d e => exact inv_moveDeed s s' d e hi h
  | destroyDeed d => exact inv_destroyDeed s s' d hi h
  | swapDeeds d e => exact inv_swapDeeds s s' d e hi h
  | ret d => exact inv_ret s s' d hi h
  | lend d e => exact inv_lend s s' d e hi h
  | lendGeneric d e => exact absurd rfl (hop d e)

theorem setObj_defined (s : DeedWorld) (p : Option Nat) (o : Obj)
    (hp : ∀ d, p = some d → (s.deeds d).isSome) : (s.setObj p o).isSome := by
  unfold setObj
  cases p with
  | none => rfl
  | some d =>
    obtain ⟨D, hD⟩ := Option.isSome_iff_exists.1 (hp d rfl)
    simp [hD]

theorem setOwner_defined (s : DeedWorld) (o : Obj) (p : Option Nat)
    (hp : ∀ a, o = .target a → (s.targets a).isSome) : (s.setOwner o p).isSome := by
  unfold setOwner
  split
  · rename_i a
    obtain ⟨t, ht⟩ := Option.isSome_iff_exists.1 (hp a rfl)
    simp [ht]
  · rfl

end Walnut.Util
