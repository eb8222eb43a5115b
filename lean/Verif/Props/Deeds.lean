/- C45: deeds follow their targets. -/
import Verif.Util.DeedInv

namespace Walnut.Props
open Walnut.Util

/-- States a program can reach with `DeedTarget` and `Deed<T>` objects (the
untyped `GenericDeed::Lend` is treated separately). -/
def ReachableDeeds (s : DeedWorld) : Prop :=
  ∃ ops : List DeedOp, (∀ d e, DeedOp.lendGeneric d e ∉ ops) ∧ deedRun .empty ops = some s

/-- Deed `d` is active (not lent) and points to address `a`: `d.get() == a`. -/
def PointsTo (s : DeedWorld) (d a : Nat) : Prop := ∃ D, s.deeds d = some D ∧ D.obj = .target a

open DeedWorld DeedEffects

theorem deedInv_run (ops : List DeedOp) (hops : ∀ d e, DeedOp.lendGeneric d e ∉ ops) :
    ∀ s s', DeedInv s → deedRun s ops = some s' → DeedInv s' := by
  induction ops with
  | nil => intro s s' hi h; simp only [deedRun, Option.some.injEq] at h; exact h ▸ hi
  | cons op ops ih =>
    intro s s' hi h
    simp only [deedRun, Option.bind_eq_some_iff] at h
    obtain ⟨s1, h1, h2⟩ := h
    refine ih (fun d e hm => hops d e (List.mem_cons_of_mem _ hm)) s1 s' ?_ h2
    refine deedInv_step s s1 op hi (fun d e he => hops d e ?_) h1
    rw [he]; exact List.mem_cons_self ..

theorem deedInv_reachable (s : DeedWorld) (h : ReachableDeeds s) : DeedInv s := by
  obtain ⟨ops, h1, h2⟩ := h
  refine deedInv_run ops h1 .empty s ?_ h2
  constructor <;> intros <;> simp_all [own, ob, le, DeedWorld.empty]

/-- Address `a` holds a target whose members are `x`. -/
def HasData (s : DeedWorld) (a x : Nat) : Prop := ∃ t, s.targets a = some t ∧ t.data = x

/-- C45: in every reachable state the pointer of an active deed is the address of
a live target, and no other deed points to that target. -/
theorem C45_active_deed (s : DeedWorld) (h : ReachableDeeds s) (d a : Nat) (hp : PointsTo s d a) :
    (s.targets a).isSome ∧ ∀ e, PointsTo s e a → e = d := by
  obtain ⟨i1, -, -, -⟩ := deedInv_reachable s h
  have key : ∀ e, PointsTo s e a → own s a = some e := by
    rintro e ⟨E, hE, hEo⟩
    rw [i1]; simp [ob, hE, hEo]
  have h1 := key d hp
  refine ⟨?_, fun e he => ?_⟩
  · cases ht : s.targets a with
    | none => simp [own, ht] at h1
    | some t => rfl
  · have h2 := key e he
    rw [h1] at h2
    exact (Option.some.inj h2).symm

/-- C45: when targets are moved, every active deed follows the members of its
target to their new address. -/
theorem C45_follows (s s' : DeedWorld) (h : ReachableDeeds s) (op : DeedOp)
    (hop : (∃ b c j, op = .moveTarget b c j) ∨ ∃ b c, op = .moveAssignTarget b c)
    (hs : deedStep s op = some s') (d a x : Nat) (hp : PointsTo s d a) (hx : HasData s a x) :
    ∃ a', PointsTo s' d a' ∧ HasData s' a' x := by
  obtain ⟨i1, -, -, -⟩ := deedInv_reachable s h
  obtain ⟨D, hD, hDo⟩ := hp
  have hd : ob s d = some (.target a) := by simp [ob, hD, hDo]
  have ho : own s a = some d := (i1 a d).2 hd
  have pts : ∀ a', ob s' d = some (.target a') → PointsTo s' d a' := by
    intro a' h'
    simp only [ob, Option.map_eq_some_iff] at h'
    exact h'
  obtain ⟨t, ht, htx⟩ := hx
  have hto : t.owner = some d := by simpa [own, ht] using ho
  rcases hop with ⟨b, c, j, rfl⟩ | ⟨b, c, rfl⟩
  · simp only [deedStep] at hs
    split at hs <;> try simp only [reduceCtorEq] at hs
    rename_i C hB hC
    obtain ⟨f1, f2, f3, f4, -⟩ := setObj_eff _ _ hs
    have hbc : b ≠ c := by rintro rfl; simp [hB] at hC
    by_cases hac : a = c
    · subst hac
      obtain rfl : C = t := by rw [ht] at hC; exact (Option.some.inj hC).symm
      refine ⟨b, pts b ?_, ?_⟩
      · rw [f1, if_pos hto]
      · refine ⟨⟨C.owner, C.data⟩, ?_, htx⟩
        rw [f4]
        simp [setTarget, hbc]
    · have hab : a ≠ b := by rintro rfl; simp [ht] at hB
      refine ⟨a, pts a ?_, t, ?_, htx⟩
      · rw [f1, ob_setTarget, ob_setTarget, hd]
        have : C.owner ≠ some d := by
          intro hcd
          have := (i1 c d).1 (by simp [own, hC, hcd])
          rw [hd] at this
          exact hac (by simpa using this)
        rw [if_neg this]
      · rw [f4]
        simp [setTarget, hac, hab, ht]
  · simp only [deedStep] at hs
    split at hs <;> try simp only [reduceCtorEq] at hs
    rename_i B C hB hC
    rw [Option.bind_eq_some_iff] at hs
    obtain ⟨s1, h1, h2⟩ := hs
    obtain ⟨e1, e2, e3, e4, -⟩ := setObj_eff _ _ h1
    obtain ⟨f1, f2, f3, f4, -⟩ := setObj_eff _ _ h2
    by_cases hac : a = c
    · subst hac
      obtain rfl : C = t := by rw [ht] at hC; exact (Option.some.inj hC).symm
      refine ⟨b, pts b ?_, C, ?_, htx⟩
      · rw [f1, if_pos hto]
      · rw [f4]; simp [setTarget]
    · have hCo : C.owner ≠ some d := by
        intro hcd
        have := (i1 c d).1 (by simp [own, hC, hcd])
        rw [hd] at this
        exact hac (by simpa using this)
      by_cases hab : a = b
      · subst hab
        obtain rfl : B = t := by rw [ht] at hB; exact (Option.some.inj hB).symm
        refine ⟨c, pts c ?_, B, ?_, htx⟩
        · rw [f1, if_neg hCo, ob_setTarget, ob_setTarget, e1, if_pos hto]
        · rw [f4]; simp [setTarget, Ne.symm hac]
      · have hBo : B.owner ≠ some d := by
          intro hbd
          have := (i1 b d).1 (by simp [own, hB, hbd])
          rw [hd] at this
          exact hab (by simpa using this)
        refine ⟨a, pts a ?_, t, ?_, htx⟩
        · rw [f1, if_neg hCo, ob_setTarget, ob_setTarget, e1, if_neg hBo, hd]
        · rw [f4]; simp [setTarget, hac, hab, e4, ht]

/-- C45: destroying a target clears the deed that pointed to it. -/
theorem C45_destroyed_target (s s' : DeedWorld) (h : ReachableDeeds s) (a d : Nat)
    (hp : PointsTo s d a) (hs : deedStep s (.destroyTarget a) = some s') :
    ∃ D, s'.deeds d = some D ∧ D.obj = .null := by
  obtain ⟨i1, -, -, -⟩ := deedInv_reachable s h
  obtain ⟨D, hD, hDo⟩ := hp
  have ho : own s a = some d := (i1 a d).2 (by simp [ob, hD, hDo])
  simp only [deedStep] at hs
  split at hs <;> try simp only [reduceCtorEq] at hs
  rename_i A hA
  have hAo : A.owner = some d := by simpa [own, hA] using ho
  rw [Option.map_eq_some_iff] at hs
  obtain ⟨s1, h1, rfl⟩ := hs
  obtain ⟨f1, -⟩ := setObj_eff _ _ h1
  have := f1 d
  rw [if_pos hAo] at this
  simp only [ob, Option.map_eq_some_iff] at this
  exact this

/-- C45: while a deed is lent it is not active, and returning or destroying the
borrower gives it exactly the pointer the borrower had. -/
theorem C45_lending (s s' : DeedWorld) (h : ReachableDeeds s) (d l : Nat) (D : DeedSt)
    (hD : s.deeds d = some D) (hl : D.lender = some l)
    (hs : deedStep s (.destroyDeed d) = some s' ∨ deedStep s (.ret d) = some s') :
    (∃ L, s.deeds l = some L ∧ L.obj = .lent) ∧ (∃ L, s'.deeds l = some L ∧ L.obj = D.obj) := by
  obtain ⟨-, i2, -, -⟩ := deedInv_reachable s h
  have hlent : ob s l = some .lent := i2 d l (by simp [le, hD, hl])
  have main : ∀ s1 s2 v, D.obj ≠ .lent → s.setObj D.lender D.obj = some s1 →
      s1.setOwner D.obj D.lender = some s2 → ob (s2.setDeed d v) l = some D.obj := by
    intro s1 s2 v hnl h1 h2
    obtain ⟨f1, -⟩ := setObj_eff _ _ h1
    obtain ⟨-, -, g3, -⟩ := setOwner_eff _ _ h2
    have hld : l ≠ d := by
      rintro rfl
      simp [ob, hD] at hlent
      exact hnl hlent
    rw [ob_setDeed, if_neg hld, g3, f1, if_pos hl]
  have fin : ob s' l = some D.obj := by
    rcases hs with hs | hs
    all_goals
      simp only [deedStep, hD] at hs
      split at hs <;> try simp only [reduceCtorEq] at hs
      rename_i hnl
      rw [Option.bind_eq_some_iff] at hs
      obtain ⟨s1, h1, h2⟩ := hs
      rw [Option.map_eq_some_iff] at h2
      obtain ⟨s2, h2, rfl⟩ := h2
      exact main s1 s2 _ hnl h1 h2
  refine ⟨?_, ?_⟩
  · simpa [ob] using hlent
  · simpa [ob] using fin

/-- What the documentation asks of the caller: objects are constructed where
there is none, used while alive, the pointer of a new deed is not null, and a deed
that is lent is not used until it is returned. -/
def MayDo (s : DeedWorld) : DeedOp → Prop
  | .newTarget a _ => s.targets a = none
  | .copyTarget a b | .moveTarget a b _ => s.targets a = none ∧ (s.targets b).isSome
  | .copyAssignTarget a b | .moveAssignTarget a b => (s.targets a).isSome ∧ (s.targets b).isSome
  | .destroyTarget a => (s.targets a).isSome
  | .newDeed d => s.deeds d = none
  | .deedOf d a => s.deeds d = none ∧ ∃ b, a = some b ∧ (s.targets b).isSome
  | .moveDeed d e | .lend d e | .lendGeneric d e =>
    s.deeds d = none ∧ ∃ E, s.deeds e = some E ∧ E.obj ≠ .lent
  | .destroyDeed d | .ret d => ∃ D, s.deeds d = some D ∧ D.obj ≠ .lent
  | .swapDeeds d e =>
    (∃ D, s.deeds d = some D ∧ D.obj ≠ .lent) ∧ ∃ E, s.deeds e = some E ∧ E.obj ≠ .lent

/-- C45: no operation allowed by the documentation dereferences a null or
dangling pointer. -/
theorem C45_memory_safe (s : DeedWorld) (h : ReachableDeeds s) (op : DeedOp) (hop : MayDo s op) :
    (deedStep s op).isSome := by
  have hi := deedInv_reachable s h
  obtain ⟨i1, i2, -, -⟩ := id hi
  have A1 : ∀ a t d, s.targets a = some t → t.owner = some d → (s.deeds d).isSome := by
    intro a t d ht hd
    have := (i1 a d).1 (by simp [own, ht, hd])
    simp only [ob, Option.map_eq_some_iff] at this
    obtain ⟨D, hD, -⟩ := this
    simp [hD]
  have A2 : ∀ d D a, s.deeds d = some D → D.obj = .target a → (s.targets a).isSome := by
    intro d D a hD ha
    have := (i1 a d).2 (by simp [ob, hD, ha])
    cases ht : s.targets a with
    | none => simp [own, ht] at this
    | some t => rfl
  have A3 : ∀ d D l, s.deeds d = some D → D.lender = some l → (s.deeds l).isSome := by
    intro d D l hD hl
    have := i2 d l (by simp [le, hD, hl])
    simp only [ob, Option.map_eq_some_iff] at this
    obtain ⟨D, hD, -⟩ := this
    simp [hD]
  have rel : ∀ d D, s.deeds d = some D → ∀ f : DeedWorld → DeedWorld,
      ((s.setObj D.lender D.obj).bind fun s => (s.setOwner D.obj D.lender).map f).isSome := by
    intro d D hD f
    obtain ⟨s1, h1⟩ := Option.isSome_iff_exists.1
      (setObj_defined s D.lender D.obj (fun l hl => A3 d D l hD hl))
    obtain ⟨-, -, -, f4, -⟩ := setObj_eff _ _ h1
    obtain ⟨s2, h2⟩ := Option.isSome_iff_exists.1
      (setOwner_defined s1 D.obj D.lender (fun a ha => by rw [f4]; exact A2 d D a hD ha))
    simp [h1, h2]
  cases op with
  | newTarget a x => simp only [MayDo] at hop; simp [deedStep, hop]
  | copyTarget a b =>
    obtain ⟨h1, h2⟩ := hop
    obtain ⟨B, hB⟩ := Option.isSome_iff_exists.1 h2
    simp [deedStep, h1, hB]
  | moveTarget a b j =>
    obtain ⟨h1, h2⟩ := hop
    obtain ⟨B, hB⟩ := Option.isSome_iff_exists.1 h2
    simp only [deedStep, h1, hB]
    unfold setObj
    cases hBo : B.owner with
    | none => rfl
    | some d =>
      obtain ⟨D, hD⟩ := Option.isSome_iff_exists.1 (A1 b B d hB hBo)
      simp [setTarget, hD]
  | copyAssignTarget a b =>
    obtain ⟨h1, h2⟩ := hop
    obtain ⟨A, hA⟩ := Option.isSome_iff_exists.1 h1
    obtain ⟨B, hB⟩ := Option.isSome_iff_exists.1 h2
    simp [deedStep, hA, hB]
  | moveAssignTarget a b =>
    obtain ⟨h1, h2⟩ := hop
    obtain ⟨A, hA⟩ := Option.isSome_iff_exists.1 h1
    obtain ⟨B, hB⟩ := Option.isSome_iff_exists.1 h2
    simp only [deedStep, hA, hB]
    obtain ⟨s1, h1⟩ := Option.isSome_iff_exists.1
      (setObj_defined s A.owner (.target b) (fun l hl => A1 a A l hA hl))
    obtain ⟨-, -, -, -, f5⟩ := setObj_eff _ _ h1
    simp only [h1, Option.bind_some]
    unfold setObj
    cases hBo : B.owner with
    | none => rfl
    | some d =>
      have := A1 b B d hB hBo
      rw [← f5] at this
      obtain ⟨D, hD⟩ := Option.isSome_iff_exists.1 this
      simp [setTarget, hD]
  | destroyTarget a =>
    obtain ⟨A, hA⟩ := Option.isSome_iff_exists.1 hop
    obtain ⟨s1, h1⟩ := Option.isSome_iff_exists.1
      (setObj_defined s A.owner .null (fun l hl => A1 a A l hA hl))
    simp [deedStep, hA, h1]
  | newDeed d => simp only [MayDo] at hop; simp [deedStep, hop]
  | deedOf d a =>
    obtain ⟨h1, b, rfl, h2⟩ := hop
    obtain ⟨B, hB⟩ := Option.isSome_iff_exists.1 h2
    obtain ⟨s1, h3⟩ := Option.isSome_iff_exists.1
      (setObj_defined s B.owner .lent (fun l hl => A1 b B l hB hl))
    simp [deedStep, h1, hB, h3]
  | moveDeed d e =>
    obtain ⟨h1, E, hE, hn⟩ := hop
    simp only [deedStep, h1, hE, if_neg hn]
    exact setOwner_defined _ _ _ (fun a ha => A2 e E a hE ha)
  | destroyDeed d =>
    obtain ⟨D, hD, hn⟩ := hop
    simp only [deedStep, hD, if_neg hn]
    exact rel d D hD _
  | ret d =>
    obtain ⟨D, hD, hn⟩ := hop
    simp only [deedStep, hD, if_neg hn]
    exact rel d D hD _
  | swapDeeds d e =>
    obtain ⟨⟨D, hD, hn⟩, E, hE, hm⟩ := hop
    simp only [deedStep, hD, hE, hn, hm, or_self, if_false]
    obtain ⟨s1, h1⟩ := Option.isSome_iff_exists.1
      (setOwner_defined s D.obj (some e) (fun a ha => A2 d D a hD ha))
    simp only [h1, Option.bind_some]
    refine setOwner_defined _ _ _ (fun a ha => ?_)
    have h2 := A2 e E a hE ha
    unfold setOwner at h1
    split at h1
    · split at h1 <;> simp only [Option.some.injEq, reduceCtorEq] at h1
      subst h1
      simp only [setDeed, setTarget]
      split
      · rfl
      · exact h2
    · simp only [Option.some.injEq] at h1
      subst h1
      exact h2
  | lend d e =>
    obtain ⟨h1, E, hE, hn⟩ := hop
    simp only [deedStep, lendGeneric, h1, hE, if_neg hn, Option.bind_some]
    exact setOwner_defined _ _ _ (fun a ha => A2 e E a hE ha)
  | lendGeneric d e =>
    obtain ⟨h1, E, hE, hn⟩ := hop
    simp [deedStep, lendGeneric, h1, hE, hn]

/-- A history with a lent deed whose target is moved: deed 2 borrows from deed 1,
and the target moves from address 10 to 11. -/
def deedDemo : List DeedOp :=
  [.newTarget 10 7, .deedOf 1 (some 10), .lend 2 1, .moveTarget 11 10 0]

example : ∃ s, deedRun .empty deedDemo = some s ∧ ReachableDeeds s ∧ PointsTo s 2 11 ∧
    HasData s 11 7 ∧ ob s 1 = some .lent := by
  refine ⟨_, rfl, ⟨deedDemo, by simp [deedDemo], rfl⟩, ⟨⟨.target 11, some 1⟩, ?_, ?_⟩,
    ⟨⟨some 2, 7⟩, ?_, ?_⟩, ?_⟩ <;> decide

/-- C45 fails for `GenericDeed::Lend`, which does not tell the target about the
borrower: after the target moves, the borrower still has the old address and the
lender believes it is active again. -/
theorem C45_generic_lend_false :
    (deedRun .empty [.newTarget 10 7, .deedOf 1 (some 10), .lendGeneric 2 1, .moveTarget 11 10 0]).map
      (fun s => (ob s 1, ob s 2, (s.targets 10).map Tgt.data, (s.targets 11).map Tgt.data)) =
    some (some (.target 11), some (.target 10), some 0, some 7) := by decide

end Walnut.Props
