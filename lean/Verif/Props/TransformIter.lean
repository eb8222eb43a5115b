/-
Property C87: iterating over a transformed range.
-/
import Verif.Util.TransformIter
import Mathlib.Tactic.Common
import Mathlib.Tactic.Linarith
import Mathlib.Algebra.BigOperators.Group.List.Basic

namespace Walnut.Props
open Walnut.Util

variable {F A B : Type}

/-- How far an operator moves. -/
def iterMove : IterOp → Int
  | .preInc => 1
  | .preDec => -1
  | .addAssign n => n
  | .subAssign n => -n
  | .afterPostInc => 1
  | .afterPostDec => -1
  | .postInc => 0
  | .postDec => 0
  | .add n => n
  | .sub n => -n

/-- The operators which change an iterator in place. -/
def InPlace : IterOp → Prop
  | .preInc | .preDec | .addAssign _ | .subAssign _ | .afterPostInc | .afterPostDec => True
  | .postInc | .postDec | .add _ | .sub _ => False

/-- The value at a position of the transformed range. -/
def valueAt (f : A → Option B) (arr : List A) (pos : Int) : Option B :=
  if 0 ≤ pos then (arr[pos.toNat]?).bind f else none

theorem deref_eq (K : TransformKind F A B) (arr : List A) (it : TransformIter F) :
    it.deref K arr = valueAt (K.app it.transform) arr it.pos := by
  unfold TransformIter.deref TransformIter.element valueAt
  split_ifs <;> rfl

theorem run_pos (K : TransformKind F A B) (o : IterOp) (it : TransformIter F) : (o.run K it).pos = it.pos + iterMove o := by
  cases o <;> simp [IterOp.run, iterMove, TransformIter.preInc, TransformIter.preDec, TransformIter.addAssign, TransformIter.subAssign,
    TransformIter.postInc, TransformIter.postDec, TransformIter.add, TransformIter.sub, TransformIter.ofInput] <;> omega

theorem run_all_pos (K : TransformKind F A B) (ops : List IterOp) (it : TransformIter F) :
    (runIterOps K ops it).pos = it.pos + (ops.map iterMove).sum := by
  unfold runIterOps
  induction ops generalizing it with
  | nil => simp
  | cons o ops ih => rw [List.foldl_cons, ih, run_pos, List.map_cons, List.sum_cons]; omega

/-- C87: after any sequence of in-place steps and with any transformer, the iterator
gives the transformer's value at the place it was moved to. -/
theorem C87_in_place (K : TransformKind F A B) (arr : List A) (it : TransformIter F) (ops : List IterOp) (h : ∀ o ∈ ops, InPlace o) :
    (runIterOps K ops it).deref K arr = valueAt (K.app it.transform) arr (it.pos + (ops.map iterMove).sum) := by
  have ht : ∀ (ops : List IterOp) (it : TransformIter F), (∀ o ∈ ops, InPlace o) →
      (runIterOps K ops it).transform = it.transform := by
    intro ops
    unfold runIterOps
    induction ops with
    | nil => intro it _; rfl
    | cons o ops ih =>
      intro it h
      rw [List.foldl_cons, ih _ fun x hx => h x (List.mem_cons_of_mem _ hx)]
      have := h o (List.mem_cons_self ..)
      cases o <;> first | rfl | exact this.elim
  rw [deref_eq, run_all_pos, ht ops it h]

/-- C87 for all operators: it holds for every transformer that is what the default
constructor makes, in particular for every type of transformer with only one value.
Missing: other transformers (`C87_lost_false`). -/
theorem C87_partial (K : TransformKind F A B) (arr : List A) (it : TransformIter F) (hd : K.app it.transform = K.app K.dflt) (ops : List IterOp) :
    (runIterOps K ops it).deref K arr = valueAt (K.app it.transform) arr (it.pos + (ops.map iterMove).sum) := by
  have ht : ∀ (ops : List IterOp) (it : TransformIter F), K.app it.transform = K.app K.dflt →
      K.app (runIterOps K ops it).transform = K.app K.dflt := by
    intro ops
    unfold runIterOps
    induction ops with
    | nil => intro it h; exact h
    | cons o ops ih =>
      intro it h
      rw [List.foldl_cons]
      apply ih
      cases o <;> first | exact h | rfl
  rw [deref_eq, run_all_pos, ht ops it hd, hd]

theorem C87_stateless [Subsingleton F] (K : TransformKind F A B) (arr : List A) (it : TransformIter F) (ops : List IterOp) :
    (runIterOps K ops it).deref K arr = valueAt (K.app it.transform) arr (it.pos + (ops.map iterMove).sum) :=
  C87_partial K arr it (by rw [Subsingleton.elim it.transform K.dflt]) ops

/-- C87: indexing, and comparing two iterators obtained from the same one. -/
theorem C87_index (K : TransformKind F A B) (arr : List A) (it : TransformIter F) (n : Int) (ops ops' : List IterOp) :
    it.index K arr n = valueAt (K.app it.transform) arr (it.pos + n) ∧
    (runIterOps K ops it).dist (runIterOps K ops' it) = (ops.map iterMove).sum - (ops'.map iterMove).sum ∧
    ((runIterOps K ops it).eq (runIterOps K ops' it) = true ↔ (ops.map iterMove).sum = (ops'.map iterMove).sum) ∧
    ((runIterOps K ops it).lt (runIterOps K ops' it) = true ↔ (ops.map iterMove).sum < (ops'.map iterMove).sum) := by
  refine ⟨?_, ?_, ?_, ?_⟩
  · unfold TransformIter.index TransformIter.element valueAt
    split_ifs <;> rfl
  · unfold TransformIter.dist
    rw [run_all_pos, run_all_pos]; omega
  · unfold TransformIter.eq
    rw [run_all_pos, run_all_pos, decide_eq_true_iff]; omega
  · unfold TransformIter.lt
    rw [run_all_pos, run_all_pos, decide_eq_true_iff]; omega

/-- C87: the other comparisons agree with the distance, and a converted iterator gives the same values. -/
theorem C87_compare (K : TransformKind F A B) (arr : List A) (it jt : TransformIter F) (n : Int) :
    (it.ne jt = true ↔ it.dist jt ≠ 0) ∧ (it.le jt = true ↔ it.dist jt ≤ 0) ∧ (it.ge jt = true ↔ 0 ≤ it.dist jt) ∧ (it.gt jt = true ↔ 0 < it.dist jt) ∧
    it.convert.index K arr n = it.index K arr n ∧ it.convert.dist jt = it.dist jt := by
  unfold TransformIter.ne TransformIter.le TransformIter.ge TransformIter.gt TransformIter.dist
  simp only [decide_eq_true_iff]
  refine ⟨by omega, by omega, by omega, by omega, rfl, rfl⟩

/-- Each comparison is true of a pair of iterators and false of another. -/
example : ((⟨0, ()⟩ : TransformIter Unit).ne ⟨1, ()⟩, (⟨1, ()⟩ : TransformIter Unit).ne ⟨1, ()⟩, (⟨1, ()⟩ : TransformIter Unit).le ⟨1, ()⟩,
    (⟨2, ()⟩ : TransformIter Unit).le ⟨1, ()⟩, (⟨1, ()⟩ : TransformIter Unit).ge ⟨1, ()⟩, (⟨0, ()⟩ : TransformIter Unit).ge ⟨1, ()⟩,
    (⟨2, ()⟩ : TransformIter Unit).gt ⟨1, ()⟩, (⟨1, ()⟩ : TransformIter Unit).gt ⟨1, ()⟩) = (true, false, true, false, true, false, true, false) := rfl

/-- The transformer of the VTK import (vtk_to_walnut_mesh.h 45-54): a pointer to the
converted points, which the default constructor makes null. -/
def lookupKind : TransformKind (Option (List Nat)) Nat Nat := ⟨none, fun f i => f.bind fun l => l[i]?⟩

/-- C87 (disagreement): `it + n`, `it - n`, `it++` and `it--` return an iterator with a
default constructed transformer.  With the one of the VTK import, `it[1]` is a point, but
`*(it + 1)`, `*(it - 0)`, `*it++` and `*it--` read through a null pointer. -/
theorem C87_lost_false : ∃ (arr : List Nat) (it : TransformIter (Option (List Nat))),
    it.deref lookupKind arr = some 40 ∧ it.index lookupKind arr 1 = some 30 ∧ (it.addAssign 1).deref lookupKind arr = some 30 ∧
    (it.add lookupKind 1).deref lookupKind arr = none ∧ (it.sub lookupKind 0).deref lookupKind arr = none ∧
    (it.postInc lookupKind).1.deref lookupKind arr = none ∧ (it.postDec lookupKind).1.deref lookupKind arr = none :=
  ⟨[2, 1, 0], ⟨0, some [20, 30, 40]⟩, by decide, by decide, by decide, by decide, by decide, by decide, by decide⟩

/-! ### The hypotheses are met -/

/-- In-place steps through the points of a cell, with the transformer of the import. -/
example : (runIterOps lookupKind [.preInc, .preInc, .preDec] ⟨0, some [20, 30, 40]⟩).deref lookupKind [2, 1, 0] = some 30 := by
  rw [C87_in_place lookupKind [2, 1, 0] ⟨0, some [20, 30, 40]⟩ _ (by simp [InPlace])]
  decide

/-- A transformer without state. -/
def hundredKind : TransformKind Unit Nat Nat := ⟨(), fun _ x => some (x + 100)⟩

/-- Operators that return new iterators. -/
example : (runIterOps hundredKind [.add 2, .postInc, .sub 1] ⟨0, ()⟩).deref hundredKind [2, 1, 0] = some 101 := by
  rw [C87_stateless]
  decide

end Walnut.Props
