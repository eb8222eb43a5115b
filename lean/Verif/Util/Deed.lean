/-
Model of `DeedTarget`, `GenericDeed` and `Deed` (deed.h).

Deeds and targets are objects at addresses; an address without an object is
`none`.  `data` stands for the members of the class derived from `DeedTarget`.
A step is `none` when it violates an assertion, dereferences a null or dangling
pointer, or constructs an object where one exists.
-/

namespace Walnut.Util

/-- The union of `object_` and `is_lender_` (deed.h 159-163): `lent` means that
`is_lender_` points to the deed itself. -/
inductive Obj where
  | null
  | target (a : Nat)
  | lent
deriving DecidableEq, Repr

/-- `GenericDeed` (deed.h 52-165). -/
structure DeedSt where
  obj : Obj
  lender : Option Nat
deriving DecidableEq, Repr

/-- `DeedTarget` (deed.h 21-50) with the members of the derived class. -/
structure Tgt where
  owner : Option Nat
  data : Nat
deriving DecidableEq, Repr

/-- Memory: the deeds and the targets (deed.h 21-165) by address. -/
structure DeedWorld where
  deeds : Nat → Option DeedSt
  targets : Nat → Option Tgt

namespace DeedWorld

/-- No objects.  The state before any constructor of deed.h 21-165 ran. -/
def empty : DeedWorld := ⟨fun _ => none, fun _ => none⟩

/-- An assignment to a deed, its construction or its destruction (deed.h 159-164). -/
def setDeed (s : DeedWorld) (d : Nat) (v : Option DeedSt) : DeedWorld :=
  { s with deeds := fun x => if x = d then v else s.deeds x }

/-- An assignment to a target, its construction or its destruction (deed.h 49). -/
def setTarget (s : DeedWorld) (a : Nat) (v : Option Tgt) : DeedWorld :=
  { s with targets := fun x => if x = a then v else s.targets x }

/-- `p->object_ = o` for a possibly null `p` that is only used when not null (deed.h 90-123). -/
def setObj (s : DeedWorld) (p : Option Nat) (o : Obj) : Option DeedWorld :=
  match p with
  | none => some s
  | some d =>
    match s.deeds d with
    | none => none
    | some D => some (s.setDeed d (some { D with obj := o }))

/-- `if (object_) object_->owner_ = p` (deed.h 90-123). -/
def setOwner (s : DeedWorld) (o : Obj) (p : Option Nat) : Option DeedWorld :=
  match o with
  | .target a =>
    match s.targets a with
    | none => none
    | some t => some (s.setTarget a (some { t with owner := p }))
  | _ => some s

end DeedWorld

open DeedWorld

/-- What a program does with deeds and targets.  The last address argument is
the source (deed.h 21-230). -/
inductive DeedOp where
  /-- `DeedTarget()` -/
  | newTarget (a data : Nat)
  /-- `DeedTarget(const DeedTarget&)` -/
  | copyTarget (a b : Nat)
  /-- `DeedTarget(DeedTarget&&)`; the moved-from members become `junk` -/
  | moveTarget (a b junk : Nat)
  /-- `operator=(const DeedTarget&)` -/
  | copyAssignTarget (a b : Nat)
  /-- `operator=(DeedTarget&&)`, the members are swapped -/
  | moveAssignTarget (a b : Nat)
  /-- `~DeedTarget()` -/
  | destroyTarget (a : Nat)
  /-- `GenericDeed()` -/
  | newDeed (d : Nat)
  /-- `GenericDeed(DeedTarget*)` -/
  | deedOf (d : Nat) (a : Option Nat)
  /-- `GenericDeed(GenericDeed&&)` -/
  | moveDeed (d e : Nat)
  /-- `~GenericDeed()` -/
  | destroyDeed (d : Nat)
  /-- `swap`, `operator=(GenericDeed&&)` -/
  | swapDeeds (d e : Nat)
  /-- `Return()` -/
  | ret (d : Nat)
  /-- `Deed<T>::Lend()` -/
  | lend (d e : Nat)
  /-- `GenericDeed::Lend()` -/
  | lendGeneric (d e : Nat)
deriving DecidableEq, Repr

/-- `GenericDeed(DeedTarget* object, GenericDeed* borrowed_from)` as called by
`Lend` (deed.h 137-140, 150-157).  The returned object is constructed in place
(copy elision), so no move constructor runs. -/
def lendGeneric (s : DeedWorld) (d e : Nat) : Option DeedWorld :=
  match s.deeds d, s.deeds e with
  | none, some E =>
    if E.obj = .lent then none
    else some ((s.setDeed e (some { E with obj := .lent })).setDeed d (some ⟨E.obj, some e⟩))
  | _, _ => none

/-- One operation (deed.h 21-230). -/
def deedStep (s : DeedWorld) : DeedOp → Option DeedWorld
  | .newTarget a x =>
    match s.targets a with
    | some _ => none
    | none => some (s.setTarget a (some ⟨none, x⟩))
  | .copyTarget a b =>                                   -- deed.h 28
    match s.targets a, s.targets b with
    | none, some B => some (s.setTarget a (some ⟨none, B.data⟩))
    | _, _ => none
  | .moveTarget a b junk =>                              -- deed.h 207-213
    match s.targets a, s.targets b with
    | none, some B =>
      ((s.setTarget a (some ⟨B.owner, B.data⟩)).setTarget b (some ⟨none, junk⟩)).setObj B.owner
        (.target a)
    | _, _ => none
  | .copyAssignTarget a b =>                             -- deed.h 36-38
    match s.targets a, s.targets b with
    | some A, some B => some (s.setTarget a (some { A with data := B.data }))
    | _, _ => none
  | .moveAssignTarget a b =>                             -- deed.h 221-230
    match s.targets a, s.targets b with
    | some A, some B =>
      (s.setObj A.owner (.target b)).bind fun s =>
        ((s.setTarget b (some A)).setTarget a (some B)).setObj B.owner (.target a)
    | _, _ => none
  | .destroyTarget a =>                                  -- deed.h 215-219
    match s.targets a with
    | none => none
    | some A => (s.setObj A.owner .null).map fun s => s.setTarget a none
  | .newDeed d =>                                        -- deed.h 55
    match s.deeds d with
    | some _ => none
    | none => some (s.setDeed d (some ⟨.null, none⟩))
  | .deedOf _ none => none                               -- deed.h 62 dereferences `object`
  | .deedOf d (some a) =>                                -- deed.h 57-63
    match s.deeds d, s.targets a with
    | none, some A =>
      (s.setObj A.owner .lent).map fun s =>
        (s.setDeed d (some ⟨.target a, A.owner⟩)).setTarget a (some { A with owner := some d })
    | _, _ => none
  | .moveDeed d e =>                                     -- deed.h 67-76
    match s.deeds d, s.deeds e with
    | none, some E =>
      if E.obj = .lent then none
      else ((s.setDeed d (some E)).setDeed e (some ⟨.null, none⟩)).setOwner E.obj (some d)
    | _, _ => none
  | .destroyDeed d =>                                    -- deed.h 78-88
    match s.deeds d with
    | none => none
    | some D =>
      if D.obj = .lent then none
      else
        (s.setObj D.lender D.obj).bind fun s =>
          (s.setOwner D.obj D.lender).map fun s => s.setDeed d none
  | .swapDeeds d e =>                                    -- deed.h 90-106
    match s.deeds d, s.deeds e with
    | some D, some E =>
      if E.obj = .lent ∨ D.obj = .lent then none
      else
        (s.setOwner D.obj (some e)).bind fun s =>
          ((s.setDeed e (some D)).setDeed d (some E)).setOwner E.obj (some d)
    | _, _ => none
  | .ret d =>                                            -- deed.h 112-123
    match s.deeds d with
    | none => none
    | some D =>
      if D.obj = .lent then none
      else
        (s.setObj D.lender D.obj).bind fun s =>
          (s.setOwner D.obj D.lender).map fun s => s.setDeed d (some ⟨.null, none⟩)
  | .lend d e =>                                         -- deed.h 198-203
    -- the temporary of `GenericDeed::Lend` is moved into the result (67-76)
    match s.deeds e with
    | none => none
    | some E => (lendGeneric s d e).bind fun s => s.setOwner E.obj (some d)
  | .lendGeneric d e => lendGeneric s d e                -- deed.h 137-140

/-- A sequence of operations from a state.  Successive calls of the members of deed.h 21-230. -/
def deedRun : DeedWorld → List DeedOp → Option DeedWorld
  | s, [] => some s
  | s, op :: ops => (deedStep s op).bind fun s => deedRun s ops

end Walnut.Util
