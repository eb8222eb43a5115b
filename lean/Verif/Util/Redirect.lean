/-
Model of `RedirectableValue` (redirectable_value.h).

Objects live at addresses.  A loop takes a step budget and is `none` when the
budget runs out, when it follows a pointer to an address without an object, or when a
`Value` is accessed or destroyed that was never constructed (or was already destroyed).
-/

namespace Walnut.Util

/-- `RedirectableValue` (redirectable_value.h 11-93): `redirect_` and whether a
`Value` exists in `value_`. -/
structure RNode where
  redirect : Nat
  constructed : Bool
deriving DecidableEq, Repr

/-- The objects in memory (redirectable_value.h 91-92). -/
abbrev RHeap := Nat → Option RNode

/-- An assignment to the members of an object (redirectable_value.h 91-92). -/
def RHeap.set (s : RHeap) (a : Nat) (v : Option RNode) : RHeap := fun x => if x = a then v else s x

/-- The loop of `primary() const` (redirectable_value.h 63-69) with the local
variable `redirect`. -/
def primaryLoop (s : RHeap) : Nat → Nat → Option Nat
  | 0, _ => none
  | fuel + 1, r =>
    match s r with
    | none => none
    | some R => if r = R.redirect then some r else primaryLoop s fuel R.redirect

/-- `primary() const` (redirectable_value.h 63-69). -/
def primaryConst (s : RHeap) (fuel a : Nat) : Option Nat :=
  match s a with
  | none => none
  | some A => primaryLoop s fuel A.redirect

/-- `primary()` with path compression (redirectable_value.h 71-76). -/
def primary (s : RHeap) : Nat → Nat → Option (RHeap × Nat)
  | 0, _ => none
  | fuel + 1, a =>
    match s a with
    | none => none
    | some A =>
      match s A.redirect with
      | none => none
      | some R =>
        if A.redirect = R.redirect then some (s, A.redirect)
        else primary (s.set a (some { A with redirect := R.redirect })) fuel a

/-- `Redirect` (redirectable_value.h 80-88). -/
def redirect (s : RHeap) (fuel a to : Nat) : Option RHeap :=
  match primary s fuel to with
  | none => none
  | some (s, finalTo) =>
    match s a with
    | none => none
    | some A =>
      if finalTo = A.redirect then some s
      else
        -- destroys the own value
        if A.redirect = a ∧ A.constructed = false then none
        else
          let s := if A.redirect = a then s.set a (some { A with constructed := false }) else s
          match primary s fuel to with
          | none => none
          | some (s, r) =>
            match s a with
            | none => none
            | some A => some (s.set a (some { A with redirect := r }))

/-- `operator*`, `operator->` (redirectable_value.h 42-56): the object whose value
is accessed. -/
def deref (s : RHeap) (fuel a : Nat) : Option (RHeap × Nat) :=
  match primary s fuel a with
  | none => none
  | some (s, r) =>
    match s r with
    | none => none
    | some R => if R.constructed then some (s, r) else none

/-- What a program does with redirectable values (redirectable_value.h 14-88). -/
inductive ROp where
  /-- the constructors from arguments (redirectable_value.h 14-16, 24-27) -/
  | create (a : Nat)
  /-- the copy constructors (redirectable_value.h 18-22) -/
  | copy (a b : Nat)
  /-- the destructor (redirectable_value.h 29-33) -/
  | destroy (a : Nat)
  /-- `*a` -/
  | deref (a : Nat)
  /-- `a.Redirect(b)` -/
  | redirect (a b : Nat)
deriving DecidableEq, Repr

/-- One operation (redirectable_value.h 14-88). -/
def rstep (s : RHeap) (fuel : Nat) : ROp → Option RHeap
  | .create a => if (s a).isSome then none else some (s.set a (some ⟨a, true⟩))
  | .copy a b =>
    match s a, s b with
    | none, some B => some (s.set a (some ⟨B.redirect, false⟩))
    | _, _ => none
  | .destroy a =>
    match s a with
    | none => none
    | some A => if A.redirect = a ∧ A.constructed = false then none else some (s.set a none)
  | .deref a => (deref s fuel a).map Prod.fst
  | .redirect a b => redirect s fuel a b

end Walnut.Util
