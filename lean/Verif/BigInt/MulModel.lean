/- Model of `BigInt` multiplication: big_int.h 442–498, big_int.cpp 88–119. -/
import Verif.BigInt.Model

namespace Walnut.BigInt

/-- First row of `MultiplySlow`: big_int.cpp 95–101. -/
def mulRow0 (o : Word) : List Word → Word → List Word
  | [], add => [add]
  | a :: as, add => (Word.mulAdd o a add false).1 :: mulRow0 o as (Word.mulAdd o a add false).2

/-- A later row of `MultiplySlow`, on the words of the result from index `j` on
(`acc`); `none` when the result has fewer words than the multiplicand:
big_int.cpp 102–111. -/
def mulRowJ (o : Word) : List Word → List Word → Word → Bool → Option (List Word)
  | [], _, add, c => some [(Word.addB add c).1]
  | _ :: _, [], _, _ => none
  | a :: as, r :: acc, add, c =>
    let s := Word.addC add r c
    let m := Word.mulAdd o a s.1 false
    (mulRowJ o as acc m.2 s.2).map (m.1 :: ·)

/-- The rows `j = 1, 2, …`: row `j` leaves word `j` final, so the later rows
only touch the tail. -/
def mulRows (as : List Word) : List Word → List Word → Option (List Word)
  | [], acc => some acc
  | o :: os, acc =>
    match mulRowJ o as acc 0#64 false with
    | some (r :: rs) => (mulRows as os rs).map (r :: ·)
    | _ => none

/-- `SubtractLeftShiftedMasked` on the words from `shift_left_words` on; `none`
when the assertion `j < used_words()` fails: big_int.h 867–876. -/
def subMasked (mask : Word) : List Word → List Word → Bool → Option (List Word)
  | ws, [], _ => some ws
  | [], _ :: _, _ => none
  | w :: ws, o :: os, c =>
    let r := Word.subC w (o &&& mask) c
    (subMasked mask ws os r.2).map (r.1 :: ·)

/-- `SubtractLeftShiftedMasked(other, shift_left_words, mask)`: big_int.h 867–876. -/
def subtractLeftShiftedMasked (ws other : List Word) (shift : Nat) (mask : Word) :
    Option (List Word) :=
  (subMasked mask (ws.drop shift) other false).map (ws.take shift ++ ·)

/-- `MultiplySlow` after the operands have been ordered so that `a` is not
shorter than `b`: big_int.cpp 92–118. -/
def mulSlowOrdered (a b : List Word) : Option (List Word) :=
  match b with
  | [] => none
  | b0 :: bs =>
    match mulRow0 b0 a 0#64 with
    | [] => none
    | r :: rs => do
      let tail ← mulRows a bs rs
      let s1 ← subtractLeftShiftedMasked (r :: tail) a b.length (signExtension b)
      let s2 ← subtractLeftShiftedMasked s1 b a.length (signExtension a)
      some (trim s2)

/-- `MultiplySlow`: big_int.cpp 88–119. -/
def mulSlow (a b : List Word) : Option (List Word) :=
  if a.length < b.length then mulSlowOrdered b a else mulSlowOrdered a b

/-- `Multiply` / `operator*`: big_int.h 442–456, 478–498, 883–885.  The half
word shortcut multiplies two `int64_t`; a signed overflow there would be
undefined, reported as `none`. -/
def mul (a b : List Word) : Option (List Word) :=
  if allHalfWords a b then
    (if -2 ^ 63 ≤ (first a).toInt * (first b).toInt ∧ (first a).toInt * (first b).toInt < 2 ^ 63
     then some [first a * first b] else none)
  else if a.length = 1 ∧ b.length = 1 then
    let r := Word.mulSigned (first a) (first b)
    some (trim [r.1, r.2])
  else mulSlow a b

/-- `AddMultiply(a, b)`: big_int.h 458–466. -/
def addMultiply (t a b : List Word) : Option (List Word) :=
  if allHalfWords3 t a b then
    (if -2 ^ 63 ≤ (first a).toInt * (first b).toInt ∧ (first a).toInt * (first b).toInt < 2 ^ 63
     then some [first t + first a * first b] else none)
  else (mul a b).map (add t)

/-- `SubtractMultiply(a, b)`: big_int.h 468–476. -/
def subtractMultiply (t a b : List Word) : Option (List Word) :=
  if allHalfWords3 t a b then
    (if -2 ^ 63 ≤ (first a).toInt * (first b).toInt ∧ (first a).toInt * (first b).toInt < 2 ^ 63
     then some [first t - first a * first b] else none)
  else (mul a b).map (sub t)

/-- `Determinant(r1_c1, r1_c2, r2_c1, r2_c2)`: big_int.h 811–814. -/
def determinant (r1c1 r1c2 r2c1 r2c2 : List Word) : Option (List Word) := do
  let p ← mul r1c1 r2c2
  subtractMultiply p r2c1 r1c2

end Walnut.BigInt
