/- Model of the comparison operators of `BigInt`: big_int.h 187–230, 500–652. -/
import Verif.BigInt.Model

namespace Walnut.BigInt

/-- Loop of `Compare` over the words below the top one: big_int.h 225–229. -/
def compareRest : List Word → List Word → Int
  | x :: xs, y :: ys => if x > y then 1 else if x < y then -1 else compareRest xs ys
  | _, _ => 0

/-- `Compare(other)`: big_int.h 190–230.  The `int` conversions keep the low 32
bits. -/
def compare (a b : List Word) : Int :=
  if a.length < b.length then (~~~((Word.signExt (top b)).setWidth 32) ||| 1#32).toInt
  else if b.length < a.length then ((Word.signExt (top a)).setWidth 32 ||| 1#32).toInt
  else match a.reverse, b.reverse with
    | x :: xs, y :: ys =>
      if x ≠ y then (if x.toInt > y.toInt then 1 else -1) else compareRest xs ys
    | _, _ => 0

/-- Loop of `operator<` for `i > 0` and the final comparison of the first
words: big_int.h 511–515. -/
def ltRest (a0 b0 : Word) : List Word → List Word → Bool
  | x :: x' :: xs, y :: y' :: ys =>
    if x < y then true else if x > y then false else ltRest a0 b0 (x' :: xs) (y' :: ys)
  | _, _ => decide (a0 < b0)

/-- `operator<`: big_int.h 500–516. -/
def lt (a b : List Word) : Bool :=
  if a.length < b.length then decide (0 ≤ (top b).toInt)
  else if b.length < a.length then decide ((top a).toInt < 0)
  else match a.reverse, b.reverse with
    | x :: xs, y :: ys =>
      if x ≠ y then decide (x.toInt < y.toInt) else ltRest (first a) (first b) xs ys
    | _, _ => false

/-- big_int.h 560–564. -/
def leRest (a0 b0 : Word) : List Word → List Word → Bool
  | x :: x' :: xs, y :: y' :: ys =>
    if x < y then true else if x > y then false else leRest a0 b0 (x' :: xs) (y' :: ys)
  | _, _ => decide (a0 ≤ b0)

/-- `operator<=`: big_int.h 549–565. -/
def le (a b : List Word) : Bool :=
  if a.length < b.length then decide (0 ≤ (top b).toInt)
  else if b.length < a.length then decide ((top a).toInt < 0)
  else match a.reverse, b.reverse with
    | x :: xs, y :: ys =>
      if x ≠ y then decide (x.toInt < y.toInt) else leRest (first a) (first b) xs ys
    | _, _ => false

/-- big_int.h 586–590. -/
def gtRest (a0 b0 : Word) : List Word → List Word → Bool
  | x :: x' :: xs, y :: y' :: ys =>
    if x > y then true else if x < y then false else gtRest a0 b0 (x' :: xs) (y' :: ys)
  | _, _ => decide (a0 > b0)

/-- `operator>`: big_int.h 575–591. -/
def gt (a b : List Word) : Bool :=
  if a.length < b.length then decide (0 > (top b).toInt)
  else if b.length < a.length then decide ((top a).toInt ≥ 0)
  else match a.reverse, b.reverse with
    | x :: xs, y :: ys =>
      if x ≠ y then decide (x.toInt > y.toInt) else gtRest (first a) (first b) xs ys
    | _, _ => false

/-- big_int.h 612–616. -/
def geRest (a0 b0 : Word) : List Word → List Word → Bool
  | x :: x' :: xs, y :: y' :: ys =>
    if x > y then true else if x < y then false else geRest a0 b0 (x' :: xs) (y' :: ys)
  | _, _ => decide (a0 ≥ b0)

/-- `operator>=`: big_int.h 601–617. -/
def ge (a b : List Word) : Bool :=
  if a.length < b.length then decide (0 > (top b).toInt)
  else if b.length < a.length then decide ((top a).toInt ≥ 0)
  else match a.reverse, b.reverse with
    | x :: xs, y :: ys =>
      if x ≠ y then decide (x.toInt > y.toInt) else geRest (first a) (first b) xs ys
    | _, _ => false

/-- big_int.h 541–546; `f` is the flip mask (`0` or all ones). -/
def lessThanRest (f a0 b0 : Word) : List Word → List Word → Bool
  | x :: x' :: xs, y :: y' :: ys =>
    if x ≠ y then decide (x ^^^ f < y ^^^ f) else lessThanRest f a0 b0 (x' :: xs) (y' :: ys)
  | _, _ => decide (a0 ^^^ f < b0 ^^^ f)

/-- `LessThan(flip, other)`: big_int.h 526–547. -/
def lessThan (flip : Bool) (a b : List Word) : Bool :=
  let f : Word := 0#64 - BitVec.ofNat 64 flip.toNat
  if a.length < b.length then decide (0 ≤ (top b ^^^ f).toInt)
  else if b.length < a.length then decide ((top a ^^^ f).toInt < 0)
  else match a.reverse, b.reverse with
    | x :: xs, y :: ys =>
      if x ≠ y then decide ((x ^^^ f).toInt < (y ^^^ f).toInt)
      else lessThanRest f (first a) (first b) xs ys
    | _, _ => false

/-- Loop of `operator==` from the top word down to index 1, then index 0:
big_int.h 635–638. -/
def eqRev : List Word → List Word → Bool
  | x :: x' :: xs, y :: y' :: ys => if x ≠ y then false else eqRev (x' :: xs) (y' :: ys)
  | [x], [y] => decide (x = y)
  | _, _ => false

/-- `operator==`: big_int.h 632–639. -/
def eq (a b : List Word) : Bool :=
  if a.length ≠ b.length then false else eqRev a.reverse b.reverse

/-- Loop of `operator!=`: big_int.h 644–647. -/
def neRev : List Word → List Word → Bool
  | x :: x' :: xs, y :: y' :: ys => if x ≠ y then true else neRev (x' :: xs) (y' :: ys)
  | [x], [y] => decide (x ≠ y)
  | _, _ => true

/-- `operator!=`: big_int.h 641–648. -/
def ne (a b : List Word) : Bool :=
  if a.length ≠ b.length then true else neRev a.reverse b.reverse

/-- `operator<(int)`: big_int.h 518–524. -/
def ltInt (a : List Word) (v : BitVec 32) : Bool :=
  if a.length > 1 then decide ((top a).toInt < 0) else decide ((first a).toInt < v.toInt)

/-- `operator<=(int)`: big_int.h 567–573. -/
def leInt (a : List Word) (v : BitVec 32) : Bool :=
  if a.length > 1 then decide ((top a).toInt < 0) else decide ((first a).toInt ≤ v.toInt)

/-- `operator>(int)`: big_int.h 593–599. -/
def gtInt (a : List Word) (v : BitVec 32) : Bool :=
  if a.length > 1 then decide ((top a).toInt ≥ 0) else decide ((first a).toInt > v.toInt)

/-- `operator>=(int)`: big_int.h 619–625. -/
def geInt (a : List Word) (v : BitVec 32) : Bool :=
  if a.length > 1 then decide ((top a).toInt ≥ 0) else decide ((first a).toInt ≥ v.toInt)

/-- `operator==(int)`: big_int.h 627–630. -/
def eqInt (a : List Word) (v : BitVec 32) : Bool :=
  decide (a.length = 1 ∧ first a = v.signExtend 64)

/-- `operator!=(int)`: big_int.h 650–652. -/
def neInt (a : List Word) (v : BitVec 32) : Bool := !eqInt a v

end Walnut.BigInt
