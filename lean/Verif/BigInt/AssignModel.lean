/-
Model of the in-place `operator+=` and `operator-=` of `BigInt`, including the
case where the argument is the object itself.  Words that have been allocated
but not written are `none`.
-/
import Verif.BigInt.Model

namespace Walnut.BigInt

/-- Read `words_[i]`; `none` when out of range or uninitialised (big_int.h 64-66, big_int_words.h 89-105). -/
def rd (mem : List (Option Word)) (i : Nat) : Option Word := mem[i]?.join

/-- `other.words_[i]`.  `none` as the other object means `&other == this` (big_int.h 280-287). -/
def otherRd (other : Option (List Word)) (mem : List (Option Word)) (i : Nat) : Option Word :=
  match other with
  | some b => b[i]?
  | none => rd mem i

/-- `other.used_words()` at the moment of the call (big_int.h 60-62). -/
def otherUsed (other : Option (List Word)) (mem : List (Option Word)) : Nat :=
  match other with
  | some b => b.length
  | none => mem.length

/-- A `for` loop that runs `steps` times from index `i` on and stores
`op(x, y, carry)` in `words_[i]`, where `src` fetches `x` and `y`.  The loops at big_int.h 279-287 and 351-359. -/
def assignLoop (op : Word → Word → Bool → Word × Bool)
    (src : List (Option Word) → Nat → Option (Word × Word)) :
    Nat → Nat → List (Option Word) → Bool → Option (List (Option Word) × Bool)
  | 0, _, mem, c => some (mem, c)
  | steps + 1, i, mem, c =>
    match src mem i with
    | none => none
    | some (x, y) => assignLoop op src steps (i + 1) (mem.set i (some (op x y c).1)) (op x y c).2

/-- All words initialised.  Not in the code: the check of the model that the loops at big_int.h 279-288 wrote every word
that `resize` added. -/
def allInit : List (Option Word) → Option (List Word)
  | [] => some []
  | none :: _ => none
  | some w :: ws => (allInit ws).map (w :: ·)

/-- The final store to `words_[i]`, the assertion that this was the last word,
and `Trim()`: big_int.h 288–291. -/
def assignFinish (mem : List (Option Word)) (i : Nat) (w : Word) : Option (List Word) :=
  if i + 1 = mem.length then (allInit (mem.set i (some w))).map trim else none

/-- The slow path shared by `operator+=` (big_int.h 272–292) and `operator-=`
(344–364); `op` is `Add` or `Subtract` with carry.  `size` is the new size. -/
def assignSlow (op : Word → Word → Bool → Word × Bool) (a : List Word)
    (other : Option (List Word)) : Option (List Word) :=
  let mem0 := a.map some
  let common := min a.length (otherUsed other mem0)
  let ea := signExtension a
  let eb := signExtension (other.getD a)
  let size := max a.length (otherUsed other mem0) + 1
  let mem1 := mem0 ++ List.replicate (size - a.length) none
  (assignLoop op (fun m i => (rd m i).bind fun x => (otherRd other m i).map fun y => (x, y))
      common 0 mem1 false).bind fun s1 =>
  (assignLoop op (fun m i => (rd m i).map fun x => (x, eb))
      (a.length - common) common s1.1 s1.2).bind fun s2 =>
  (assignLoop op (fun m i => (otherRd other m i).map fun y => (ea, y))
      (otherUsed other s2.1 - a.length) a.length s2.1 s2.2).bind fun s3 =>
  assignFinish s3.1 (max a.length (otherUsed other s3.1)) (op ea eb s3.2).1

/-- `operator+=(const BigInt&)`: big_int.h 267–293. -/
def addAssign (a : List Word) (other : Option (List Word)) : Option (List Word) :=
  if allHalfWords a (other.getD a) then some [first a + first (other.getD a)]
  else assignSlow Word.addC a other

/-- `operator-=(const BigInt&)`: big_int.h 333–365. -/
def subAssign (a : List Word) (other : Option (List Word)) : Option (List Word) :=
  if allHalfWords a (other.getD a) then some [first a - first (other.getD a)]
  else assignSlow Word.subC a other

end Walnut.BigInt
