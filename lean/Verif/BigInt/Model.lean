/-
Model of `walnut::BigInt` (include/walnut/big_int.h, src/walnut/big_int.cpp).

A `BigInt` is the list of its `used_words()` words, least significant first.
`BigIntWords` guarantees at least one word; the storage itself (inline word,
heap block, capacity) is modelled separately.

`Option` results: `none` stands for a failed assertion, a read of an
uninitialised word, an out of bounds access, or undefined arithmetic.
-/
import Verif.BigInt.Word

namespace Walnut

namespace BigInt

/-- `words_[used_words() - 1]`; the list is never empty. -/
def top : List Word → Word
  | [] => 0
  | [w] => w
  | _ :: w :: ws => top (w :: ws)

/-- `CanTrim(low, high)`: big_int.h 832–838. -/
def canTrim (low high : Word) : Bool :=
  if high + 1 > 1 then false
  else if (high ^^^ low).toInt < 0 then false
  else true

/-- The loop of `Trim()` on the words from most to least significant:
big_int.h 849–857. -/
def trimRev : List Word → List Word
  | high :: low :: rest =>
    if canTrim low high then trimRev (low :: rest) else high :: low :: rest
  | ws => ws

/-- `Trim()`: big_int.h 844–859. -/
def trim (ws : List Word) : List Word := (trimRev ws.reverse).reverse

/-- `BigInt(BigIntWord)`: big_int.h 38–40. -/
def ofWord (w : Word) : List Word := [w]

/-- `BigInt(BigIntHalfWord)` / `BigInt(int)`: big_int.h 34–36.  The 32 bit
value is sign extended by the conversion to `BigIntWord`. -/
def ofInt32 (v : BitVec 32) : List Word := [v.signExtend 64]

/-- `BigInt::SignExtension()`: big_int.h 803–805. -/
def signExtension (ws : List Word) : Word := Word.signExt (top ws)

/-- `AllHalfWords(a, b)`: big_int.h 84–94. -/
def allHalfWords (a b : List Word) : Bool :=
  match a, b with
  | a0 :: ae, b0 :: be =>
    let inRange := (a0 + (1#64 <<< 31)) ||| (b0 + (1#64 <<< 31))
    decide ((inRange >>> 32) = 0 ∧ ae.length ||| be.length = 0)
  | _, _ => false

/-- `AllHalfWords(a, b, c)`: big_int.h 99–112. -/
def allHalfWords3 (a b c : List Word) : Bool :=
  match a, b, c with
  | a0 :: ae, b0 :: be, c0 :: ce =>
    let inRange := (a0 + (1#64 <<< 31)) ||| (b0 + (1#64 <<< 31)) ||| (c0 + (1#64 <<< 31))
    decide ((inRange >>> 32) = 0 ∧ ae.length ||| be.length ||| ce.length = 0)
  | _, _, _ => false

/-- `CanTrimLastHalf`: big_int.h 840–842. -/
def canTrimLastHalf (w : Word) : Bool := decide ((w.setWidth 32).toInt = w.toInt)

/-- `IsHalfWord()`: big_int.h 114–116. -/
def isHalfWord : List Word → Bool
  | [w] => canTrimLastHalf w
  | _ => false

/-- Third loop of `Add` followed by the final word: big_int.h 249–253. -/
def addTailR (ea eb : Word) : List Word → Bool → List Word
  | [], c => [(Word.addC ea eb c).1]
  | b :: bs, c => (Word.addC ea b c).1 :: addTailR ea eb bs (Word.addC ea b c).2

/-- Second loop of `Add` followed by the final word: big_int.h 246–248, 252. -/
def addTailL (ea eb : Word) : List Word → Bool → List Word
  | [], c => [(Word.addC ea eb c).1]
  | a :: as, c => (Word.addC a eb c).1 :: addTailL ea eb as (Word.addC a eb c).2

/-- The loops of `Add`: big_int.h 238–253. -/
def addLoop (ea eb : Word) : List Word → List Word → Bool → List Word
  | [], bs, c => addTailR ea eb bs c
  | a :: as, [], c => addTailL ea eb (a :: as) c
  | a :: as, b :: bs, c => (Word.addC a b c).1 :: addLoop ea eb as bs (Word.addC a b c).2

/-- The path of `Add` after the half word shortcut: big_int.h 236–256. -/
def addSlow (a b : List Word) : List Word :=
  trim (addLoop (signExtension a) (signExtension b) a b false)

/-- `words_.first()` (big_int_words.h 81-87). -/
def first : List Word → Word
  | [] => 0
  | w :: _ => w

/-- `Add` / `operator+`: big_int.h 232–261.  `operator+=` (267–293) on
distinct objects performs the same word operations in place; the aliased case
is `Verif.BigInt.AssignModel`. -/
def add (a b : List Word) : List Word :=
  if allHalfWords a b then [first a + first b] else addSlow a b

/-- `operator+=(BigIntHalfWord)`: big_int.h 295–306. -/
def addAssignHalf (a : List Word) (v : BitVec 32) : List Word :=
  if isHalfWord a then [first a + v.signExtend 64] else add a (ofInt32 v)

/-- Subtract counterpart of `addTailR`: big_int.h 424–428. -/
def subTailR (ea eb : Word) : List Word → Bool → List Word
  | [], c => [(Word.subC ea eb c).1]
  | b :: bs, c => (Word.subC ea b c).1 :: subTailR ea eb bs (Word.subC ea b c).2

/-- Subtract counterpart of `addTailL`: big_int.h 421–423, 427. -/
def subTailL (ea eb : Word) : List Word → Bool → List Word
  | [], c => [(Word.subC ea eb c).1]
  | a :: as, c => (Word.subC a eb c).1 :: subTailL ea eb as (Word.subC a eb c).2

/-- The loops of `Subtract`: big_int.h 413–428. -/
def subLoop (ea eb : Word) : List Word → List Word → Bool → List Word
  | [], bs, c => subTailR ea eb bs c
  | a :: as, [], c => subTailL ea eb (a :: as) c
  | a :: as, b :: bs, c => (Word.subC a b c).1 :: subLoop ea eb as bs (Word.subC a b c).2

/-- The path of `Subtract` after the half word shortcut: big_int.h 411–431. -/
def subSlow (a b : List Word) : List Word :=
  trim (subLoop (signExtension a) (signExtension b) a b false)

/-- `Subtract` / `operator-`: big_int.h 407–440; `operator-=` on distinct
objects: 333–365. -/
def sub (a b : List Word) : List Word :=
  if allHalfWords a b then [first a - first b] else subSlow a b

/-- `operator-=(BigIntHalfWord)`: big_int.h 367–378. -/
def subAssignHalf (a : List Word) (v : BitVec 32) : List Word :=
  if isHalfWord a then [first a - v.signExtend 64] else sub a (ofInt32 v)

/-- The loop of `Negate()`: big_int.h 704–708.  Returns the words and the final
carry. -/
def negLoop : List Word → Bool → List Word × Bool
  | [], c => ([], c)
  | w :: ws, c =>
    let r := Word.addB (~~~w) c
    let rest := negLoop ws r.2
    (r.1 :: rest.1, rest.2)

/-- `Negate()`: big_int.h 702–723. -/
def negate (ws : List Word) : List Word :=
  let r := negLoop ws true
  let signChanged := (top ws ^^^ top r.1) >>> 63
  let out :=
    if (Word.lo32 signChanged ||| BitVec.ofNat 64 r.2.toNat) = 0 then r.1 ++ [0#64] else r.1
  trim out

/-- `operator-()`: big_int.h 725–729 (the copy does not change the words). -/
def neg (ws : List Word) : List Word := negate ws

/-- `GetSign()`: big_int.h 767–770. -/
def getSign (ws : List Word) : Int := (top ws ||| BitVec.ofNat 64 (ws.length - 1)).toInt

/-- `IsZero()`: big_int.h 772–774. -/
def isZero (ws : List Word) : Bool := decide (getSign ws = 0)

/-- `IsNegative()`: big_int.h 776–778. -/
def isNegative (ws : List Word) : Bool := decide ((signExtension ws).toInt < 0)

/-- `GetAbsMult()`: big_int.h 782–785.  The conversion to `int` keeps the low
32 bits. -/
def getAbsMult (ws : List Word) : Int := ((Word.signExt (top ws)).setWidth 32 ||| 1#32).toInt

/-- `GetAbsMult(other)`: big_int.h 789–791. -/
def getAbsMult2 (a b : List Word) : Int :=
  ((signExtension a ^^^ signExtension b).setWidth 32 ||| 1#32).toInt

/-- `HasSameSign`: big_int.h 793–795. -/
def hasSameSign (a b : List Word) : Bool :=
  decide (0 ≤ ((top a ||| BitVec.ofNat 64 (a.length - 1)) ^^^
    (top b ||| BitVec.ofNat 64 (b.length - 1))).toInt)

/-- `HasDifferentSign`: big_int.h 797–799. -/
def hasDifferentSign (a b : List Word) : Bool :=
  decide (((top a ||| BitVec.ofNat 64 (a.length - 1)) ^^^
    (top b ||| BitVec.ofNat 64 (b.length - 1))).toInt < 0)

/-- `abs()`: big_int.h 731–740. -/
def abs (ws : List Word) : Option (List Word) :=
  if ws.length = 1 then (Word.signedAbs (first ws)).map fun w => [w]
  else if 0 ≤ (top ws).toInt then some ws
  else some (neg ws)

/-- `GetAbs(was_signed)`: big_int.h 742–749. -/
def getAbs (ws : List Word) : List Word × Bool :=
  let wasSigned := decide (getSign ws < 0)
  (if wasSigned then negate ws else ws, wasSigned)

/-- `GetHash()`: big_int.h 823–829. -/
def getHash (ws : List Word) : BitVec 64 :=
  ws.foldl (fun h w => h ^^^ w) 0#64 + BitVec.ofNat 64 ws.length

end BigInt
end Walnut
