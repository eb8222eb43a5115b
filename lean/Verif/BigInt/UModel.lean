/-
Model of `walnut::BigUInt` (include/walnut/big_uint.h).

Values that are never shrunk in place are plain word lists.  The quotient and
the remainder of the long division are modified in place and read past
`used_words()`, so they are modelled as a block of memory together with the
number of used words (`Blk`).

`dbg = true` models a build with assertions: `BigIntWords::operator[]` aborts
when the index is not below `size()`.  `dbg = false` models a build with
`NDEBUG`: the access goes to the allocated block and is only undefined when it
is outside of the block.  In both cases `none` is the undefined/aborted
outcome.
-/
import Verif.BigInt.Model
import Verif.BigInt.MulModel

namespace Walnut.BigUInt

/-- The loop of `Trim()` on the words from most to least significant, with
`CanTrim` being `high == 0`: big_uint.h 236–259. -/
def trimRev : List Word → List Word
  | high :: low :: rest => if high = 0#64 then trimRev (low :: rest) else high :: low :: rest
  | ws => ws

/-- `Trim()`: big_uint.h 244–259. -/
def trim (ws : List Word) : List Word := (trimRev ws.reverse).reverse

/-- `IsHalfWord()`: big_uint.h 59–61, 240–242. -/
def isHalfWord : List Word → Bool
  | [w] => decide (w.toNat ≤ 2 ^ 32 - 1)
  | _ => false

/-- The word loop of `operator<<` for a shift that is not a multiple of the
word size: big_uint.h 77–84. -/
def shlLoop (k : Nat) : List Word → Word → List Word
  | [], prev => [prev >>> (64 - k)]
  | w :: ws, prev => (w <<< k ||| prev >>> (64 - k)) :: shlLoop k ws w

/-- `operator<<(shift)`: big_uint.h 63–96.  The words below `out` are never
written.  `BigUInt result` starts with one zero word, so word 0 is zero, but
the words `1 … out-1` are uninitialised: `none`. -/
def shl (ws : List Word) (shift : Nat) : Option (List Word) :=
  if isHalfWord ws && decide (shift ≤ 32) then some [BigInt.first ws <<< shift]
  else
    let out := shift / 64
    let k := shift % 64
    if out ≥ 2 then none
    else
      let low := List.replicate out 0#64
      if k > 0 then some (trim (low ++ shlLoop k ws 0#64))
      else some (trim (low ++ ws))

/-- The loops of `Subtract`: big_uint.h 105–116.  Returns the words and the
final carry. -/
def subLoop : List Word → List Word → Bool → List Word × Bool
  | [], [], c => ([], c)
  | a :: as, [], c =>
    let r := Word.subB a c
    let t := subLoop as [] r.2
    (r.1 :: t.1, t.2)
  | [], b :: bs, c =>
    let r := Word.subC 0#64 b c
    let t := subLoop [] bs r.2
    (r.1 :: t.1, t.2)
  | a :: as, b :: bs, c =>
    let r := Word.subC a b c
    let t := subLoop as bs r.2
    (r.1 :: t.1, t.2)

/-- `Subtract(other)`: big_uint.h 98–121. -/
def sub (a b : List Word) : Option (List Word) :=
  if isHalfWord a && isHalfWord b &&
      decide ((BigInt.first a).setWidth 32 ≥ (BigInt.first b).setWidth 32) then
    some [BigInt.first a - BigInt.first b]
  else
    let r := subLoop a b false
    if r.2 then none                     -- assert(!carry)
    else if a.length ≠ r.1.length then none   -- assert(used_words() == i)
    else some (trim r.1)

/-- `Multiply(BigUIntWord)`: big_uint.h 123–141. -/
def mulWord (ws : List Word) (o : Word) : List Word :=
  if isHalfWord ws && decide (o.toNat ≤ 2 ^ 32 - 1) then [BigInt.first ws * o]
  else trim (BigInt.mulRow0 o ws 0#64)

/-- Loop of `operator>=` from the top word down: big_uint.h 156–160. -/
def geRev : List Word → List Word → Bool
  | x :: x' :: xs, y :: y' :: ys =>
    if x > y then true else if x < y then false else geRev (x' :: xs) (y' :: ys)
  | [x], [y] => decide (x ≥ y)
  | _, _ => false

/-- `operator>=`: big_uint.h 152–161. -/
def ge (a b : List Word) : Bool :=
  if a.length > b.length then true
  else if a.length < b.length then false
  else geRev a.reverse b.reverse

/-- A word container that is modified in place: the contents of the inline
word and of the whole allocated block, and `size()` (big_int_words.h 223-228). -/
structure Blk where
  mem : List Word
  used : Nat
deriving DecidableEq

/-- The value seen through the interface: the first `size()` words (big_int_words.h 89-105). -/
def Blk.words (b : Blk) : List Word := b.mem.take b.used

/-- `Trim()` in place: only `size()` changes, the block keeps its contents:
big_uint.h 244–259. -/
def trimUsed (mem : List Word) : Nat → Nat
  | 0 => 0
  | 1 => 1
  | n + 2 => if mem[n + 1]? = some 0#64 then trimUsed mem (n + 1) else n + 2

/-- `Trim()` of the container: big_uint.h 244–259. -/
def Blk.trim (b : Blk) : Blk := { b with used := trimUsed b.mem b.used }

/-- `words_[i]`: big_int_words.h 89–105. -/
def Blk.read (dbg : Bool) (b : Blk) (i : Nat) : Option Word :=
  if dbg && decide (b.used ≤ i) then none else b.mem[i]?

/-- `GetAtBitOffset(shift)`: big_uint.h 265–273. -/
def getAtBitOffset (dbg : Bool) (b : Blk) (shift : Nat) : Option Word := do
  let idx := shift / 64
  let off := shift % 64
  let next ← if idx + 1 < b.used then b.read dbg (idx + 1) else some 0#64
  let w ← b.read dbg idx
  some (Word.shiftRight w next off)

/-- The carry loop of `AddLeftShifted` on the words from `pos` on:
big_uint.h 181–184.  The result also tells how many words were visited.  Past
the end of the block the `resize` allocates an uninitialised word: `none`. -/
def addCarry : List Word → Bool → Option (List Word × Nat)
  | ws, false => some (ws, 0)
  | [], true => none
  | w :: ws, true =>
    let r := Word.addB w true
    (addCarry ws r.2).map fun t => (r.1 :: t.1, t.2 + 1)

/-- `resize(n, 0)`: big_int_words.h 159–174.  Words between the old and the new
size are set to zero; a reallocation keeps only the used words. -/
def Blk.resizeZero (b : Blk) (n : Nat) : Blk :=
  if n ≤ b.used then b
  else { mem := b.mem.take b.used ++ List.replicate (n - b.used) 0#64 ++ b.mem.drop n, used := n }

/-- `AddLeftShifted(add, shift)`: big_uint.h 164–188. -/
def addLeftShifted (b : Blk) (add : Word) (shift : Nat) : Option Blk :=
  let pos := shift / 64
  let m := shift % 64
  let b1 := b.resizeZero (max b.used (pos + 1 + (if m ≠ 0 then 1 else 0)))
  match b1.mem.drop pos with
  | [] => none
  | w :: ws =>
    let r := Word.addO w (add <<< m)
    if m ≠ 0 then
      match ws with
      | [] => none
      | w' :: ws' =>
        let r' := Word.addC w' (add >>> (64 - m)) r.2
        (addCarry ws' r'.2).map fun t =>
          Blk.trim { mem := b1.mem.take pos ++ r.1 :: r'.1 :: t.1,
                     used := max b1.used (pos + 2 + t.2) }
    else
      (addCarry ws r.2).map fun t =>
        Blk.trim { mem := b1.mem.take pos ++ r.1 :: t.1,
                   used := max b1.used (pos + 1 + t.2) }

/-- The borrow loop of `SubtractLeftShifted`, `u` words below `used_words()`
are left; ends with `assert(!carry)`: big_uint.h 217–220. -/
def subCarry : List Word → Nat → Bool → Option (List Word)
  | ws, _, false => some ws
  | _, 0, true => none
  | [], _ + 1, true => none
  | w :: ws, u + 1, true =>
    let r := Word.subB w true
    (subCarry ws u r.2).map (r.1 :: ·)

/-- The word loops of `SubtractLeftShifted` on the words from `out` on; `k` is
`word_left_shift`, `u` the number of words left below `used_words()`:
big_uint.h 197–220. -/
def subShiftLoop (dbg : Bool) (k : Nat) :
    List Word → List Word → Nat → Word → Bool → Option (List Word)
  | ws, [], u, prev, c =>
    if k > 0 then
      if 0 < u then
        match ws with
        | [] => none
        | w :: ws' =>
          let r := Word.subC w (prev >>> (64 - k)) c
          (subCarry ws' (u - 1) r.2).map (r.1 :: ·)
      else if prev >>> (64 - k) = 0#64 then subCarry ws u c
      else none
    else subCarry ws u c
  | [], _ :: _, _, _, _ => none
  | w :: ws, o :: os, u, prev, c =>
    if dbg && decide (u = 0) then none
    else
      let s := if k > 0 then o <<< k ||| prev >>> (64 - k) else o
      let r := Word.subC w s c
      (subShiftLoop dbg k ws os (u - 1) o r.2).map (r.1 :: ·)

/-- `SubtractLeftShifted(other, shift)`: big_uint.h 191–224. -/
def subtractLeftShifted (dbg : Bool) (b : Blk) (other : List Word) (shift : Nat) : Option Blk :=
  let out := shift / 64
  let k := shift % 64
  (subShiftLoop dbg k (b.mem.drop out) other (b.used - out) 0#64 false).map fun t =>
    Blk.trim { b with mem := b.mem.take out ++ t }

/-- `ShiftRightWord()`: big_uint.h 226–233 (the swaps move every word down by
one and put a zero on top). -/
def shiftRightWord : List Word → List Word
  | [] => []
  | _ :: ws => trim (ws ++ [0#64])

/-- Normalised divisor of `DivideRemainderSlow`: `(other_shifted,
other_shift_right)` after the adjustment: big_uint.h 301–325. -/
def divisorParts (other : List Word) : Word × Int :=
  let hi := other.length - 1
  let top := BigInt.top other
  let hb := Word.highestSetBit top
  let sr : Int := hb - 32
  let shifted : Word :=
    if hb < 32 then
      let s := top <<< (32 - hb)
      if hi > 0 then s ||| (other.getD (hi - 1) 0#64) >>> (32 + hb) else s
    else top >>> (hb - 32)
  let o : Int := hi * 64 + sr
  if Word.lo32 shifted = 0xFFFFFFFF#64 then (1#64 <<< 31, o + 1)
  else (shifted + 1#64, o)

/-- State of the division loops.  The variables of `DivideRemainderSlow`: big_uint.h 278-367. -/
structure DivState where
  quot : Blk
  rem : Blk
  t : Int
deriving DecidableEq

/-- Body of the first loop: big_uint.h 336–347.  Division by zero is `none`.
The trailing assertion is only evaluated with `dbg`. -/
def divStep1 (dbg : Bool) (other : List Word) (d : Word) (o : Int) (s : DivState) :
    Option DivState := do
  let x ← getAtBitOffset dbg s.rem (s.t + 64).toNat
  if d = 0#64 then none
  let sl := (s.t - o).toNat
  let r := x / d
  let q ← addLeftShifted s.quot r sl
  let m ← subtractLeftShifted dbg s.rem (mulWord other r) (sl + 64)
  if dbg && decide ((s.t + 64).toNat / 64 ≠ m.used) then
    let y ← getAtBitOffset dbg m (s.t + 64).toNat
    if y.toNat ≤ 2 ^ 34 then some () else none
  some { quot := q, rem := m, t := s.t - 30 }

/-- First loop: big_uint.h 333–348.  The fuel only makes the recursion
structural; running out of it is `none`. -/
def divLoop1 (dbg : Bool) (other : List Word) (d : Word) (o : Int) : Nat → DivState → Option DivState
  | 0, s => if s.t ≥ o then none else some s
  | fuel + 1, s =>
    if s.t ≥ o then do
      let s' ← divStep1 dbg other d o s
      divLoop1 dbg other d o fuel s'
    else some s

/-- Body of the second loop: big_uint.h 352–358. -/
def divStep2 (dbg : Bool) (other : List Word) (d : Word) (o : Int) (s : DivState) :
    Option DivState := do
  let x ← getAtBitOffset dbg s.rem (s.t + 64).toNat
  if d = 0#64 then none
  let sr := (o - s.t).toNat
  let r := x / d
  let q ← addLeftShifted s.quot (r >>> sr) 0
  let m ← subtractLeftShifted dbg s.rem (mulWord other (r >>> sr)) 64
  some { quot := q, rem := m, t := s.t - 30 }

/-- Second loop: big_uint.h 349–359. -/
def divLoop2 (dbg : Bool) (other : List Word) (d : Word) (o : Int) : Nat → DivState → Option DivState
  | 0, s => if s.t + 32 ≥ o then none else some s
  | fuel + 1, s =>
    if s.t + 32 ≥ o then do
      let s' ← divStep2 dbg other d o s
      divLoop2 dbg other d o fuel s'
    else some s

/-- `DivideRemainderSlow`: big_uint.h 278–368.  Returns `(quotient,
remainder)`. -/
def divideRemainderSlow (dbg : Bool) (a other : List Word) : Option (List Word × List Word) := do
  let (d, o) := divisorParts other
  let r0 ← shl a 64
  let t0 : Int := ((a.length - 1) * 64 : Nat)
  let s0 : DivState := { quot := { mem := [0#64], used := 1 },
                         rem := { mem := r0, used := r0.length }, t := t0 }
  let s1 ← divLoop1 dbg other d o ((t0 - o).toNat + 1) s0
  let s2 ← divLoop2 dbg other d o 3 s1
  if dbg && decide (Word.lo32 (BigInt.first s2.rem.mem) ≠ 0#64) then none
  let rem := shiftRightWord s2.rem.words
  if ge rem other then
    let rem' ← sub rem other
    let q' ← addLeftShifted s2.quot 1#64 0
    some (q'.words, rem')
  else some (s2.quot.words, rem)

/-- `DivideRemainder(other, &remainder)`: big_uint.h 144–150. -/
def divideRemainder (dbg : Bool) (a other : List Word) : Option (List Word × List Word) :=
  if a.length = 1 ∧ other.length = 1 then
    if BigInt.first other = 0#64 then none
    else some ([BigInt.first a / BigInt.first other], [BigInt.first a % BigInt.first other])
  else divideRemainderSlow dbg a other

end Walnut.BigUInt
