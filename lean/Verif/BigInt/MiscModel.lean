/- Model of the remaining `BigInt` operations that do not divide: increment,
decrement, shift, extreme values, conversion to and from `BigUInt`. -/
import Verif.BigInt.Model
import Verif.BigInt.UModel

namespace Walnut.BigInt

/-- The word loop of `operator++` and the update of the top word:
big_int.h 316–329.  The flag tells whether `Trim()` is called afterwards.  When
the top word overflows the code writes `words_[used_words()]` without resizing
(`none`). -/
def incLoop : List Word → Option (List Word × Bool)
  | [] => none
  | [w] => if (w + 1#64).toInt = -2 ^ 63 then none else some ([w + 1#64], true)
  | w :: w' :: ws =>
    if w + 1#64 ≠ 0#64 then some ((w + 1#64) :: w' :: ws, false)
    else (incLoop (w' :: ws)).map fun r => ((w + 1#64) :: r.1, r.2)

/-- `operator++`: big_int.h 308–331. -/
def inc (ws : List Word) : Option (List Word) :=
  if isHalfWord ws then some [first ws + 1#64]
  else (incLoop ws).map fun r => if r.2 then trim r.1 else r.1

/-- The word loop of `operator--` and the update of the top word:
big_int.h 389–403.  When the top word overflows a word is appended; the code
increments that uninitialised word and then overwrites it with `-1`. -/
def decLoop : List Word → List Word × Bool
  | [] => ([], false)
  | [w] =>
    if (w - 1#64).toInt = 2 ^ 63 - 1 then ([w - 1#64, BitVec.allOnes 64], false)
    else ([w - 1#64], true)
  | w :: w' :: ws =>
    if (w - 1#64).toInt ≠ -1 then ((w - 1#64) :: w' :: ws, false)
    else ((w - 1#64) :: (decLoop (w' :: ws)).1, (decLoop (w' :: ws)).2)

/-- `operator--`: big_int.h 381–405. -/
def dec (ws : List Word) : List Word :=
  if isHalfWord ws then [first ws - 1#64]
  else if (decLoop ws).2 then trim (decLoop ws).1 else (decLoop ws).1

/-- Word loop of `operator<<` for a shift `k` inside a word: big_int.h 164–169. -/
def shlLoop (k : Nat) : List Word → Word → List Word
  | [], prev => [prev.sshiftRight (64 - k)]
  | w :: ws, prev => (w <<< k ||| prev >>> (64 - k)) :: shlLoop k ws w

/-- `operator<<`: big_int.h 144–185. -/
def shl (ws : List Word) (shift : Nat) : List Word :=
  if ws.length = 1 ∧ shift < 64 ∧ (first ws <<< shift).sshiftRight shift = first ws then
    [first ws <<< shift]
  else
    let low := List.replicate (shift / 64) 0#64
    if shift % 64 > 0 then trim (low ++ shlLoop (shift % 64) ws 0#64)
    else trim (low ++ ws)

/-- The loop setting the bits of the last word in `max_value`: big_int.cpp 18–20. -/
def setBits : Nat → Word
  | 0 => 0#64
  | n + 1 => setBits n ||| (1#64 <<< n)

/-- `BigInt::max_value(set_bits)`: big_int.cpp 9–24. -/
def maxValue (n : Nat) : List Word :=
  let size := (n + 64) / 64
  trim (List.replicate (size - 1) (BitVec.allOnes 64) ++ [setBits (n - (size - 1) * 64)])

/-- The loop clearing the bits of the last word in `min_value`: big_int.cpp 35–37. -/
def clearBits : Nat → Word
  | 0 => BitVec.allOnes 64
  | n + 1 => clearBits n &&& ~~~(1#64 <<< n)

/-- `BigInt::min_value(clear_bits)`: big_int.cpp 26–41. -/
def minValue (n : Nat) : List Word :=
  let size := (n + 64) / 64
  trim (List.replicate (size - 1) 0#64 ++ [clearBits (n - (size - 1) * 64)])

/-- `BigInt(const BigUInt&)`: big_int.h 53–59, and `operator=(const BigUInt&)`:
130–138. -/
def ofBigUInt (ws : List Word) : List Word :=
  if (top ws).toInt < 0 then trim (ws ++ [0#64]) else trim ws

/-- `GetUIntAbs(was_signed)`: big_int.h 751–761, `BigUInt(words, used)`:
big_uint.h 41–44. -/
def getUIntAbs (ws : List Word) : List Word × Bool :=
  if (top ws).toInt < 0 then (BigUInt.trim (negate ws), true) else (BigUInt.trim ws, false)

end Walnut.BigInt
