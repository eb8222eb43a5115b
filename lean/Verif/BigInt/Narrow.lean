/- Conversion of a `BigInt` to machine integers (big_int.h 68-79, big_uint_word.h 110-118). -/
import Verif.BigInt.Model

namespace Walnut.BigInt

/-- `low_uint64` (big_int.h 72-74). -/
def lowUint64 (ws : List Word) : BitVec 64 := first ws

/-- `low_uint32` (big_int.h 68-70, big_uint_word.h 110-112). -/
def lowUint32 (ws : List Word) : BitVec 32 := (first ws).truncate 32

/-- `ToInt` (big_int.h 76-79, big_uint_word.h 114-118): `none` if one of the assertions fails. -/
def toInt32 (ws : List Word) : Option (BitVec 32) :=
  if ws.length = 1 then
    let w := first ws
    if -2 ^ 31 ≤ w.toInt ∧ w.toInt ≤ 2 ^ 31 - 1 then some (w.truncate 32) else none
  else none

end Walnut.BigInt
