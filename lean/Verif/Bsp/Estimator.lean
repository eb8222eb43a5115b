/- Model of `MLogNEstimator` (m_log_n_estimator.h 12-32) and `GetSplitCost`
(m_log_n_estimator.cpp 5-10), for a 64 bit `size_t` and a compiler with
`__int128`. -/
import Verif.BigInt.Word

namespace Walnut.Bsp

/-- `MLogNEstimator::Estimate` (m_log_n_estimator.h 14-29).  The first argument
is the member `last_n_bits_`; the result is the estimate and the new value of
the member.  A negative shift is undefined: `none`.  (The member never exceeds
63, so that the shift of a `size_t` by 64 or more does not occur.) -/
def estimate (last : Int) (m n : Word) : Option (Word × Int) :=
  if last < 0 ∨ 64 ≤ last then none
  else
    let last' : Int := if n >>> last.toNat ≠ 1#64 then (Word.highestSetBit n : Int) - 1 else last
    if last' < 0 then none
    else
      let full : BitVec 128 := m.setWidth 128 * n.setWidth 128
      some ((full >>> last'.toNat).setWidth 64 + m * BitVec.ofInt 64 (last' - 1), last')

/-- A sequence of calls on one estimator; the result is the member.  Calls of `Estimate`, m_log_n_estimator.h 14-29, as in
bsp_traverser.h 71-76. -/
def estimateRun : Int → List (Word × Word) → Option Int
  | s, [] => some s
  | s, (m, n) :: cs => (estimate s m n).bind fun r => estimateRun r.2 cs

/-- `GetSplitCost` (m_log_n_estimator.cpp 5-10). -/
def getSplitCost (negTotal negExclude posTotal posExclude : Word) : Option Word :=
  (estimate 0 negTotal (negTotal - negExclude + 1#64)).bind fun r1 =>
    (estimate r1.2 posTotal (posTotal - posExclude + 1#64)).map fun r2 => r1.1 + r2.1

end Walnut.Bsp
