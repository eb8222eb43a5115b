/-
Model of `OrientingMonotoneDecomposer` (orienting_monotone_decomposer.h), the subclass of the
decomposer that finds out which of two chains is the top one.

A chain is the list of its vertices.  A failed assertion and a read past the end of a chain are
`none`.
-/
import Verif.Mono.Decompose

namespace Walnut.Mono
open Walnut.Geom

/-- The two loops over copies of the minimum vertex (orienting_monotone_decomposer.h 182-201):
the rest of the chain from the first vertex that is different, `[]` if there is none. -/
def skipEqual (m : HP3) (l : List HP3) : List HP3 := l.dropWhile fun v => v.eq m

/-- The loop over both chains (orienting_monotone_decomposer.h 219-252) with `chain1_pos` and
`chain2_pos` as the rests of the chains.  The results: `none` for a failed assertion, `some none`
for `return false`, `some (some flipped_)` for `return true`. -/
def detectLoop (drop mono : Fin 3) (m a : HP3) : List HP3 → List HP3 → Option (Option Bool)
  | [], [_] => some none
  | [], _ => none
  | _ :: _, [] => none
  | x :: xs, y :: ys =>
    let current1 := decide (x.compareComponent mono y ≤ 0)
    let twist := (m.get2DTwistDir drop a (if current1 then x else y)).toInt
    if twist ≠ 0 then some (some (current1 == decide (0 < twist)))
    else if current1 then detectLoop drop mono m a xs (y :: ys) else detectLoop drop mono m a (x :: xs) ys
termination_by c1 c2 => c1.length + c2.length

/-- `DetectOrientation` (orienting_monotone_decomposer.h 158-253), with the results of
`detectLoop`. -/
def detect (drop mono : Fin 3) : List HP3 → List HP3 → Option (Option Bool)
  | m :: a :: r1, m2 :: b :: r2 =>
    if !m2.eq m then none
    else
      let twist := (m.get2DTwistDir drop a b).toInt
      if twist ≠ 0 then some (some (decide (twist < 0)))
      else
        match skipEqual m (a :: r1) with
        | [] => some none
        | a' :: r1' =>
          match skipEqual m (b :: r2) with
          | [] => none
          | b' :: r2' =>
            -- `advanced`
            if a.eq m || b.eq m then
              let twist := (m.get2DTwistDir drop a' b').toInt
              if twist ≠ 0 then some (some (decide (twist < 0)))
              else detectLoop drop mono m a' (a' :: r1') (b' :: r2')
            else detectLoop drop mono m a' (a' :: r1') (b' :: r2')
  | _, _ => none

/-- `EmitRange` (orienting_monotone_decomposer.h 136-149): the arguments of `EmitOriented`, the
two ranges joined. -/
def emitRange (flipped : Bool) (p : Piece) : Piece :=
  if flipped then ⟨-p.orientation, p.verts.reverse⟩ else p

/-- `Build` (orienting_monotone_decomposer.h 57-106): the calls of `EmitOriented`.  (The vectors
`convex_top_` and `convex_bottom_` are empty before each call.) -/
def orientBuild (drop mono : Fin 3) (c1 c2 : List HP3) : Option (List Piece) := do
  match ← detect drop mono c1 c2 with
  | none => return [⟨0, c1.dropLast.reverse ++ c2.tail⟩]
  | some true =>
    let out ← decompose drop mono c1.dropLast c2.tail
    return out.map (emitRange true)
  | some false =>
    let out ← decompose drop mono c2.dropLast c1.tail
    return out.map (emitRange false)

end Walnut.Mono
