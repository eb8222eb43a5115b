/-
Model of `MonotoneRange` (monotone_range.h).

An iterator is an index into a list of vertices; `vs.length` is the end of the container.
Dereferencing the end, decrementing the beginning, an inverted range and a failed assertion
are `none`.  A `ConcatRange` is the list of its elements (see C47 for the class itself).
-/
import Verif.Geom.Model

namespace Walnut.Mono
open Walnut.Geom

/-- The elements of an iterator range (`ConcatRange::Append`, concat_range.h) (concat_range.h 35-43). -/
def seg? (vs : List HP3) (i j : Nat) : Option (List HP3) :=
  if i ≤ j ∧ j ≤ vs.length then some ((vs.take j).drop i) else none

/-- `--it`.  C++ semantics, for monotone_range.h 186-242. -/
def dec? (i : Nat) : Option Nat := if i = 0 then none else some (i - 1)

/-- The loop shared by the four `Follow...` functions: the number of vertices accepted, each
of which is tested against the one accepted before (monotone_range.h 186-242). -/
def runWhile (p : HP3 → HP3 → Bool) : HP3 → List HP3 → Option Nat
  | _, [] => none
  | prev, x :: r => if p prev x then (runWhile p x r).map (· + 1) else some 0

/-- `GetDir` (monotone_range.h 163-183) on the vertices of the range: the direction and the
number of vertices skipped. -/
def getDir (mono : Fin 3) (prev : HP3) : List HP3 → Int × Nat
  | [] => (0, 0)
  | x :: r =>
    if x.isEquivalentComponent mono prev then
      let q := getDir mono prev r
      (q.1, q.2 + 1)
    else (x.compareComponent mono prev, 0)

/-- `FollowDirReverse` (monotone_range.h 185-199). -/
def followDirReverse (vs : List HP3) (mono : Fin 3) (dir : Int) (next : HP3) (e : Nat) : Option Nat :=
  (runWhile (fun next x => decide (0 ≤ next.compareComponent mono x * dir)) next (vs.take (e + 1)).reverse).map
    fun c => e - c + 1

/-- `FollowDir` (monotone_range.h 201-210). -/
def followDir (vs : List HP3) (mono : Fin 3) (dir : Int) (prev : HP3) (b : Nat) : Option Nat :=
  (runWhile (fun prev x => decide (0 ≤ x.compareComponent mono prev * dir)) prev (vs.drop b)).map (b + ·)

/-- `FollowDirUpTo` (monotone_range.h 212-223). -/
def followDirUpTo (vs : List HP3) (mono : Fin 3) (dir : Int) (prev : HP3) (b : Nat) (upTo : HP3) : Option Nat :=
  (runWhile (fun prev x => decide (0 < upTo.compareComponent mono x * dir) &&
    decide (0 ≤ x.compareComponent mono prev * dir)) prev (vs.drop b)).map (b + ·)

/-- `FollowDirUpToReverse` (monotone_range.h 225-240). -/
def followDirUpToReverse (vs : List HP3) (mono : Fin 3) (dir : Int) (next : HP3) (e : Nat) (upTo : HP3) :
    Option Nat :=
  (runWhile (fun next x => decide (0 ≤ next.compareComponent mono x * dir) &&
    decide (0 < x.compareComponent mono upTo * dir)) next (vs.take (e + 1)).reverse).map fun c => e - c + 1

/-- `chain_dir_`, `chain1_`, `chain2_` (monotone_range.h 146-158) and the values of
`remaining_begin` and `remaining_end` after `Build`. -/
structure MRange where
  dir : Int
  chain1 : List HP3
  chain2 : List HP3
  first : Nat
  last : Nat
deriving DecidableEq

/-- The vertices at the end equivalent to the last accepted one (monotone_range.h 359-366):
the new `remaining_end`. -/
def skipBack (vs : List HP3) (mono : Fin 3) (lastAccepted : HP3) (b e : Nat) : Option Nat :=
  if b = e then some e else do
    let e' ← dec? e
    -- the vertices after `remaining_begin` and before `remaining_end`, from the back
    let rest ← seg? vs (b + 1) (e' + 1)
    return e' - (rest.reverse.takeWhile fun x => lastAccepted.isEquivalentComponent mono x).length + 1

/-- Steps 2 to 5 of `Build` (monotone_range.h 290-373).  `rb` and `re` are the range passed
in, `rb1` is `remaining_begin` after step 1. -/
def rangeSteps (vs : List HP3) (mono : Fin 3) (dir : Int) (rb re rb1 : Nat) : Option MRange := do
  let e0 ← dec? re
  -- step 2
  let next ← vs[e0]?
  let e1 ← dec? e0
  let e2 ← followDirReverse vs mono dir next e1
  if e2 = rb1 ∨ e2 = re then none else
  let c1a ← seg? vs e2 re
  -- step 3
  let prev ← vs[rb1]?
  let b3 ← followDir vs mono dir prev (rb1 + 1)
  if b3 = rb then none else
  let c1b ← seg? vs rb b3
  -- step 4
  let m ← dec? b3
  let prev ← vs[m]?
  let upTo ← vs[e2]?
  let b4 ← followDirUpTo vs mono (-dir) prev b3 upTo
  if b4 = m then none else
  let mid ← seg? vs b4 e2
  let b5 := b4 + (mid.takeWhile fun x => x.isEquivalentComponent mono upTo).length
  let c2a ← seg? vs m b5
  -- step 5
  let e3 ← dec? e2
  let la ← dec? b5
  let lastAccepted ← vs[la]?
  let e4 ← followDirUpToReverse vs mono (-dir) upTo e3 lastAccepted
  let e6 ← skipBack vs mono lastAccepted b5 e4
  let c2b ← seg? vs e6 (e2 + 1)
  if b5 = e6 then return ⟨dir, c1a ++ c1b, c2a ++ c2b, b5, e6⟩
  else
    let b7 ← dec? b5
    return ⟨dir, c1a ++ c1b, c2a ++ c2b, b7, e6 + 1⟩

/-- `Build` (monotone_range.h 242-374) on the range from `rb` to `re`. -/
def monotoneRange (vs : List HP3) (mono : Fin 3) (rb re : Nat) : Option MRange :=
  if rb = re then some ⟨0, [], [], rb, re⟩ else do
  let e0 ← dec? re
  let prev ← vs[e0]?
  let rest ← seg? vs rb e0
  let d := getDir mono prev rest
  if d.1 = 0 then
    -- all vertices have the same component
    let c1 ← seg? vs rb re
    let c2a ← seg? vs e0 re
    if e0 ≠ rb then
      let c2b ← seg? vs rb (rb + 1)
      return ⟨0, c1, c2a ++ c2b, rb + d.2, e0⟩
    else return ⟨0, c1, c2a, rb + d.2, e0⟩
  else rangeSteps vs mono d.1 rb re (rb + d.2)

/-- `GetChains` (monotone_range.h 376-393). -/
def MRange.chains (r : MRange) : List HP3 × List HP3 :=
  if 0 ≤ r.dir then (r.chain1, r.chain2.reverse) else (r.chain2, r.chain1.reverse)

end Walnut.Mono
