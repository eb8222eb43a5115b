/-
Model of `ConcatRange` and its iterator (concat_range.h).

An input iterator is a container and an index, or `none` for a value-initialised
iterator.  `none` results are uses of an invalid iterator or accesses past the end of
`ranges_`.
-/

namespace Walnut.Util

/-- An iterator into a container.  An argument of the template of concat_range.h 138. -/
structure InIt where
  c : Nat
  i : Nat
deriving DecidableEq, Repr

/-- `InputIterator`.  An argument of the template of concat_range.h 138. -/
abbrev Pos := Option InIt

/-- An entry of `ranges_` (concat_range.h 138). -/
structure CRange where
  first : Pos
  second : Pos
deriving DecidableEq, Repr

/-- A value-initialised entry, used as the terminator (concat_range.h 42 and 135-138). -/
def CRange.term : CRange := ⟨none, none⟩

/-- `ConcatRange::ranges_` (concat_range.h 138). -/
abbrev CRanges := List CRange

/-- `ConcatRangeIteratorHelper` (concat_range.h 142-294); `r` is the index of
`range_pos_` in `ranges_`. -/
structure CIt where
  r : Nat
  pos : Pos
deriving DecidableEq, Repr

/-- `ConcatRange()` (concat_range.h 33) and `Clear` (80-84). -/
def CRanges.new : CRanges := [.term]

/-- `Append(InputIterator, InputIterator)` (concat_range.h 35-43). -/
def append (rs : CRanges) (s e : Pos) : CRanges :=
  if s = e then rs else rs.dropLast ++ [⟨s, e⟩] ++ [.term]

/-- `AdvanceRange` (concat_range.h 285-289). -/
def advanceRange (rs : CRanges) (it : CIt) : Option CIt :=
  match rs[it.r + 1]? with
  | none => none
  | some R => some ⟨it.r + 1, R.first⟩

/-- `range_end` (concat_range.h 280-282). -/
def rangeEnd (rs : CRanges) (it : CIt) : Option Pos := (rs[it.r]?).map CRange.second

/-- `range_begin` (concat_range.h 276-278). -/
def rangeBegin (rs : CRanges) (it : CIt) : Option Pos := (rs[it.r]?).map CRange.first

/-- The loop and the final test of `Append(const_iterator, const_iterator)`
(concat_range.h 49-56): the entries added.  `o` are the ranges of the other
`ConcatRange`; iterators into the range itself are invalidated by the call and not
modelled. -/
def appendedRanges (o : CRanges) : Nat → CIt → CIt → Option (List CRange)
  | 0, _, _ => none
  | fuel + 1, s, e =>
    if s.r ≠ e.r then
      match rangeEnd o s with
      | none => none
      | some se =>
        match advanceRange o s with
        | none => none
        | some s' => (appendedRanges o fuel s' e).map fun l => ⟨s.pos, se⟩ :: l
    else if s.pos ≠ e.pos then some [⟨s.pos, e.pos⟩]
    else some []

/-- `Append(const_iterator, const_iterator)` (concat_range.h 45-60).  The loop ends
after at most `o.length` steps or runs past the end of `o`. -/
def appendIt (rs o : CRanges) (s e : CIt) : Option CRanges :=
  (appendedRanges o (o.length + 1) s e).map fun l => rs.dropLast ++ l ++ [.term]

/-- `Prepend(InputIterator, InputIterator)` (concat_range.h 62-66). -/
def prepend (rs : CRanges) (s e : Pos) : CRanges := if s = e then rs else ⟨s, e⟩ :: rs

/-- `Prepend(const_iterator, const_iterator)` (concat_range.h 68-78). -/
def prependIt (rs o : CRanges) (s e : CIt) : Option CRanges :=
  (appendIt rs o s e).map fun rs' =>
    let body := rs'.dropLast
    let n := rs'.length - rs.length
    -- std::rotate(begin, begin + n, end - 1)
    body.drop n ++ body.take n ++ rs'.drop (rs'.length - 1)

/-- `begin` (concat_range.h 86-96). -/
def cbegin (rs : CRanges) : Option CIt := (rs[0]?).map fun R => ⟨0, R.first⟩

/-- `end` (concat_range.h 98-108). -/
def cend (rs : CRanges) : Option CIt :=
  if rs.length = 0 then none else (rs[rs.length - 1]?).map fun R => ⟨rs.length - 1, R.first⟩

/-- `operator++` (concat_range.h 203-209). -/
def inc (rs : CRanges) (it : CIt) : Option CIt :=
  match it.pos with
  | none => none
  | some p =>
    let it := { it with pos := some ⟨p.c, p.i + 1⟩ }
    match rangeEnd rs it with
    | none => none
    | some e => if it.pos = e then advanceRange rs it else some it

/-- `operator--` (concat_range.h 252-259). -/
def dec (rs : CRanges) (it : CIt) : Option CIt :=
  match rangeBegin rs it with
  | none => none
  | some b =>
    let it? : Option CIt :=
      if it.pos = b then
        if it.r = 0 then none
        else
          match rs[it.r - 1]? with
          | none => none
          | some R => some ⟨it.r - 1, R.second⟩
      else some it
    match it? with
    | none => none
    | some it =>
      match it.pos with
      | none => none
      | some p => if p.i = 0 then none else some { it with pos := some ⟨p.c, p.i - 1⟩ }

/-- `e - s` of two input iterators.  C++ semantics, for concat_range.h 225. -/
def itDiff (e s : Pos) : Option Nat :=
  match e, s with
  | none, none => some 0
  | some e, some s => if e.c = s.c ∧ s.i ≤ e.i then some (e.i - s.i) else none
  | _, _ => none

/-- `operator+` (concat_range.h 222-231).  The loop leaves `ranges_` after at most
`rs.length` steps. -/
def plusLoop (rs : CRanges) : Nat → CIt → Nat → Option CIt
  | 0, _, _ => none
  | fuel + 1, it, n =>
    match rangeEnd rs it with
    | none => none
    | some e =>
      match itDiff e it.pos with
      | none => none
      | some size =>
        if n < size then some it
        else
          match advanceRange rs it with
          | none => none
          | some it' => plusLoop rs fuel it' (n - size)

/-- `operator+` (concat_range.h 222-231).  Every round but the last goes to the next entry, so that the fuel is enough. -/
def plus (rs : CRanges) (it : CIt) (n : Nat) : Option CIt := plusLoop rs (rs.length + 1) it n

/-- `operator*` (concat_range.h 198-200). -/
def cderef {α : Type} (mem : Nat → List α) (it : CIt) : Option α :=
  match it.pos with
  | none => none
  | some p => (mem p.c)[p.i]?

end Walnut.Util
