/-
Model of the storage of `BigIntWords` (big_int_words.h): inline first word, heap
blocks, and the special members that pass blocks around.

A word is `none` while it is uninitialised.  The address of a new block is chosen by
the allocator and is an argument.  A result is `none` when a null, dangling or
out-of-range pointer is used, a block is freed twice or an assertion fails.
`malloc` failure and overflow of the block size are not modelled.
-/
import Verif.BigInt.Word

namespace Walnut.Util

/-- A word; `none` is uninitialised memory (big_int_words.h 192-197 and 223-228). -/
abbrev W := Option Word

/-- `BigIntWords` (big_int_words.h 223-228); `moved` is not in the code, it records
that the object was moved from and not assigned since. -/
structure WObj where
  first : W
  extraSize : Nat
  extra : Option Nat
  moved : Bool
deriving DecidableEq

/-- Memory: heap blocks (`ExtraStorage`, big_int_words.h 192-197, whose capacity is
the length of the list) and objects. -/
structure WMem where
  blks : Nat → Option (List W)
  objs : Nat → Option WObj

namespace WMem

/-- The state before any constructor of big_int_words.h 24-60 ran. -/
def empty : WMem := ⟨fun _ => none, fun _ => none⟩

/-- Changes a heap block (big_int_words.h 192-209). -/
def setBlk (s : WMem) (b : Nat) (v : Option (List W)) : WMem :=
  { s with blks := fun x => if x = b then v else s.blks x }

/-- Changes the members of an object (big_int_words.h 223-228). -/
def setObj (s : WMem) (a : Nat) (v : Option WObj) : WMem :=
  { s with objs := fun x => if x = a then v else s.objs x }

/-- `AllocateExtra` (big_int_words.h 199-209). -/
def alloc (s : WMem) (n b : Nat) : Option (WMem × Option Nat) :=
  if n = 0 then some (s, none)
  else if (s.blks b).isSome then none
  else some (s.setBlk b (some (List.replicate n none)), some b)

/-- `FreeExtra` (big_int_words.h 216-221). -/
def free (s : WMem) (p : Option Nat) : Option WMem :=
  match p with
  | none => some s
  | some b => if (s.blks b).isSome then some (s.setBlk b none) else none

/-- `extra_capacity` (big_int_words.h 122-128). -/
def capacity (s : WMem) (p : Option Nat) : Option Nat :=
  match p with
  | none => some 0
  | some b => (s.blks b).map List.length

/-- `p[i]` (big_int_words.h 192-197). -/
def load (s : WMem) (p : Option Nat) (i : Nat) : Option W :=
  match p with
  | none => none
  | some b =>
    match s.blks b with
    | none => none
    | some l => l[i]?

/-- `p[i] = w` (big_int_words.h 192-197). -/
def store (s : WMem) (p : Option Nat) (i : Nat) (w : W) : Option WMem :=
  match p with
  | none => none
  | some b =>
    match s.blks b with
    | none => none
    | some l => if i < l.length then some (s.setBlk b (some (l.set i w))) else none

/-- `for (; i < i + n; ++i) dst[i] = src[i]` (big_int_words.h 41-43, 50-52, 61-63, 111-113, 148-150 and 164-166). -/
def copyLoop (s : WMem) (dst src : Option Nat) (i : Nat) : Nat → Option WMem
  | 0 => some s
  | n + 1 =>
    match s.load src i with
    | none => none
    | some w =>
      match s.store dst i w with
      | none => none
      | some s => copyLoop s dst src (i + 1) n

/-- `for (; i < i + n; ++i) dst[i] = w` (big_int_words.h 64-66). -/
def fillLoop (s : WMem) (dst : Option Nat) (w : W) (i : Nat) : Nat → Option WMem
  | 0 => some s
  | n + 1 =>
    match s.store dst i w with
    | none => none
    | some s => fillLoop s dst w (i + 1) n

end WMem

open WMem

/-- What a program does with containers of words (big_int_words.h 24-190). -/
inductive WOp where
  /-- `BigIntWords()` -/
  | new (a : Nat)
  /-- `BigIntWords(int size)` -/
  | newSize (a size blk : Nat)
  /-- `BigIntWords(BigIntWords&&)` -/
  | moveCtor (a b : Nat)
  /-- `BigIntWords(const BigIntWords& other, size_t used_words)`; the copy
  constructor is `used_words = other.size()` -/
  | copyUsed (a b used blk : Nat)
  /-- `BigIntWords(size_t used_words, size_t copy_words, const BigIntWords& from)` -/
  | copyExtend (a used copy b blk : Nat)
  /-- `~BigIntWords()` -/
  | destroy (a : Nat)
  /-- `Assign(other, used)`; copy assignment is `used = other.size()` -/
  | assign (a b used blk : Nat)
  /-- `push_back(word)` -/
  | pushBack (a : Nat) (w : Word) (blk : Nat)
  /-- `resize_without_copy(used_words)` -/
  | resizeNoCopy (a used blk : Nat)
  /-- `resize(used_words)` -/
  | resize (a used blk : Nat)
  /-- `resize(used_words, init)` -/
  | resizeInit (a used : Nat) (w : Word) (blk : Nat)
  /-- `operator=(BigIntWords&&)` -/
  | moveAssign (a b : Nat)
  /-- `a[i] = w` -/
  | write (a i : Nat) (w : Word)

/-- `resize_without_copy` (big_int_words.h 131-139). -/
def resizeNoCopyW (s : WMem) (a used blk : Nat) : Option WMem :=
  match s.objs a with
  | none => none
  | some A =>
    if used = 0 then none
    else
      match s.capacity A.extra with
      | none => none
      | some cap =>
        if cap < used - 1 then
          match s.free A.extra with
          | none => none
          | some s =>
            match s.alloc (used - 1) blk with
            | none => none
            | some (s, p) => some (s.setObj a (some { A with extra := p, extraSize := used - 1, moved := false }))
        else some (s.setObj a (some { A with extraSize := used - 1, moved := false }))

/-- The reallocation common to both `resize` functions (big_int_words.h 146-153,
162-169). -/
def growW (s : WMem) (a extraSize blk : Nat) : Option WMem :=
  match s.objs a with
  | none => none
  | some A =>
    match s.capacity A.extra with
    | none => none
    | some cap =>
      if cap < extraSize then
        match s.alloc extraSize blk with
        | none => none
        | some (s, p) =>
          match s.copyLoop p A.extra 0 A.extraSize with
          | none => none
          | some s =>
            match s.free A.extra with
            | none => none
            | some s => some (s.setObj a (some { A with extra := p }))
      else some s

/-- `resize` (big_int_words.h 143-155). -/
def resizeW (s : WMem) (a used blk : Nat) : Option WMem :=
  if used = 0 then none
  else
    match growW s a (used - 1) blk with
    | none => none
    | some s =>
      match s.objs a with
      | none => none
      | some A => some (s.setObj a (some { A with extraSize := used - 1 }))

/-- One operation (big_int_words.h 24-190). -/
def wstep (s : WMem) : WOp → Option WMem
  | .new a =>                                            -- 24, 223-228
    if (s.objs a).isSome then none else some (s.setObj a (some ⟨some 0, 0, none, false⟩))
  | .newSize a size blk =>                               -- 26-27
    if (s.objs a).isSome ∨ size = 0 then none
    else
      match s.alloc (size - 1) blk with
      | none => none
      | some (s, p) => some (s.setObj a (some ⟨some 0, size - 1, p, false⟩))
  | .moveCtor a b =>                                     -- 29-34
    match s.objs a, s.objs b with
    | none, some B =>
      some ((s.setObj a (some ⟨B.first, B.extraSize, B.extra, B.moved⟩)).setObj b
        (some { B with extra := none, moved := true }))
    | _, _ => none
  | .copyUsed a b used blk =>                            -- 36-53
    match s.objs a, s.objs b with
    | none, some B =>
      if used = 0 then none
      else
        match s.alloc (used - 1) blk with
        | none => none
        | some (s, p) =>
          match s.copyLoop p B.extra 0 (used - 1) with
          | none => none
          | some s => some (s.setObj a (some ⟨B.first, used - 1, p, false⟩))
    | _, _ => none
  | .copyExtend a used copy b blk =>                     -- 55-67
    match s.objs a, s.objs b with
    | none, some B =>
      if used = 0 ∨ copy = 0 then none
      else
        match s.alloc (used - 1) blk with
        | none => none
        | some (s, p) =>
          match s.copyLoop p B.extra 0 (copy - 1) with
          | none => none
          | some s =>
            match s.fillLoop p (some 0) (copy - 1) (used - 1 - (copy - 1)) with
            | none => none
            | some s => some (s.setObj a (some ⟨B.first, used - 1, p, false⟩))
    | _, _ => none
  | .destroy a =>                                        -- 69-71
    match s.objs a with
    | none => none
    | some A =>
      match s.free A.extra with
      | none => none
      | some s => some (s.setObj a none)
  | .assign a b used blk =>                              -- 107-114, 176-179
    match resizeNoCopyW s a used blk with
    | none => none
    | some s =>
      match s.objs a, s.objs b with
      | some A, some B =>
        let s := s.setObj a (some { A with first := B.first })
        s.copyLoop A.extra B.extra 0 (used - 1)
      | _, _ => none
  | .pushBack a w blk =>                                 -- 116-120
    match s.objs a with
    | none => none
    | some A =>
      match resizeW s a (A.extraSize + 1 + 1) blk with
      | none => none
      | some s =>
        match s.objs a with
        | none => none
        | some A' => s.store A'.extra A.extraSize (some w)
  | .resizeNoCopy a used blk => resizeNoCopyW s a used blk
  | .resize a used blk => resizeW s a used blk
  | .resizeInit a used w blk =>                          -- 159-174
    if used = 0 then none
    else
      match growW s a (used - 1) blk with
      | none => none
      | some s =>
        match s.objs a with
        | none => none
        | some A =>
          match s.fillLoop A.extra (some w) A.extraSize (used - 1 - A.extraSize) with
          | none => none
          | some s => some (s.setObj a (some { A with extraSize := max A.extraSize (used - 1) }))
  | .moveAssign a b =>                                   -- 181-188
    match s.objs a, s.objs b with
    | some A, some B =>
      let s := s.setObj b (some { B with extra := A.extra, moved := true })
      some (s.setObj a (some ⟨B.first, B.extraSize, B.extra, B.moved⟩))
    | _, _ => none
  | .write a i w =>                                      -- 98-105
    match s.objs a with
    | none => none
    | some A =>
      if A.extraSize + 1 ≤ i then none
      else if i = 0 then some (s.setObj a (some { A with first := some w }))
      else s.store A.extra (i - 1) (some w)

/-- `a[i]` (big_int_words.h 89-96). -/
def wread (s : WMem) (a i : Nat) : Option W :=
  match s.objs a with
  | none => none
  | some A =>
    if A.extraSize + 1 ≤ i then none
    else if i = 0 then some A.first
    else s.load A.extra (i - 1)

end Walnut.Util
