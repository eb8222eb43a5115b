/-
Model of `TransformIterator` (transform_iterator.h), an iterator that applies a user
provided function to the elements of another iterator.

The input iterator is a position in an array; reading outside of the array is `none`.
The user provided function object is a value of an arbitrary type `F` with a call
operator `app` and a default constructed value `dflt`.  A pointer that is null in the
default constructed object, as in vtk_to_walnut_mesh.h 45-54, is an `app` that is `none`.
-/
import Mathlib.Data.Int.Basic

namespace Walnut.Util

/-- The types of the template arguments: the transformer and the elements (transform_iterator.h 12-26). -/
structure TransformKind (F A B : Type) where
  dflt : F
  app : F → A → Option B

/-- The members of `TransformIterator` (transform_iterator.h 139-140). -/
structure TransformIter (F : Type) where
  pos : Int
  transform : F

namespace TransformIter
variable {F A B : Type} (K : TransformKind F A B)

/-- `TransformIterator(input_iterator)` (transform_iterator.h 30-31): the transformer is
default constructed. -/
def ofInput (pos : Int) : TransformIter F := ⟨pos, K.dflt⟩

/-- The element the input iterator refers to.  C++ semantics, for transform_iterator.h 60-66. -/
def element (arr : List A) (pos : Int) : Option A := if 0 ≤ pos then arr[pos.toNat]? else none

/-- `operator*` and `operator->` (transform_iterator.h 60-66). -/
def deref (arr : List A) (it : TransformIter F) : Option B := (element arr it.pos).bind (K.app it.transform)

/-- `operator[]` (transform_iterator.h 108-110). -/
def index (arr : List A) (it : TransformIter F) (n : Int) : Option B := (element arr (it.pos + n)).bind (K.app it.transform)

/-- `operator++()` (transform_iterator.h 68-71). -/
def preInc (it : TransformIter F) : TransformIter F := { it with pos := it.pos + 1 }

/-- `operator--()` (transform_iterator.h 77-80). -/
def preDec (it : TransformIter F) : TransformIter F := { it with pos := it.pos - 1 }

/-- `operator+=` (transform_iterator.h 100-102). -/
def addAssign (it : TransformIter F) (n : Int) : TransformIter F := { it with pos := it.pos + n }

/-- `operator-=` (transform_iterator.h 104-106). -/
def subAssign (it : TransformIter F) (n : Int) : TransformIter F := { it with pos := it.pos - n }

/-- `operator++(int)` (transform_iterator.h 73-75): the returned iterator and this one
afterwards. -/
def postInc (it : TransformIter F) : TransformIter F × TransformIter F := (ofInput K it.pos, { it with pos := it.pos + 1 })

/-- `operator--(int)` (transform_iterator.h 82-84). -/
def postDec (it : TransformIter F) : TransformIter F × TransformIter F := (ofInput K it.pos, { it with pos := it.pos - 1 })

/-- `operator+` (transform_iterator.h 86-88). -/
def add (it : TransformIter F) (n : Int) : TransformIter F := ofInput K (it.pos + n)

/-- `operator-` with a number (transform_iterator.h 90-92). -/
def sub (it : TransformIter F) (n : Int) : TransformIter F := ofInput K (it.pos - n)

/-- `operator-` with an iterator (transform_iterator.h 94-98). -/
def dist (it jt : TransformIter F) : Int := it.pos - jt.pos

/-- `operator==` (transform_iterator.h 48-52). -/
def eq (it jt : TransformIter F) : Bool := decide (it.pos = jt.pos)

/-- `operator<` (transform_iterator.h 112-116). -/
def lt (it jt : TransformIter F) : Bool := decide (it.pos < jt.pos)

/-- `operator!=` (transform_iterator.h 54-58). -/
def ne (it jt : TransformIter F) : Bool := decide (it.pos ≠ jt.pos)

/-- `operator<=` (transform_iterator.h 118-122). -/
def le (it jt : TransformIter F) : Bool := decide (it.pos ≤ jt.pos)

/-- `operator>=` (transform_iterator.h 124-128). -/
def ge (it jt : TransformIter F) : Bool := decide (it.pos ≥ jt.pos)

/-- `operator>` (transform_iterator.h 130-134). -/
def gt (it jt : TransformIter F) : Bool := decide (it.pos > jt.pos)

/-- The converting constructor (transform_iterator.h 37-43), where the conversion of the input
iterator keeps its position. -/
def convert (it : TransformIter F) : TransformIter F := ⟨it.pos, it.transform⟩

end TransformIter

/-- The operators by which a program obtains one iterator from another (transform_iterator.h 68-107). -/
inductive IterOp
  | preInc
  | preDec
  | addAssign (n : Int)
  | subAssign (n : Int)
  | afterPostInc
  | afterPostDec
  | postInc
  | postDec
  | add (n : Int)
  | sub (n : Int)

/-- The iterator that an operator gives: for `it++` either the returned one (`postInc`)
or `it` itself (`afterPostInc`) (transform_iterator.h 68-107). -/
def IterOp.run {F A B : Type} (K : TransformKind F A B) : IterOp → TransformIter F → TransformIter F
  | .preInc, it => it.preInc
  | .preDec, it => it.preDec
  | .addAssign n, it => it.addAssign n
  | .subAssign n, it => it.subAssign n
  | .afterPostInc, it => (it.postInc K).2
  | .afterPostDec, it => (it.postDec K).2
  | .postInc, it => (it.postInc K).1
  | .postDec, it => (it.postDec K).1
  | .add n, it => it.add K n
  | .sub n, it => it.sub K n

/-- A sequence of operators, each applied to the iterator that the last one gave (transform_iterator.h 68-107). -/
def runIterOps {F A B : Type} (K : TransformKind F A B) (ops : List IterOp) (it : TransformIter F) : TransformIter F :=
  ops.foldl (fun i o => o.run K i) it

end Walnut.Util
