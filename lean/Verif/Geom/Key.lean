/-
Homogeneous points as keys of a hash table: `ReducedHomoPoint3Hasher` and `HomoPoint3StrictEq`
(homo_point3.h 244-273), and the hash of an array of three integers in `GetCentroid` (mesh.h 36-45).
These functions read the words of the integers, so the coordinates are lists of words here.
-/
import Verif.BigInt.CompareModel

namespace Walnut.Geom

/-- The coordinates of a `HomoPoint3` (homo_point3.h 240-241) as words. -/
structure KeyPoint where
  x : List Word
  y : List Word
  z : List Word
  w : List Word

namespace KeyPoint

/-- `ReducedHomoPoint3Hasher::operator()` (homo_point3.h 249-264); `size_t` has 64 bits. -/
def hash (p : KeyPoint) : BitVec 64 :=
  let hx := BigInt.getHash p.x
  let hy := BigInt.getHash p.y
  let hz := BigInt.getHash p.z
  let hw := BigInt.getHash p.w
  hx ^^^ ((hy <<< 1) ||| (hy >>> (64 - 1))) ^^^ ((hz <<< 2) ||| (hz >>> (64 - 2))) ^^^
    ((hw <<< 3) ||| (hw >>> (64 - 3)))

/-- `HomoPoint3StrictEq::operator()` (homo_point3.h 268-273). -/
def strictEq (a b : KeyPoint) : Bool :=
  BigInt.eq a.x b.x && BigInt.eq a.y b.y && BigInt.eq a.z b.z && BigInt.eq a.w b.w

end KeyPoint

/-- `HashArray::operator()` in `GetCentroid` (mesh.h 36-45), for the array of `a`, `b`, `c`. -/
def hashArray (a b c : List Word) : BitVec 64 :=
  let bHash := BigInt.getHash b
  let cHash := BigInt.getHash c
  BigInt.getHash a + ((bHash <<< 1) ||| (bHash >>> (64 - 1))) + ((cHash <<< 2) ||| (cHash >>> (64 - 2)))

end Walnut.Geom
