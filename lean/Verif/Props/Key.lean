/-
Property C91: homogeneous points as keys of a hash table (homo_point3.h 244-273).

`HoldsPoint k p` says that the words `k` are the shortest representations of the coordinates of `p`.
`HP3.pt p` is the rational point that `p` denotes (Verif.Geom.Spec).
-/
import Verif.Geom.Key
import Verif.Props.BigIntArith
import Verif.Props.Rational
import Verif.Repair.MapProof

namespace Walnut.Props
open Walnut Walnut.Geom

/-- The object with the words `k` holds the homogeneous point `p`. -/
def HoldsPoint (k : KeyPoint) (p : HP3) : Prop := Rep k.x p.v.x ∧ Rep k.y p.v.y ∧ Rep k.z p.v.z ∧ Rep k.w p.w

/-- Every homogeneous point is held by some words, so the hypotheses below can be met. -/
theorem every_point_is_held (p : HP3) : ∃ k, HoldsPoint k p := by
  obtain ⟨x, hx⟩ := exists_rep p.v.x
  obtain ⟨y, hy⟩ := exists_rep p.v.y
  obtain ⟨z, hz⟩ := exists_rep p.v.z
  obtain ⟨w, hw⟩ := exists_rep p.w
  exact ⟨⟨x, y, z, w⟩, hx, hy, hz, hw⟩

/-- C91: strict equality means that all four coordinates are the same integers. -/
theorem C91_strict_eq {a b : KeyPoint} {p q : HP3} (ha : HoldsPoint a p) (hb : HoldsPoint b q) :
    a.strictEq b = true ↔ p.v.x = q.v.x ∧ p.v.y = q.v.y ∧ p.v.z = q.v.z ∧ p.w = q.w := by
  obtain ⟨ax, ay, az, aw⟩ := ha
  obtain ⟨bx, by', bz, bw⟩ := hb
  simp only [KeyPoint.strictEq, Bool.and_eq_true, (C04_relations ax bx).2.2.2.2.1, (C04_relations ay by').2.2.2.2.1,
    (C04_relations az bz).2.2.2.2.1, (C04_relations aw bw).2.2.2.2.1, and_assoc]

/-- C91: hence it is an equivalence relation, as a hash table requires. -/
theorem C91_strict_equivalence {a b c : KeyPoint} {p q r : HP3} (ha : HoldsPoint a p) (hb : HoldsPoint b q) (hc : HoldsPoint c r) :
    a.strictEq a = true ∧ (a.strictEq b = true → b.strictEq a = true) ∧
    (a.strictEq b = true → b.strictEq c = true → a.strictEq c = true) := by
  rw [C91_strict_eq ha ha, C91_strict_eq ha hb, C91_strict_eq hb ha, C91_strict_eq hb hc, C91_strict_eq ha hc]
  refine ⟨⟨rfl, rfl, rfl, rfl⟩, ?_, ?_⟩
  · rintro ⟨h1, h2, h3, h4⟩; exact ⟨h1.symm, h2.symm, h3.symm, h4.symm⟩
  · rintro ⟨h1, h2, h3, h4⟩ ⟨k1, k2, k3, k4⟩
    exact ⟨h1.trans k1, h2.trans k2, h3.trans k3, h4.trans k4⟩

/-- C91: keys that compare equal have equal hashes. -/
theorem C91_hash {a b : KeyPoint} {p q : HP3} (ha : HoldsPoint a p) (hb : HoldsPoint b q) (h : a.strictEq b = true) :
    a.hash = b.hash := by
  obtain ⟨h1, h2, h3, h4⟩ := (C91_strict_eq ha hb).mp h
  simp only [KeyPoint.hash, C05_hash ha.1 hb.1 h1, C05_hash ha.2.1 hb.2.1 h2, C05_hash ha.2.2.1 hb.2.2.1 h3,
    C05_hash ha.2.2.2 hb.2.2.2 h4]

/-- C91: strictly equal points denote the same point. -/
theorem C91_strict_pt {a b : KeyPoint} {p q : HP3} (ha : HoldsPoint a p) (hb : HoldsPoint b q) (h : a.strictEq b = true) :
    p.pt = q.pt := by
  obtain ⟨h1, h2, h3, h4⟩ := (C91_strict_eq ha hb).mp h
  obtain ⟨⟨px, py, pz⟩, pw⟩ := p
  obtain ⟨⟨qx, qy, qz⟩, qw⟩ := q
  simp only at h1 h2 h3 h4
  rw [h1, h2, h3, h4]

/-- C91: the keys of two points after `Reduce` compare equal, and then have equal hashes, exactly when the points
themselves were the same point, whatever multiples of the coordinates they were given by. -/
theorem C91_reduced {a b : KeyPoint} {p q r s : HP3} (hp : p.w ≠ 0) (hq : q.w ≠ 0) (hr : p.reduce = some r)
    (hs : q.reduce = some s) (ha : HoldsPoint a r) (hb : HoldsPoint b s) :
    (a.strictEq b = true ↔ p.pt = q.pt) ∧ (p.pt = q.pt → a.hash = b.hash) := by
  obtain ⟨cr, er⟩ := Repair.reduce_canon hp hr
  obtain ⟨cs, es⟩ := Repair.reduce_canon hq hs
  have key : a.strictEq b = true ↔ p.pt = q.pt := by
    constructor
    · intro h
      rw [← er, ← es]
      exact C91_strict_pt ha hb h
    · intro h
      have := Repair.canon_unique cr cs (by rw [er, es, h])
      rw [C91_strict_eq ha hb, this]
      exact ⟨rfl, rfl, rfl, rfl⟩
  exact ⟨key, fun h => C91_hash ha hb (key.mpr h)⟩

/-- The words of (2^64, -2^64, -2^63) over 1. -/
private def keyBig : KeyPoint := ⟨[0#64, 1#64], [0#64, BitVec.allOnes 64], [BitVec.intMin 64], [1#64]⟩

private theorem rep_one : Rep [1#64] 1 := rep_of_canon (by decide) (by decide)
private theorem rep_two : Rep [2#64] 2 := rep_of_canon (by decide) (by decide)
private theorem rep_zero : Rep [0#64] 0 := rep_of_canon (by decide) (by decide)
private theorem rep_neg_one : Rep [BitVec.allOnes 64] (-1) := rep_of_canon (by decide) (by decide)

private theorem keyBig_holds : HoldsPoint keyBig ⟨⟨2 ^ 64, -2 ^ 64, -2 ^ 63⟩, 1⟩ :=
  ⟨rep_two64, rep_neg_two64, rep_min, rep_one⟩

example : keyBig.strictEq keyBig = true := (C91_strict_equivalence keyBig_holds keyBig_holds keyBig_holds).1

/-- Two points given by multiples of the same coordinates meet the hypotheses of `C91_reduced`. -/
example : ∃ (a b : KeyPoint) (r s : HP3), HP3.reduce ⟨⟨2, 4, 0⟩, 2⟩ = some r ∧ HP3.reduce ⟨⟨-3, -6, 0⟩, -3⟩ = some s ∧
    HoldsPoint a r ∧ HoldsPoint b s ∧ a.strictEq b = true ∧ a.hash = b.hash := by
  obtain ⟨r, hr⟩ := C61_point_reduce_defined ⟨⟨2, 4, 0⟩, 2⟩ (by decide) (by decide) (by decide) (by decide) (by decide)
  obtain ⟨s, hs⟩ := C61_point_reduce_defined ⟨⟨-3, -6, 0⟩, -3⟩ (by decide) (by decide) (by decide) (by decide) (by decide)
  obtain ⟨a, ha⟩ := every_point_is_held r
  obtain ⟨b, hb⟩ := every_point_is_held s
  have h := C91_reduced (by decide) (by decide) hr hs ha hb
  have e : HP3.pt ⟨⟨2, 4, 0⟩, 2⟩ = HP3.pt ⟨⟨-3, -6, 0⟩, -3⟩ := by
    rw [← C20_eq _ _ (by decide) (by decide)]; decide
  exact ⟨a, b, r, s, hr, hs, ha, hb, h.1.mpr e, h.2 e⟩

/-- C91: without `Reduce`, one and the same point has keys that compare unequal and have different hashes. -/
theorem C91_unreduced : ∃ (a b : KeyPoint) (p q : HP3), HoldsPoint a p ∧ HoldsPoint b q ∧ p.w ≠ 0 ∧ q.w ≠ 0 ∧ p.pt = q.pt ∧
    a.strictEq b = false ∧ a.hash ≠ b.hash := by
  refine ⟨⟨[1#64], [0#64], [0#64], [1#64]⟩, ⟨[2#64], [0#64], [0#64], [2#64]⟩, ⟨⟨1, 0, 0⟩, 1⟩, ⟨⟨2, 0, 0⟩, 2⟩,
    ⟨rep_one, rep_zero, rep_zero, rep_one⟩, ⟨rep_two, rep_zero, rep_zero, rep_two⟩, by decide, by decide, ?_, by decide,
    by decide⟩
  rw [← C20_eq _ _ (by decide) (by decide)]; decide

/-- C91: the comment on the hasher says that only points that are exactly equal have the same hash.  That is not so:
(1, -1, -1) and (-1, 0, -1) have the same hash. -/
theorem C91_only_equal_false : ∃ (a b : KeyPoint) (p q : HP3), HoldsPoint a p ∧ HoldsPoint b q ∧ 0 < p.w ∧ 0 < q.w ∧
    a.strictEq b = false ∧ p.pt ≠ q.pt ∧ a.hash = b.hash := by
  refine ⟨⟨[1#64], [BitVec.allOnes 64], [BitVec.allOnes 64], [1#64]⟩,
    ⟨[BitVec.allOnes 64], [0#64], [BitVec.allOnes 64], [1#64]⟩, ⟨⟨1, -1, -1⟩, 1⟩, ⟨⟨-1, 0, -1⟩, 1⟩,
    ⟨rep_one, rep_neg_one, rep_neg_one, rep_one⟩, ⟨rep_neg_one, rep_zero, rep_neg_one, rep_one⟩, by decide, by decide,
    by decide, ?_, by decide⟩
  rw [ne_eq, ← C20_eq _ _ (by decide) (by decide)]; decide

private theorem rot_injective {k : Nat} (h0 : 0 < k) (hk : k < 64) {h h' : BitVec 64}
    (e : (h <<< k) ||| (h >>> (64 - k)) = (h' <<< k) ||| (h' >>> (64 - k))) : h = h' := by
  apply BitVec.eq_of_getLsbD_eq
  intro i hi
  by_cases hc : i + k < 64
  · have := congrArg (fun v : BitVec 64 => v.getLsbD (i + k)) e
    have e1 : i + k - k = i := by omega
    have e2 : ∀ v : BitVec 64, v.getLsbD (64 - k + (i + k)) = false := fun v => BitVec.getLsbD_of_ge _ _ (by omega)
    rw [BitVec.getLsbD_eq_getElem hi, BitVec.getLsbD_eq_getElem hi]
    simpa [hc, e1, e2, show ¬ (i + k < k) by omega] using this
  · have := congrArg (fun v : BitVec 64 => v.getLsbD (i + k - 64)) e
    have e1 : 64 - k + (i + k - 64) = i := by omega
    simpa [e1, show i + k - 64 < k by omega, show i + k - 64 < 64 by omega] using this

private theorem getHash_word {a b : List Word} {x y : Int} (ha : Rep a x) (hb : Rep b y) (hx : -2 ^ 63 ≤ x ∧ x < 2 ^ 63)
    (hy : -2 ^ 63 ≤ y ∧ y < 2 ^ 63) (h : BigInt.getHash a = BigInt.getHash b) : x = y := by
  have rep : ∀ z : Int, -2 ^ 63 ≤ z ∧ z < 2 ^ 63 → Rep [BitVec.ofInt 64 z] z := by
    intro z hz
    refine rep_of_canon (canon_singleton _) ?_
    rw [sint_singleton, BitVec.toInt_ofInt, Int.bmod_eq_of_le (by norm_num; omega) (by norm_num; omega)]
  have ea := rep_unique ha (rep x hx)
  have eb := rep_unique hb (rep y hy)
  rw [ea, eb] at h
  have h' : BitVec.ofInt 64 x = BitVec.ofInt 64 y := by simpa [BigInt.getHash] using h
  rw [ea] at ha
  rw [eb, ← h'] at hb
  exact ha.2.symm.trans hb.2

/-- The four coordinates x, y, z, w. -/
def coord4 (p : HP3) : Fin 4 → Int := ![p.v.x, p.v.y, p.v.z, p.w]

/-- C91: the hash depends on all coordinates: if exactly one of them changes, between values of one word, the hash changes. -/
theorem C91_each_coordinate {a b : KeyPoint} {p q : HP3} (ha : HoldsPoint a p) (hb : HoldsPoint b q) (i : Fin 4)
    (same : ∀ j, j ≠ i → coord4 p j = coord4 q j) (diff : coord4 p i ≠ coord4 q i)
    (hp : -2 ^ 63 ≤ coord4 p i ∧ coord4 p i < 2 ^ 63) (hq : -2 ^ 63 ≤ coord4 q i ∧ coord4 q i < 2 ^ 63) :
    a.hash ≠ b.hash := by
  obtain ⟨ax, ay, az, aw⟩ := ha
  obtain ⟨bx, by', bz, bw⟩ := hb
  intro h
  simp only [KeyPoint.hash] at h
  have s0 := same 0; have s1 := same 1; have s2 := same 2; have s3 := same 3
  fin_cases i <;> simp [coord4] at s0 s1 s2 s3 diff hp hq
  · rw [C05_hash ay by' s1, C05_hash az bz s2, C05_hash aw bw s3, BitVec.xor_left_inj, BitVec.xor_left_inj,
      BitVec.xor_left_inj] at h
    exact diff (getHash_word ax bx hp hq h)
  · rw [C05_hash ax bx s0, C05_hash az bz s2, C05_hash aw bw s3, BitVec.xor_left_inj, BitVec.xor_left_inj,
      BitVec.xor_right_inj] at h
    exact diff (getHash_word ay by' hp hq (rot_injective (by decide) (by decide) h))
  · rw [C05_hash ax bx s0, C05_hash ay by' s1, C05_hash aw bw s3, BitVec.xor_left_inj, BitVec.xor_right_inj] at h
    exact diff (getHash_word az bz hp hq (rot_injective (by decide) (by decide) h))
  · rw [C05_hash ax bx s0, C05_hash ay by' s1, C05_hash az bz s2, BitVec.xor_right_inj] at h
    exact diff (getHash_word aw bw hp hq (rot_injective (by decide) (by decide) h))

/-- Halving the denominator of a point changes its hash. -/
example : KeyPoint.hash ⟨[0#64, 1#64], [0#64], [1#64], [2#64]⟩ ≠ KeyPoint.hash ⟨[0#64, 1#64], [0#64], [1#64], [1#64]⟩ :=
  C91_each_coordinate (p := ⟨⟨2 ^ 64, 0, 1⟩, 2⟩) (q := ⟨⟨2 ^ 64, 0, 1⟩, 1⟩) ⟨rep_two64, rep_zero, rep_one, rep_two⟩
    ⟨rep_two64, rep_zero, rep_one, rep_one⟩ 3 (by intro j hj; fin_cases j <;> simp_all [coord4]) (by simp [coord4])
    (by simp [coord4]) (by simp [coord4])

/-- C91: the hash of an array of three integers in `GetCentroid` depends only on their values. -/
theorem C91_array {a b c a' b' c' : List Word} {x y z : Int} (ha : Rep a x) (hb : Rep b y) (hc : Rep c z) (ha' : Rep a' x)
    (hb' : Rep b' y) (hc' : Rep c' z) : hashArray a b c = hashArray a' b' c' := by
  simp only [hashArray, C05_hash ha ha' rfl, C05_hash hb hb' rfl, C05_hash hc hc' rfl]

example : hashArray (BigInt.add [BitVec.intMin 64] [BitVec.intMin 64]) [1#64] [2#64] =
    hashArray [0#64, BitVec.allOnes 64] [1#64] [2#64] :=
  C91_array (by simpa using C01_add rep_min rep_min) rep_one rep_two (by simpa using rep_neg_two64) rep_one rep_two

end Walnut.Props
