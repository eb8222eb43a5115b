/-
Property C92: conversion of integers to machine integers.  Also C22 for points with integer coordinates.
-/
import Verif.BigInt.Narrow
import Verif.Geom.PointMore
import Verif.Props.BigIntArith
import Verif.Props.Monotone

namespace Walnut.Props
open Walnut Walnut.BigInt

private theorem first_mod {a : List Word} {x : Int} (ha : Rep a x) : ((first a).toNat : Int) = x % 2 ^ 64 := by
  obtain ⟨hm, rfl⟩ := ha
  match a, hm.1 with
  | [w], _ =>
    rw [sint_singleton, BitVec.toInt_eq_toNat_cond]
    have := w.isLt
    simp only [first]
    split <;> omega
  | w :: w' :: r, _ =>
    rw [sint_cons _ (by simp)]
    have := w.isLt
    simp [first]
    omega

/-- C92: `low_uint64` is the remainder modulo `2^64`, between 0 and `2^64`, also for negative numbers. -/
theorem C92_low_uint64 {a : List Word} {x : Int} (ha : Rep a x) : ((lowUint64 a).toNat : Int) = x % 2 ^ 64 := first_mod ha

/-- C92: `low_uint32` is the remainder modulo `2^32`. -/
theorem C92_low_uint32 {a : List Word} {x : Int} (ha : Rep a x) : ((lowUint32 a).toNat : Int) = x % 2 ^ 32 := by
  have h := first_mod ha
  simp only [lowUint32, BitVec.truncate_eq_setWidth, BitVec.toNat_setWidth]
  push_cast
  rw [h]
  omega

/-- C92: `ToInt` is defined exactly for the values of `int`, and returns the value. -/
theorem C92_to_int {a : List Word} {x : Int} (ha : Rep a x) :
    ((toInt32 a).isSome ↔ -2 ^ 31 ≤ x ∧ x < 2 ^ 31) ∧ ∀ v, toInt32 a = some v → v.toInt = x := by
  by_cases hx : -2 ^ 63 ≤ x ∧ x < 2 ^ 63
  · have rep : Rep [BitVec.ofInt 64 x] x := by
      refine rep_of_canon (canon_singleton _) ?_
      rw [sint_singleton, BitVec.toInt_ofInt, Int.bmod_eq_of_le (by norm_num; omega) (by norm_num; omega)]
    have e := rep_unique ha rep
    have ht : (BitVec.ofInt 64 x).toInt = x := rep.2
    subst e
    simp only [toInt32, List.length_singleton, if_true, first, ht]
    by_cases hc : -2 ^ 31 ≤ x ∧ x ≤ 2 ^ 31 - 1
    · rw [if_pos hc]
      refine ⟨by simp; omega, ?_⟩
      rintro v hv
      cases hv
      have h := first_mod rep
      simp only [first] at h
      rw [BitVec.toInt_eq_toNat_bmod, BitVec.truncate_eq_setWidth, BitVec.toNat_setWidth]
      push_cast
      rw [h]
      unfold Int.bmod
      norm_num at hc ⊢
      split <;> omega
    · rw [if_neg hc]
      refine ⟨by simp; omega, by simp⟩
  · have hl : a.length ≠ 1 := by
      intro h1
      match a, h1 with
      | [w], _ =>
        have := ha.2
        rw [sint_singleton] at this
        have h2 := BitVec.toInt_lt (x := w)
        have h3 := BitVec.le_toInt (x := w)
        omega
    simp only [toInt32, if_neg hl]
    refine ⟨by simp; omega, by simp⟩

example : (lowUint64 [0#64, BitVec.allOnes 64]).toNat = (0 : Int) := by
  rw [C92_low_uint64 rep_neg_two64]; norm_num
example : ((lowUint32 [BitVec.intMax 64]).toNat : Int) = 2 ^ 32 - 1 := by
  rw [C92_low_uint32 rep_max]; norm_num
example : toInt32 [BitVec.intMin 64] = none := by
  have := (C92_to_int rep_min).1
  cases h : toInt32 [BitVec.intMin 64] with
  | none => rfl
  | some v => rw [h] at this; norm_num at this
example : ∃ v, toInt32 (ofInt32 (-5#32)) = some v ∧ v.toInt = -5 := by
  have h : Rep (ofInt32 (-5#32)) (-5) := rep_of_canon (by decide) (by decide)
  obtain ⟨v, hv⟩ := Option.isSome_iff_exists.mp ((C92_to_int h).1.mpr (by norm_num))
  exact ⟨v, hv, (C92_to_int h).2 v hv⟩

/-! ### C22 for points with integer coordinates -/

open Walnut.Geom

/-- C22: for points with integer coordinates `Get2DTwistDirReduced` is right without further conditions, and is 1, 0 or -1. -/
theorem C22_point (p p1 p3 : V3) (drop : Fin 3)
    (hl : (wordsOf ((HP3.ofPoint p).twistCross drop (HP3.ofPoint p1) (HP3.ofPoint p3))).length ≤ 2 ^ 63) :
    SameSign (p.get2DTwistDirReduced drop p1 p3) (turn drop p1.q p.q p3.q) ∧
    (p.get2DTwistDirReduced drop p1 p3 = 1 ∨ p.get2DTwistDirReduced drop p1 p3 = 0 ∨
      p.get2DTwistDirReduced drop p1 p3 = -1) := by
  have hq : ∀ v : V3, (HP3.ofPoint v).pt = v.q := by intro v; funext i; simp [HP3.pt, HP3.ofPoint, V3.q]
  have h := (C22_twist_partial (HP3.ofPoint p) (HP3.ofPoint p1) (HP3.ofPoint p3) drop (by simp [HP3.ofPoint])
    (by simp [HP3.ofPoint]) hl).2
  rw [hq, hq, hq] at h
  have e : p.get2DTwistDirReduced drop p1 p3 =
      (HP3.ofPoint p).get2DTwistDirReduced drop (HP3.ofPoint p1) (HP3.ofPoint p3) := by
    simp only [V3.get2DTwistDirReduced, HP3.get2DTwistDirReduced, (C48_points drop p p1 p3).1, gt_iff_lt]
  refine ⟨e ▸ h, ?_⟩
  unfold V3.get2DTwistDirReduced
  simp only
  split
  · simp
  · split <;> simp

/-- C22: coordinates of points with integer coordinates are compared as numbers. -/
theorem C22_point_components (a b : V3) (i : Fin 3) :
    SameSign (a.compareComponent i b) (a.q i - b.q i) ∧ (a.isEquivalentComponent i b = true ↔ a.q i = b.q i) := by
  simp only [SameSign, V3.compareComponent, V3.isEquivalentComponent, V3.q, cmp_neg_iff, cmp_zero_iff, cmp_pos_iff,
    decide_eq_true_eq, sub_neg, sub_eq_zero, sub_pos, Int.cast_lt, Int.cast_inj, and_self]

example : V3.compareComponent ⟨1, 5, 0⟩ 1 ⟨1, 7, 0⟩ < 0 :=
  (C22_point_components _ _ _).1.1.mpr (by norm_num [V3.q, V3.comp])

example : SameSign (V3.get2DTwistDirReduced ⟨0, 0, 0⟩ 2 ⟨1, 0, 0⟩ ⟨0, 1, 0⟩)
    (turn 2 (V3.q ⟨1, 0, 0⟩) (V3.q ⟨0, 0, 0⟩) (V3.q ⟨0, 1, 0⟩)) :=
  (C22_point ⟨0, 0, 0⟩ ⟨1, 0, 0⟩ ⟨0, 1, 0⟩ 2 (by decide +kernel)).1

/-- Seen from the origin, (0, 1) is counter-clockwise from (1, 0). -/
example : V3.get2DTwistDirReduced ⟨0, 0, 0⟩ 2 ⟨1, 0, 0⟩ ⟨0, 1, 0⟩ = 1 := by decide +kernel

end Walnut.Props
