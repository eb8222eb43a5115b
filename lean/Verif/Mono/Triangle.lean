/-
The polygon factory on the three vertices of a triangle.
-/
import Verif.Props.Factory
import Verif.Props.Rational

namespace Walnut.Mono
open Walnut.Geom Walnut.Props

theorem compare_values {a b : HP3} (ha : 0 < a.w) (hb : 0 < b.w) (i : Fin 3) :
    a.pt i < b.pt i ∧ a.compareComponent i b = -1 ∧ b.compareComponent i a = 1 ∧ a.isEquivalentComponent i b = false ∧ b.isEquivalentComponent i a = false ∨
    a.pt i = b.pt i ∧ a.compareComponent i b = 0 ∧ b.compareComponent i a = 0 ∧ a.isEquivalentComponent i b = true ∧ b.isEquivalentComponent i a = true ∨
    b.pt i < a.pt i ∧ a.compareComponent i b = 1 ∧ b.compareComponent i a = -1 ∧ a.isEquivalentComponent i b = false ∧ b.isEquivalentComponent i a = false := by
  have val : ∀ x y : HP3, x.compareComponent i y = -1 ∨ x.compareComponent i y = 0 ∨ x.compareComponent i y = 1 := by
    intro x y
    unfold HP3.compareComponent Geom.cmp absMult2
    have : ∀ k : Int, k.sign = -1 ∨ k.sign = 0 ∨ k.sign = 1 := fun k => by rcases lt_trichotomy k 0 with h | h | h <;> simp [Int.sign_eq_neg_one_of_neg, Int.sign_eq_one_of_pos, h]
    rcases this (x.v.comp i * y.w - y.v.comp i * x.w) with e | e | e <;> rw [e] <;> split_ifs <;> simp
  obtain ⟨p1, p2, p3, -, p5⟩ := C16_compare_component a b i (by omega) (by omega)
  obtain ⟨q1, q2, q3, -, q5⟩ := C16_compare_component b a i (by omega) (by omega)
  rcases lt_trichotomy (a.pt i) (b.pt i) with h | h | h
  · left
    have e1 := p1.2 h
    have e2 := q3.2 h
    refine ⟨h, ?_, ?_, ?_, ?_⟩
    · rcases val a b with e | e | e <;> omega
    · rcases val b a with e | e | e <;> omega
    · exact Bool.eq_false_iff.2 fun hc => h.ne (p5.1 hc)
    · exact Bool.eq_false_iff.2 fun hc => h.ne' (q5.1 hc)
  · right; left
    exact ⟨h, p2.2 h, q2.2 h.symm, p5.2 h, q5.2 h.symm⟩
  · right; right
    have e1 := p3.2 h
    have e2 := q1.2 h
    refine ⟨h, ?_, ?_, ?_, ?_⟩
    · rcases val a b with e | e | e <;> omega
    · rcases val b a with e | e | e <;> omega
    · exact Bool.eq_false_iff.2 fun hc => h.ne' (p5.1 hc)
    · exact Bool.eq_false_iff.2 fun hc => h.ne (q5.1 hc)

/-- The three vertices are a rotation of `a`, `b`, `c`. -/
def Rotation3 (a b c x y z : HP3) : Prop := (x = a ∧ y = b ∧ z = c) ∨ (x = b ∧ y = c ∧ z = a) ∨ (x = c ∧ y = a ∧ z = b)

/-- The range is used up, and its chains are those of a triangle whose lowest vertex is `x` and whose highest vertex is `z`. -/
def Chains3 (mono : Fin 3) (a b c : HP3) (m : MRange) (x y z : HP3) : Prop :=
  m.first = m.last ∧ y.pt mono ≤ z.pt mono ∧
    (m.chains = ([x, y, z], [x, z]) ∧ Rotation3 a b c x y z ∨ m.chains = ([x, z], [x, y, z]) ∧ Rotation3 a b c x z y)

theorem self_component {a : HP3} (ha : 0 < a.w) (i : Fin 3) : a.compareComponent i a = 0 ∧ a.isEquivalentComponent i a = true := by
  obtain ⟨-, p2, -, -, p5⟩ := C16_compare_component a a i (by omega) (by omega)
  exact ⟨p2.2 rfl, p5.2 rfl⟩

theorem range_1 {a b c : HP3} {mono : Fin 3} {dir : Int} (hd : dir ≠ 0) (hg : getDir mono c [a, b] = (dir, 0))
    (s2 : followDirReverse [a, b, c] mono dir c 1 = some 2) (s3 : followDir [a, b, c] mono dir a 1 = some 2)
    (s4 : followDirUpTo [a, b, c] mono (-dir) b 2 c = some 2)
    (s5 : followDirUpToReverse [a, b, c] mono (-dir) c 1 b = some 2) :
    monotoneRange [a, b, c] mono 0 3 = some ⟨dir, [c, a, b], [b, c], 2, 2⟩ := by
  have start : monotoneRange [a, b, c] mono 0 3 = if (getDir mono c [a, b]).1 = 0 then some ⟨0, [a, b, c], [c] ++ [a], 0 + (getDir mono c [a, b]).2, 2⟩
      else rangeSteps [a, b, c] mono (getDir mono c [a, b]).1 0 3 (0 + (getDir mono c [a, b]).2) := rfl
  rw [start, hg, if_neg hd]
  unfold rangeSteps
  refine Option.bind_eq_some_iff.2 ⟨2, rfl, ?_⟩
  refine Option.bind_eq_some_iff.2 ⟨c, rfl, ?_⟩
  refine Option.bind_eq_some_iff.2 ⟨1, rfl, ?_⟩
  refine Option.bind_eq_some_iff.2 ⟨2, s2, ?_⟩
  refine (if_neg (by simp)).trans ?_
  refine Option.bind_eq_some_iff.2 ⟨_, rfl, ?_⟩
  refine Option.bind_eq_some_iff.2 ⟨a, rfl, ?_⟩
  refine Option.bind_eq_some_iff.2 ⟨2, s3, ?_⟩
  refine (if_neg (by simp)).trans ?_
  refine Option.bind_eq_some_iff.2 ⟨_, rfl, ?_⟩
  refine Option.bind_eq_some_iff.2 ⟨1, rfl, ?_⟩
  refine Option.bind_eq_some_iff.2 ⟨b, rfl, ?_⟩
  refine Option.bind_eq_some_iff.2 ⟨c, rfl, ?_⟩
  refine Option.bind_eq_some_iff.2 ⟨2, s4, ?_⟩
  refine (if_neg (by simp)).trans ?_
  refine Option.bind_eq_some_iff.2 ⟨_, rfl, ?_⟩
  refine Option.bind_eq_some_iff.2 ⟨_, rfl, ?_⟩
  refine Option.bind_eq_some_iff.2 ⟨1, rfl, ?_⟩
  refine Option.bind_eq_some_iff.2 ⟨1, rfl, ?_⟩
  refine Option.bind_eq_some_iff.2 ⟨b, rfl, ?_⟩
  refine Option.bind_eq_some_iff.2 ⟨2, s5, ?_⟩
  refine Option.bind_eq_some_iff.2 ⟨2, rfl, ?_⟩
  rfl

theorem range_2 {a b c : HP3} {mono : Fin 3} {dir : Int} (hd : dir ≠ 0) (hg : getDir mono c [a, b] = (dir, 1))
    (s2 : followDirReverse [a, b, c] mono dir c 1 = some 2) (s3 : followDir [a, b, c] mono dir b 2 = some 2)
    (s4 : followDirUpTo [a, b, c] mono (-dir) b 2 c = some 2)
    (s5 : followDirUpToReverse [a, b, c] mono (-dir) c 1 b = some 2) :
    monotoneRange [a, b, c] mono 0 3 = some ⟨dir, [c, a, b], [b, c], 2, 2⟩ := by
  have start : monotoneRange [a, b, c] mono 0 3 = if (getDir mono c [a, b]).1 = 0 then some ⟨0, [a, b, c], [c] ++ [a], 0 + (getDir mono c [a, b]).2, 2⟩
      else rangeSteps [a, b, c] mono (getDir mono c [a, b]).1 0 3 (0 + (getDir mono c [a, b]).2) := rfl
  rw [start, hg, if_neg hd]
  unfold rangeSteps
  refine Option.bind_eq_some_iff.2 ⟨2, rfl, ?_⟩
  refine Option.bind_eq_some_iff.2 ⟨c, rfl, ?_⟩
  refine Option.bind_eq_some_iff.2 ⟨1, rfl, ?_⟩
  refine Option.bind_eq_some_iff.2 ⟨2, s2, ?_⟩
  refine (if_neg (by simp)).trans ?_
  refine Option.bind_eq_some_iff.2 ⟨_, rfl, ?_⟩
  refine Option.bind_eq_some_iff.2 ⟨b, rfl, ?_⟩
  refine Option.bind_eq_some_iff.2 ⟨2, s3, ?_⟩
  refine (if_neg (by simp)).trans ?_
  refine Option.bind_eq_some_iff.2 ⟨_, rfl, ?_⟩
  refine Option.bind_eq_some_iff.2 ⟨1, rfl, ?_⟩
  refine Option.bind_eq_some_iff.2 ⟨b, rfl, ?_⟩
  refine Option.bind_eq_some_iff.2 ⟨c, rfl, ?_⟩
  refine Option.bind_eq_some_iff.2 ⟨2, s4, ?_⟩
  refine (if_neg (by simp)).trans ?_
  refine Option.bind_eq_some_iff.2 ⟨_, rfl, ?_⟩
  refine Option.bind_eq_some_iff.2 ⟨_, rfl, ?_⟩
  refine Option.bind_eq_some_iff.2 ⟨1, rfl, ?_⟩
  refine Option.bind_eq_some_iff.2 ⟨1, rfl, ?_⟩
  refine Option.bind_eq_some_iff.2 ⟨b, rfl, ?_⟩
  refine Option.bind_eq_some_iff.2 ⟨2, s5, ?_⟩
  refine Option.bind_eq_some_iff.2 ⟨2, rfl, ?_⟩
  rfl

theorem range_3 {a b c : HP3} {mono : Fin 3} {dir : Int} (hd : dir ≠ 0) (hg : getDir mono c [a, b] = (dir, 0))
    (s2 : followDirReverse [a, b, c] mono dir c 1 = some 1) (s3 : followDir [a, b, c] mono dir a 1 = some 1)
    (s4 : followDirUpTo [a, b, c] mono (-dir) a 1 b = some 1)
    (s5 : followDirUpToReverse [a, b, c] mono (-dir) b 0 a = some 1) :
    monotoneRange [a, b, c] mono 0 3 = some ⟨dir, [b, c, a], [a, b], 1, 1⟩ := by
  have start : monotoneRange [a, b, c] mono 0 3 = if (getDir mono c [a, b]).1 = 0 then some ⟨0, [a, b, c], [c] ++ [a], 0 + (getDir mono c [a, b]).2, 2⟩
      else rangeSteps [a, b, c] mono (getDir mono c [a, b]).1 0 3 (0 + (getDir mono c [a, b]).2) := rfl
  rw [start, hg, if_neg hd]
  unfold rangeSteps
  refine Option.bind_eq_some_iff.2 ⟨2, rfl, ?_⟩
  refine Option.bind_eq_some_iff.2 ⟨c, rfl, ?_⟩
  refine Option.bind_eq_some_iff.2 ⟨1, rfl, ?_⟩
  refine Option.bind_eq_some_iff.2 ⟨1, s2, ?_⟩
  refine (if_neg (by simp)).trans ?_
  refine Option.bind_eq_some_iff.2 ⟨_, rfl, ?_⟩
  refine Option.bind_eq_some_iff.2 ⟨a, rfl, ?_⟩
  refine Option.bind_eq_some_iff.2 ⟨1, s3, ?_⟩
  refine (if_neg (by simp)).trans ?_
  refine Option.bind_eq_some_iff.2 ⟨_, rfl, ?_⟩
  refine Option.bind_eq_some_iff.2 ⟨0, rfl, ?_⟩
  refine Option.bind_eq_some_iff.2 ⟨a, rfl, ?_⟩
  refine Option.bind_eq_some_iff.2 ⟨b, rfl, ?_⟩
  refine Option.bind_eq_some_iff.2 ⟨1, s4, ?_⟩
  refine (if_neg (by simp)).trans ?_
  refine Option.bind_eq_some_iff.2 ⟨_, rfl, ?_⟩
  refine Option.bind_eq_some_iff.2 ⟨_, rfl, ?_⟩
  refine Option.bind_eq_some_iff.2 ⟨0, rfl, ?_⟩
  refine Option.bind_eq_some_iff.2 ⟨0, rfl, ?_⟩
  refine Option.bind_eq_some_iff.2 ⟨a, rfl, ?_⟩
  refine Option.bind_eq_some_iff.2 ⟨1, s5, ?_⟩
  refine Option.bind_eq_some_iff.2 ⟨1, rfl, ?_⟩
  rfl

theorem range_4 {a b c : HP3} {mono : Fin 3} {dir : Int} (hd : dir ≠ 0) (hg : getDir mono c [a, b] = (dir, 0))
    (s2 : followDirReverse [a, b, c] mono dir c 1 = some 2) (s3 : followDir [a, b, c] mono dir a 1 = some 1)
    (s4 : followDirUpTo [a, b, c] mono (-dir) a 1 c = some 2)
    (s5 : followDirUpToReverse [a, b, c] mono (-dir) c 1 b = some 2) :
    monotoneRange [a, b, c] mono 0 3 = some ⟨dir, [c, a], [a, b, c], 2, 2⟩ := by
  have start : monotoneRange [a, b, c] mono 0 3 = if (getDir mono c [a, b]).1 = 0 then some ⟨0, [a, b, c], [c] ++ [a], 0 + (getDir mono c [a, b]).2, 2⟩
      else rangeSteps [a, b, c] mono (getDir mono c [a, b]).1 0 3 (0 + (getDir mono c [a, b]).2) := rfl
  rw [start, hg, if_neg hd]
  unfold rangeSteps
  refine Option.bind_eq_some_iff.2 ⟨2, rfl, ?_⟩
  refine Option.bind_eq_some_iff.2 ⟨c, rfl, ?_⟩
  refine Option.bind_eq_some_iff.2 ⟨1, rfl, ?_⟩
  refine Option.bind_eq_some_iff.2 ⟨2, s2, ?_⟩
  refine (if_neg (by simp)).trans ?_
  refine Option.bind_eq_some_iff.2 ⟨_, rfl, ?_⟩
  refine Option.bind_eq_some_iff.2 ⟨a, rfl, ?_⟩
  refine Option.bind_eq_some_iff.2 ⟨1, s3, ?_⟩
  refine (if_neg (by simp)).trans ?_
  refine Option.bind_eq_some_iff.2 ⟨_, rfl, ?_⟩
  refine Option.bind_eq_some_iff.2 ⟨0, rfl, ?_⟩
  refine Option.bind_eq_some_iff.2 ⟨a, rfl, ?_⟩
  refine Option.bind_eq_some_iff.2 ⟨c, rfl, ?_⟩
  refine Option.bind_eq_some_iff.2 ⟨2, s4, ?_⟩
  refine (if_neg (by simp)).trans ?_
  refine Option.bind_eq_some_iff.2 ⟨_, rfl, ?_⟩
  refine Option.bind_eq_some_iff.2 ⟨_, rfl, ?_⟩
  refine Option.bind_eq_some_iff.2 ⟨1, rfl, ?_⟩
  refine Option.bind_eq_some_iff.2 ⟨1, rfl, ?_⟩
  refine Option.bind_eq_some_iff.2 ⟨b, rfl, ?_⟩
  refine Option.bind_eq_some_iff.2 ⟨2, s5, ?_⟩
  refine Option.bind_eq_some_iff.2 ⟨2, rfl, ?_⟩
  rfl

theorem triangle_range {a b c : HP3} (ha : 0 < a.w) (hb : 0 < b.w) (hc : 0 < c.w) {mono : Fin 3} (hne : ¬ (a.pt mono = b.pt mono ∧ b.pt mono = c.pt mono)) :
    ∃ m x y z, monotoneRange [a, b, c] mono 0 3 = some m ∧ Chains3 mono a b c m x y z := by
  obtain ⟨a1, a2⟩ := self_component ha mono
  obtain ⟨b1, b2⟩ := self_component hb mono
  obtain ⟨c1, c2⟩ := self_component hc mono
  rcases compare_values ha hb mono with ⟨h1, p1, p2, p3, p4⟩ | ⟨h1, p1, p2, p3, p4⟩ | ⟨h1, p1, p2, p3, p4⟩ <;>
  rcases compare_values hb hc mono with ⟨h2, q1, q2, q3, q4⟩ | ⟨h2, q1, q2, q3, q4⟩ | ⟨h2, q1, q2, q3, q4⟩ <;>
  rcases compare_values ha hc mono with ⟨h3, r1, r2, r3, r4⟩ | ⟨h3, r1, r2, r3, r4⟩ | ⟨h3, r1, r2, r3, r4⟩
  · -- 012
    refine ⟨_, a, b, c, range_4 (dir := -1) (by decide) ?_ ?_ ?_ ?_ ?_, ⟨rfl, by linarith, ?_⟩⟩
    · simp [getDir, *]
    · simp [followDirReverse, runWhile, *]
    · simp [followDir, runWhile, *]
    · simp [followDirUpTo, runWhile, *]
    · simp [followDirUpToReverse, runWhile, *]
    · simp [MRange.chains, Rotation3]
  · exfalso; linarith
  · exfalso; linarith
  · -- 011
    refine ⟨_, a, c, b, range_3 (dir := -1) (by decide) ?_ ?_ ?_ ?_ ?_, ⟨rfl, by linarith, ?_⟩⟩
    · simp [getDir, *]
    · simp [followDirReverse, runWhile, *]
    · simp [followDir, runWhile, *]
    · simp [followDirUpTo, runWhile, *]
    · simp [followDirUpToReverse, runWhile, *]
    · simp [MRange.chains, Rotation3]
  · exfalso; linarith
  · exfalso; linarith
  · -- 021
    refine ⟨_, a, c, b, range_3 (dir := -1) (by decide) ?_ ?_ ?_ ?_ ?_, ⟨rfl, by linarith, ?_⟩⟩
    · simp [getDir, *]
    · simp [followDirReverse, runWhile, *]
    · simp [followDir, runWhile, *]
    · simp [followDirUpTo, runWhile, *]
    · simp [followDirUpToReverse, runWhile, *]
    · simp [MRange.chains, Rotation3]
  · -- 010
    refine ⟨_, c, a, b, range_2 (dir := 1) (by decide) ?_ ?_ ?_ ?_ ?_, ⟨rfl, by linarith, ?_⟩⟩
    · simp [getDir, *]
    · simp [followDirReverse, runWhile, *]
    · simp [followDir, runWhile, *]
    · simp [followDirUpTo, runWhile, *]
    · simp [followDirUpToReverse, runWhile, *]
    · simp [MRange.chains, Rotation3]
  · -- 120
    refine ⟨_, c, a, b, range_1 (dir := 1) (by decide) ?_ ?_ ?_ ?_ ?_, ⟨rfl, by linarith, ?_⟩⟩
    · simp [getDir, *]
    · simp [followDirReverse, runWhile, *]
    · simp [followDir, runWhile, *]
    · simp [followDirUpTo, runWhile, *]
    · simp [followDirUpToReverse, runWhile, *]
    · simp [MRange.chains, Rotation3]
  · -- 001
    refine ⟨_, b, a, c, range_1 (dir := -1) (by decide) ?_ ?_ ?_ ?_ ?_, ⟨rfl, by linarith, ?_⟩⟩
    · simp [getDir, *]
    · simp [followDirReverse, runWhile, *]
    · simp [followDir, runWhile, *]
    · simp [followDirUpTo, runWhile, *]
    · simp [followDirUpToReverse, runWhile, *]
    · simp [MRange.chains, Rotation3]
  · exfalso; linarith
  · exfalso; linarith
  · exfalso; linarith
  · exact absurd ⟨h1, h2⟩ hne
  · exfalso; linarith
  · exfalso; linarith
  · exfalso; linarith
  · -- 110
    refine ⟨_, c, a, b, range_1 (dir := 1) (by decide) ?_ ?_ ?_ ?_ ?_, ⟨rfl, by linarith, ?_⟩⟩
    · simp [getDir, *]
    · simp [followDirReverse, runWhile, *]
    · simp [followDir, runWhile, *]
    · simp [followDirUpTo, runWhile, *]
    · simp [followDirUpToReverse, runWhile, *]
    · simp [MRange.chains, Rotation3]
  · -- 102
    refine ⟨_, b, a, c, range_1 (dir := -1) (by decide) ?_ ?_ ?_ ?_ ?_, ⟨rfl, by linarith, ?_⟩⟩
    · simp [getDir, *]
    · simp [followDirReverse, runWhile, *]
    · simp [followDir, runWhile, *]
    · simp [followDirUpTo, runWhile, *]
    · simp [followDirUpToReverse, runWhile, *]
    · simp [MRange.chains, Rotation3]
  · -- 101
    refine ⟨_, b, a, c, range_2 (dir := -1) (by decide) ?_ ?_ ?_ ?_ ?_, ⟨rfl, by linarith, ?_⟩⟩
    · simp [getDir, *]
    · simp [followDirReverse, runWhile, *]
    · simp [followDir, runWhile, *]
    · simp [followDirUpTo, runWhile, *]
    · simp [followDirUpToReverse, runWhile, *]
    · simp [MRange.chains, Rotation3]
  · -- 201
    refine ⟨_, b, c, a, range_3 (dir := 1) (by decide) ?_ ?_ ?_ ?_ ?_, ⟨rfl, by linarith, ?_⟩⟩
    · simp [getDir, *]
    · simp [followDirReverse, runWhile, *]
    · simp [followDir, runWhile, *]
    · simp [followDirUpTo, runWhile, *]
    · simp [followDirUpToReverse, runWhile, *]
    · simp [MRange.chains, Rotation3]
  · exfalso; linarith
  · exfalso; linarith
  · -- 100
    refine ⟨_, b, c, a, range_3 (dir := 1) (by decide) ?_ ?_ ?_ ?_ ?_, ⟨rfl, by linarith, ?_⟩⟩
    · simp [getDir, *]
    · simp [followDirReverse, runWhile, *]
    · simp [followDir, runWhile, *]
    · simp [followDirUpTo, runWhile, *]
    · simp [followDirUpToReverse, runWhile, *]
    · simp [MRange.chains, Rotation3]
  · exfalso; linarith
  · exfalso; linarith
  · -- 210
    refine ⟨_, c, b, a, range_4 (dir := 1) (by decide) ?_ ?_ ?_ ?_ ?_, ⟨rfl, by linarith, ?_⟩⟩
    · simp [getDir, *]
    · simp [followDirReverse, runWhile, *]
    · simp [followDir, runWhile, *]
    · simp [followDirUpTo, runWhile, *]
    · simp [followDirUpToReverse, runWhile, *]
    · simp [MRange.chains, Rotation3]

theorem turnAt_rotate (drop : Fin 3) (p q r : Q3) : turnAt drop q r p = turnAt drop p q r := by
  simp only [turnAt]; ring

/-- The piece that is emitted for a triangle with two chains: the three vertices in the order of the cycle. -/
theorem orient_triangle {drop mono : Fin 3} {x y z : HP3} (hT : Tame drop [x, y, z]) (hle : y.pt mono ≤ z.pt mono) (ht : T drop x y z ≠ 0) :
    (∃ o, orientBuild drop mono [x, y, z] [x, z] = some [⟨o, [z, x, y]⟩] ∧ SameSign o (-T drop x y z)) ∧
    ∃ o, orientBuild drop mono [x, z] [x, y, z] = some [⟨o, [y, x, z]⟩] ∧ SameSign o (T drop x y z) := by
  have hx := hT.pos x (by simp)
  have hy := hT.pos y (by simp)
  have hz := hT.pos z (by simp)
  have hcmp : ¬ z.compareComponent mono y < 0 := by
    rw [(C16_compare_component z y mono (by omega) (by omega)).1]
    exact not_lt.2 hle
  have hxx : x.eq x = true := (hT.eq (by simp) (by simp)).2 rfl
  have tw1 := (hT.twist (a := x) (b := y) (c := z) (by simp) (by simp) (by simp)).1
  have tw2 := (hT.twist (a := x) (b := z) (c := y) (by simp) (by simp) (by simp)).1
  have tw3 := (hT.twist (a := x) (b := y) (c := z) (by simp) (by simp) (by simp)).2
  have tw4 := (hT.twist (a := y) (b := x) (c := z) (by simp) (by simp) (by simp)).2
  have e1 : T drop x z y = -T drop x y z := by simp only [T, turnAt]; ring
  have e2 : T drop y x z = -T drop x y z := by simp only [T, turnAt]; ring
  rw [e2] at tw4
  have d1 : decompose drop mono [x, y] [z] = some [⟨x.get2DTwistDirReduced drop y z, [y, x, z]⟩] := by
    simp [decompose, triangulate, hcmp, mainLoop, finishBottom, switchChains, switchTris, emitTriangles, emitTriangle, startPiece, DecState.verts]
  have d2 : decompose drop mono [x] [y, z] = some [⟨y.get2DTwistDirReduced drop x z, [z, x, y]⟩] := by
    simp [decompose, triangulate, mainLoop, finishBottom, switchChains, switchTris, emitTriangles, emitTriangle, startPiece, DecState.verts]
  have n1 : (x.get2DTwistDir drop y z).toInt ≠ 0 := fun e => ht (tw1.2.1.1 e)
  have n2 : (x.get2DTwistDir drop z y).toInt ≠ 0 := fun e => ht (by have := tw2.2.1.1 e; rw [e1] at this; linarith)
  constructor
  · by_cases h : (x.get2DTwistDir drop y z).toInt < 0
    · exact ⟨-(x.get2DTwistDirReduced drop y z), by simp [orientBuild, detect, hxx, n1, h, d1, emitRange], tw3.neg⟩
    · exact ⟨y.get2DTwistDirReduced drop x z, by simp [orientBuild, detect, hxx, n1, h, d2, emitRange], tw4⟩
  · by_cases h : (x.get2DTwistDir drop z y).toInt < 0
    · exact ⟨-(y.get2DTwistDirReduced drop x z), by simp [orientBuild, detect, hxx, n2, h, d2, emitRange], by simpa using tw4.neg⟩
    · exact ⟨x.get2DTwistDirReduced drop y z, by simp [orientBuild, detect, hxx, n2, h, d1, emitRange], tw3⟩

/-- The edges that `EmitOriented` makes of three vertices. -/
def triangleEdges (x y z : HP3) : List (HP3 × PL) := [(x, PL.ofHomoPoints x y), (y, PL.ofHomoPoints y z), (z, PL.ofHomoPoints z x)]

theorem emitEdges_triangle {x y z : HP3} (hx : 0 < x.w) (hy : 0 < y.w) (hz : 0 < z.w) (h1 : x.pt ≠ y.pt) (h2 : y.pt ≠ z.pt) (h3 : z.pt ≠ x.pt) :
    emitEdges x x [y, z] = triangleEdges x y z := by
  have v1 : (PL.ofHomoPoints x y).isValid = true := by
    by_contra hc; exact h1 ((line_valid (by omega) (by omega)).1.1 (by simpa using hc))
  have v2 : (PL.ofHomoPoints y z).isValid = true := by
    by_contra hc; exact h2 ((line_valid (by omega) (by omega)).1.1 (by simpa using hc))
  have v3 : (PL.ofHomoPoints z x).isValid = true := by
    by_contra hc; exact h3 ((line_valid (by omega) (by omega)).1.1 (by simpa using hc))
  simp [emitEdges, v1, v2, v3, triangleEdges]

/-- The normal of a plane with this distance function. -/
theorem normal_of_side {h : HS3} {k : ℚ} {a b c : Q3} (hs : ∀ q, h.side q = k * orient a b c q) (i : Fin 3) :
    (h.n.comp i : ℚ) = k * crossQ (subQ b a) (subQ c a) i := by
  have h0 := hs 0
  have h1 := hs fun j => if j = i then 1 else 0
  rw [HS3.side_eq] at h0 h1
  fin_cases i <;> simp [orient, dotQ, crossQ, subQ, V3.comp] at h0 h1 ⊢ <;> linear_combination h1 - h0

theorem aligned_rotate {a b c : Q3} (h : Aligned c a b) : Aligned a b c := by
  intro i
  have := h i
  fin_cases i <;> simp [crossQ, subQ] at this ⊢ <;> linear_combination this

theorem turnAt_eq_cross (drop : Fin 3) (a b c : Q3) : turnAt drop a b c = crossQ (subQ b a) (subQ c a) drop := by
  fin_cases drop <;> simp [turnAt, crossQ, subQ] <;> ring

theorem turnAt_flat {drop mono : Fin 3} (hm : mono ≠ drop) {a b c : Q3} (h1 : a mono = b mono) (h2 : b mono = c mono) : turnAt drop a b c = 0 := by
  fin_cases drop <;> fin_cases mono <;> simp_all [turnAt]

theorem monoOf_ne (drop : Fin 3) : monoOf drop ≠ drop := by
  fin_cases drop <;> simp [monoOf]

theorem T_rotate {drop : Fin 3} {a b c x y z : HP3} (h : Rotation3 a b c x y z) : T drop x y z = T drop a b c := by
  rcases h with ⟨rfl, rfl, rfl⟩ | ⟨rfl, rfl, rfl⟩ | ⟨rfl, rfl, rfl⟩ <;> simp only [T, turnAt] <;> ring

/-- The orientation of the projected triangle and that of the plane agree, so the plane is not flipped. -/
theorem same_orientation {o n : Int} {t k : ℚ} (ho : o = -1 ∨ o = 0 ∨ o = 1) (hs : SameSign o (-t)) (hk : 0 < k) (hn : (n : ℚ) = k * t) (ht : t ≠ 0) :
    o ≠ 0 ∧ (o.xor (-absMult n)).lor 1 = 1 := by
  have key : o = -absMult n ∧ (o = -1 ∨ o = 1) := by
    obtain ⟨s1, s2, s3⟩ := hs
    unfold absMult
    rcases lt_or_gt_of_ne ht with h | h
    · have : o = 1 := by have := s3.2 (by linarith); omega
      have hneg : n < 0 := by have : (n : ℚ) < 0 := by rw [hn]; exact mul_neg_of_pos_of_neg hk h
                              exact_mod_cast this
      subst this
      simp [hneg]
    · have : o = -1 := by have := s1.2 (by linarith); omega
      have hpos : ¬ n < 0 := by have : (0 : ℚ) < n := by rw [hn]; exact mul_pos hk h
                                have : 0 < n := by exact_mod_cast this
                                omega
      subst this
      simp [hpos]
  refine ⟨by omega, ?_⟩
  rw [flip_sign key.2 (absMult_sign n), if_pos key.1]

/-- The polygon is the triangle with these vertices: they are on its plane, its normal points to the side from
which they are counter-clockwise, and its edges are the lines through them. -/
structure IsTriangle (P : OutPoly) (a b c : HP3) : Prop where
  edges : ∃ x y z, Rotation3 a b c x y z ∧ P.edges = triangleEdges x y z
  normal : ∃ k : ℚ, 0 < k ∧ ∀ i, P.plane.n.q i = k * crossQ (subQ b.pt a.pt) (subQ c.pt a.pt) i
  side : P.plane.side a.pt = 0 ∧ P.plane.side b.pt = 0 ∧ P.plane.side c.pt = 0
  drop : P.plane.n.comp P.drop ≠ 0

theorem Rotation3.mem {a b c x y z : HP3} (h : Rotation3 a b c x y z) : ∀ v ∈ [x, y, z], v ∈ [a, b, c] := by
  rcases h with ⟨rfl, rfl, rfl⟩ | ⟨rfl, rfl, rfl⟩ | ⟨rfl, rfl, rfl⟩ <;> intro v hv <;> simp at hv ⊢ <;> tauto

/-- The factory makes exactly one polygon of the three vertices of a triangle: the triangle. -/
theorem factory_triangle {a b c : HP3} (hu : Usable [a, b, c]) (hna : ¬ Aligned a.pt b.pt c.pt) :
    ∃ P, IsTriangle P a b c ∧ ∀ out, FactoryBuild [a, b, c] out ↔ out = [P] := by
  have ha := (hu 0).pos a (by simp)
  have hb := (hu 0).pos b (by simp)
  have hc := (hu 0).pos c (by simp)
  obtain ⟨h, hh, ⟨k, hk, hs⟩, hv⟩ := valid_iff (p1 := c) (p2 := a) (p3 := b) (by omega) (by omega) (by omega) (by omega)
  have hval : planeValid h = true := by
    by_contra hc'
    exact hna (aligned_rotate (hv.1 (by simpa using hc')))
  have hpr : planarRange [a, b, c] 0 3 = some ⟨[a, b, c], 3, h, 2, 2⟩ := by
    simp [planarRange, dec?, seg?, planeLoop, hh, hval]
  obtain ⟨drop, hdrop⟩ : ∃ d, h.n.firstNonzeroDimension = some d := by
    cases e : h.n.firstNonzeroDimension with
    | some d => exact ⟨d, rfl⟩
    | none => rw [planeValid, first_none e] at hval; simp [V3.isZero] at hval
  have hd := Props.first_nonzero hdrop
  have hnorm : ∀ i, (h.n.comp i : ℚ) = k * crossQ (subQ b.pt a.pt) (subQ c.pt a.pt) i := by
    intro i
    rw [normal_of_side hs i]
    congr 1
    fin_cases i <;> simp [crossQ, subQ] <;> ring
  have hT : (h.n.comp drop : ℚ) = k * T drop a b c := by rw [hnorm, T, turnAt_eq_cross]
  have ht : T drop a b c ≠ 0 := by
    intro e
    rw [e, mul_zero] at hT
    exact hd (by exact_mod_cast hT)
  obtain ⟨m, x, y, z, hm, hfl, hle, hch⟩ := triangle_range ha hb hc (mono := monoOf drop) fun ⟨e1, e2⟩ => ht (turnAt_flat (monoOf_ne drop) e1 e2)
  -- the only piece, and its orientation
  have hpiece : ∃ o u v w, orientBuild drop (monoOf drop) m.chains.1 m.chains.2 = some [⟨o, [u, v, w]⟩] ∧ Rotation3 a b c u v w ∧ SameSign o (-T drop a b c) := by
    rcases hch with ⟨e, hr⟩ | ⟨e, hr⟩
    · have hmem := hr.mem
      have := T_rotate (drop := drop) hr
      obtain ⟨⟨o, ho, hs⟩, -⟩ := orient_triangle (drop := drop) ((hu drop).mono hmem) hle (by rw [this]; exact ht)
      refine ⟨o, z, x, y, by rw [e]; exact ho, ?_, by rw [← this]; exact hs⟩
      rcases hr with ⟨rfl, rfl, rfl⟩ | ⟨rfl, rfl, rfl⟩ | ⟨rfl, rfl, rfl⟩ <;> simp [Rotation3]
    · have hmem := hr.mem
      have := T_rotate (drop := drop) hr
      have e2 : T drop x z y = -T drop x y z := by simp only [T, turnAt]; ring
      obtain ⟨-, o, ho, hs⟩ := orient_triangle (drop := drop) (x := x) (y := y) (z := z) ((hu drop).mono fun v hv => hmem v (by simp at hv ⊢; tauto)) hle
        (fun hz => ht (by rw [← this, e2, hz, neg_zero]))
      refine ⟨o, y, x, z, by rw [e]; exact ho, ?_, by rw [← this, e2, neg_neg]; exact hs⟩
      rcases hr with ⟨rfl, rfl, rfl⟩ | ⟨rfl, rfl, rfl⟩ | ⟨rfl, rfl, rfl⟩ <;> simp [Rotation3]
  obtain ⟨o, u, v, w, hob, hrot, hsame⟩ := hpiece
  obtain ⟨hne0, hflip⟩ := same_orientation (orientBuild_sign hob ⟨o, [u, v, w]⟩ (by simp)) hsame hk hT ht
  have hmem := hrot.mem
  have hpos : ∀ v ∈ [a, b, c], 0 < v.w := (hu 0).pos
  have hdist : u.pt ≠ v.pt ∧ v.pt ≠ w.pt ∧ w.pt ≠ u.pt := by
    have e := T_rotate (drop := drop) hrot
    refine ⟨fun e' => ht ?_, fun e' => ht ?_, fun e' => ht ?_⟩ <;> rw [← e] <;> unfold T turnAt <;> rw [e'] <;> ring
  have hedges := emitEdges_triangle (hpos u (hmem u (by simp))) (hpos v (hmem v (by simp))) (hpos w (hmem w (by simp))) hdist.1 hdist.2.1 hdist.2.2
  have hplane : (⟨h.n.scale 1, h.d * 1⟩ : HS3) = h := by
    cases h with
    | mk n d => cases n; simp [V3.scale]
  have hstep : factoryStep h drop [a, b, c] 0 3 = some ([⟨h, drop, triangleEdges u v w⟩], m.first, m.last) := by
    rw [mul_one] at hplane
    simp [factoryStep, hm, hob, emitAll, emitOriented, hne0, hflip, hedges, hplane]
  have hall : ∀ q, h.side q = k * orient a.pt b.pt c.pt q := by
    intro q
    rw [hs q]
    simp only [orient, dotQ, crossQ_zero, crossQ_one, crossQ_two, subQ]; ring
  refine ⟨⟨h, drop, triangleEdges u v w⟩, ⟨⟨u, v, w, hrot, rfl⟩, ⟨k, hk, fun i => ?_⟩, ⟨?_, ?_, ?_⟩, hd⟩, fun out => ⟨fun hf => ?_, fun e => ?_⟩⟩
  · rw [← hnorm]; rfl
  · rw [hall]; simp [orient, dotQ, subQ]
  · rw [hall]; simp only [orient, dotQ, crossQ_zero, crossQ_one, crossQ_two, subQ]; ring
  · rw [hall]; simp only [orient, dotQ, crossQ_zero, crossQ_one, crossQ_two, subQ]; ring
  · cases hf with
    | step hne hp hb hr =>
      have : planarRange [a, b, c] 0 3 = some _ := hp
      rw [hpr] at this
      cases this
      simp only [PlaneBuild, hdrop] at hb
      cases hr with
      | step hne' => exact absurd rfl hne'
      | done =>
        generalize hl : [a, b, c].length = l at hb
        cases hb with
        | done => simp at hl
        | step hne1 hs1 hr1 =>
          rw [← hl, show [a, b, c].length = 3 from rfl, hstep] at hs1
          cases hs1
          rw [hfl] at hr1
          generalize m.last = q at hr1
          generalize hq : q = q' at hr1
          cases hr1 with
          | done => rfl
          | step hne2 => exact absurd rfl hne2
  · subst e
    have l1 : FactoryLoop h drop [a, b, c] m.first m.last [] := by rw [hfl]; exact .done _
    have l2 := FactoryLoop.step (by decide) hstep l1
    have l3 : PlaneBuild h [a, b, c] [⟨h, drop, triangleEdges u v w⟩] := by
      simp only [PlaneBuild, hdrop]; exact l2
    have := OuterLoop.step (vs := [a, b, c]) (i := 0) (j := 3) (by decide) hpr l3 (.done 2)
    exact this

end Walnut.Mono
