/- What the search for the next planar range does to the plane builder. -/
import Verif.Repair.Mesh
import Verif.Repair.NudgeProof

namespace Walnut.Repair
open Walnut Walnut.Geom Walnut.Props

/-- Visits of vertices that are accepted. -/
inductive Steps (st : List VInfo) : Builder → List Nat → Builder → Prop
  | nil (b : Builder) : Steps st b [] b
  | free {b b1 b' : Builder} {i : Nat} {l : List Nat} {v : VInfo} (hv : st[i]? = some v) (hc : v.adjacent.length < 3)
    (hl : b.hasLargePlane = some (b1, false)) (h : Steps st (b1.addUnconstrained v.point) l b') : Steps st b (i :: l) b'
  | fixed {b b1 b' : Builder} {i : Nat} {l : List Nat} {v : VInfo} (hv : st[i]? = some v) (hc : ¬ v.adjacent.length < 3)
    (hl : b.tryAddConstrained v.point = some (b1, true)) (h : Steps st b1 l b') : Steps st b (i :: l) b'

/-- The visit of a vertex that is not accepted; the flag tells whether it was rejected. -/
inductive Stop (st : List VInfo) : Builder → Nat → Builder → Bool → Prop
  | large {b b' : Builder} {i : Nat} {v : VInfo} (hv : st[i]? = some v) (hc : v.adjacent.length < 3)
    (hl : b.hasLargePlane = some (b', true)) : Stop st b i b' false
  | reject {b b' : Builder} {i : Nat} {v : VInfo} (hv : st[i]? = some v) (hc : ¬ v.adjacent.length < 3)
    (hl : b.tryAddConstrained v.point = some (b', false)) : Stop st b i b' true

theorem frontLoop_spec {st : List VInfo} : ∀ (l : List Nat) {b b' : Builder} {acc rest : List Nat} {rej : Bool},
    frontLoop st b l = some (b', acc, rest, rej) →
    ∃ b1, Steps st b acc b1 ∧ l = acc ++ rest ∧
      ((rest = [] ∧ b' = b1 ∧ rej = false) ∨ ∃ i r, rest = i :: r ∧ Stop st b1 i b' rej) := by
  intro l
  induction l with
  | nil =>
    intro b b' acc rest rej h
    simp [frontLoop] at h
    obtain ⟨rfl, rfl, rfl, rfl⟩ := h
    exact ⟨b, .nil b, rfl, Or.inl ⟨rfl, rfl, rfl⟩⟩
  | cons i r ih =>
    intro b b' acc rest rej h
    simp only [frontLoop, Option.bind_eq_bind, Option.bind_eq_some_iff] at h
    obtain ⟨v, hv, h⟩ := h
    by_cases hc : v.adjacent.length < 3
    · have hca : v.canAddAdjacent = true := by simp [VInfo.canAddAdjacent, hc]
      simp only [hca, if_true] at h
      obtain ⟨⟨b1, large⟩, hl, h⟩ := Option.bind_eq_some_iff.1 h
      cases large with
      | true =>
        simp at h
        obtain ⟨rfl, rfl, rfl, rfl⟩ := h
        exact ⟨b, .nil b, rfl, Or.inr ⟨i, r, rfl, .large hv hc hl⟩⟩
      | false =>
        simp only [Bool.false_eq_true, if_false] at h
        obtain ⟨⟨b2, acc2, rest2, rej2⟩, h2, h⟩ := Option.bind_eq_some_iff.1 h
        simp at h
        obtain ⟨rfl, rfl, rfl, rfl⟩ := h
        obtain ⟨b3, s1, s2, s3⟩ := ih h2
        exact ⟨b3, .free hv hc hl s1, by simp [s2], s3⟩
    · have hca : v.canAddAdjacent = false := by simp [VInfo.canAddAdjacent]; omega
      simp only [hca, Bool.false_eq_true, if_false] at h
      obtain ⟨⟨b1, ok⟩, hl, h⟩ := Option.bind_eq_some_iff.1 h
      cases ok with
      | false =>
        simp at h
        obtain ⟨rfl, rfl, rfl, rfl⟩ := h
        exact ⟨b, .nil b, rfl, Or.inr ⟨i, r, rfl, .reject hv hc hl⟩⟩
      | true =>
        simp only [if_true] at h
        obtain ⟨⟨b2, acc2, rest2, rej2⟩, h2, h⟩ := Option.bind_eq_some_iff.1 h
        simp at h
        obtain ⟨rfl, rfl, rfl, rfl⟩ := h
        obtain ⟨b3, s1, s2, s3⟩ := ih h2
        exact ⟨b3, .fixed hv hc hl s1, by simp [s2], s3⟩

theorem endLoop_spec {st : List VInfo} : ∀ (l : List Nat) {b b' : Builder} {acc rest : List Nat},
    endLoop st b l = some (b', acc, rest) →
    ∃ b1 i r rej, Steps st b acc b1 ∧ l = acc ++ rest ∧ rest = i :: r ∧ Stop st b1 i b' rej := by
  intro l
  induction l with
  | nil => intro b b' acc rest h; simp [endLoop] at h
  | cons i r ih =>
    intro b b' acc rest h
    simp only [endLoop, Option.bind_eq_bind, Option.bind_eq_some_iff] at h
    obtain ⟨v, hv, h⟩ := h
    by_cases hc : v.adjacent.length < 3
    · have hca : v.canAddAdjacent = true := by simp [VInfo.canAddAdjacent, hc]
      simp only [hca, if_true] at h
      obtain ⟨⟨b1, large⟩, hl, h⟩ := Option.bind_eq_some_iff.1 h
      cases large with
      | true =>
        simp at h
        obtain ⟨rfl, rfl, rfl⟩ := h
        exact ⟨b, i, r, _, .nil b, rfl, rfl, .large hv hc hl⟩
      | false =>
        simp only [Bool.false_eq_true, if_false] at h
        obtain ⟨⟨b2, acc2, rest2⟩, h2, h⟩ := Option.bind_eq_some_iff.1 h
        simp at h
        obtain ⟨rfl, rfl, rfl⟩ := h
        obtain ⟨b3, i', r', rej, s1, s2, s3, s4⟩ := ih h2
        exact ⟨b3, i', r', rej, .free hv hc hl s1, by simp [s2], s3, s4⟩
    · have hca : v.canAddAdjacent = false := by simp [VInfo.canAddAdjacent]; omega
      simp only [hca, Bool.false_eq_true, if_false] at h
      obtain ⟨⟨b1, ok⟩, hl, h⟩ := Option.bind_eq_some_iff.1 h
      cases ok with
      | false =>
        simp at h
        obtain ⟨rfl, rfl, rfl⟩ := h
        exact ⟨b, i, r, _, .nil b, rfl, rfl, .reject hv hc hl⟩
      | true =>
        simp only [if_true] at h
        obtain ⟨⟨b2, acc2, rest2⟩, h2, h⟩ := Option.bind_eq_some_iff.1 h
        simp at h
        obtain ⟨rfl, rfl, rfl⟩ := h
        obtain ⟨b3, i', r', rej, s1, s2, s3, s4⟩ := ih h2
        exact ⟨b3, i', r', rej, .fixed hv hc hl s1, by simp [s2], s3, s4⟩

/-- What happens after the vertices from the front. -/
inductive Tail (st : List VInfo) : Builder → List Nat → List Nat → Builder → Prop
  | all (b : Builder) : Tail st b [] [] b
  | large {b b' : Builder} {i : Nat} {r : List Nat} (h : Stop st b i b' false) : Tail st b (i :: r) [] b'
  | reject {b b1 b2 b' : Builder} {i j : Nat} {rest e r r' : List Nat} {rej : Bool} (h1 : Stop st b i b1 true)
    (hr : rest ++ e.reverse = i :: r)
    (h2 : Steps st b1 e b2) (hj : rest.reverse = j :: r') (h3 : Stop st b2 j b' rej) : Tail st b rest e b'

theorem nextRange_spec {st : List VInfo} {range acc rest e : List Nat} {p : HS3} (h : nextRange st range = some (p, acc, rest, e)) :
    ∃ i e' b1 b, e = i :: e' ∧ range = acc ++ rest ++ e.reverse ∧ Steps st {} (i :: acc) b1 ∧ Tail st b1 rest e' b ∧ b.build = some p := by
  unfold nextRange at h
  simp only [Option.bind_eq_bind, Option.bind_eq_some_iff] at h
  obtain ⟨i, hi, v, hv, b0, h0, ⟨b1, accF, restF, rej⟩, h1, ⟨b, e', rest'⟩, h2, p', hp, h⟩ := h
  simp at h
  obtain ⟨rfl, rfl, rfl, rfl⟩ := h
  have hrange : range = range.dropLast ++ [i] := by
    rw [List.getLast?_eq_some_iff] at hi
    obtain ⟨l, rfl⟩ := hi
    simp
  obtain ⟨b2, s1, s2, s3⟩ := frontLoop_spec _ h1
  have hsteps : Steps st {} (i :: accF) b2 := by
    by_cases hc : v.adjacent.length < 3
    · have hca : v.canAddAdjacent = true := by simp [VInfo.canAddAdjacent, hc]
      simp only [hca, if_true, Option.some.injEq] at h0
      subst h0
      exact .free hv hc rfl s1
    · have hca : v.canAddAdjacent = false := by simp [VInfo.canAddAdjacent]; omega
      simp only [hca, Bool.false_eq_true, if_false] at h0
      obtain ⟨⟨b4, ok⟩, h4, h0⟩ := Option.bind_eq_some_iff.1 h0
      simp at h0; subst h0
      have : ok = true := by
        rcases Builder.tryAdd_cases h4 with ⟨-, h, -⟩ | ⟨h, -⟩
        · exact h
        · simp at h
      subst this
      exact .fixed hv hc h4 s1
  refine ⟨i, e', b2, b, rfl, ?_, hsteps, ?_, hp⟩
  · rw [hrange, s2]
    cases rej with
    | false =>
      simp at h2
      obtain ⟨rfl, rfl, rfl⟩ := h2
      simp
    | true =>
      simp only [if_true] at h2
      obtain ⟨⟨b5, e5, r5⟩, h5, h2⟩ := Option.bind_eq_some_iff.1 h2
      simp at h2
      obtain ⟨rfl, rfl, rfl⟩ := h2
      obtain ⟨b6, j, r6, rej6, t1, t2, t3, t4⟩ := endLoop_spec _ h5
      have := congrArg List.reverse t2
      simp at this
      simp [this]
  · rcases s3 with ⟨rfl, rfl, rfl⟩ | ⟨j, r, rfl, s3⟩
    · simp at h2
      obtain ⟨rfl, rfl, rfl⟩ := h2
      exact .all _
    · cases rej with
      | false =>
        simp at h2
        obtain ⟨rfl, rfl, rfl⟩ := h2
        exact .large s3
      | true =>
        simp only [if_true] at h2
        obtain ⟨⟨b5, e5, r5⟩, h5, h2⟩ := Option.bind_eq_some_iff.1 h2
        simp at h2
        obtain ⟨rfl, rfl, rfl⟩ := h2
        obtain ⟨b6, j', r6, rej6, t1, t2, t3, t4⟩ := endLoop_spec _ h5
        have := congrArg List.reverse t2
        simp at this
        exact .reject s3 (r := r) (by simp [this]) t1 (r' := r6) (by simp [t3]) t4

/-- An invariant of the three operations on the vertices of a set. -/
structure Inv (st : List VInfo) (S : Nat → Prop) (I : Builder → Prop) : Prop where
  free : ∀ (b : Builder) i v, S i → st[i]? = some v → I b → I (b.addUnconstrained v.point)
  fixed : ∀ (b b' : Builder) i v r, S i → st[i]? = some v → I b → b.tryAddConstrained v.point = some (b', r) → I b'
  large : ∀ (b b' : Builder) r, I b → b.hasLargePlane = some (b', r) → I b'

theorem Steps.inv {st : List VInfo} {S : Nat → Prop} {I : Builder → Prop} (hI : Inv st S I) {b b' : Builder} {l : List Nat}
    (h : Steps st b l b') (hS : ∀ i ∈ l, S i) (hb : I b) : I b' := by
  induction h with
  | nil => exact hb
  | free hv hc hl h ih => exact ih (fun i hi => hS i (by simp [hi])) (hI.free _ _ _ (hS _ (by simp)) hv (hI.large _ _ _ hb hl))
  | fixed hv hc hl h ih => exact ih (fun i hi => hS i (by simp [hi])) (hI.fixed _ _ _ _ _ (hS _ (by simp)) hv hb hl)

theorem Stop.inv {st : List VInfo} {S : Nat → Prop} {I : Builder → Prop} (hI : Inv st S I) {b b' : Builder} {i : Nat} {r : Bool}
    (h : Stop st b i b' r) (hS : S i) (hb : I b) : I b' := by
  cases h with
  | large hv hc hl => exact hI.large _ _ _ hb hl
  | reject hv hc hl => exact hI.fixed _ _ _ _ _ hS hv hb hl

theorem Tail.inv {st : List VInfo} {S : Nat → Prop} {I : Builder → Prop} (hI : Inv st S I) {b b' : Builder} {rest e : List Nat}
    (h : Tail st b rest e b') (hS : ∀ i ∈ rest ++ e, S i) (hb : I b) : I b' := by
  cases h with
  | all => exact hb
  | large h => exact h.inv hI (hS _ (by simp)) hb
  | @reject b1 b2 _ i j _ _ r r' rej h1 hr h2 hj h3 =>
    have hi : i ∈ rest ++ e.reverse := by rw [hr]; simp
    have hj : j ∈ rest := by
      have : j ∈ rest.reverse := by rw [hj]; simp
      simpa using this
    exact h3.inv hI (hS j (by simp [hj])) (h2.inv hI (fun i hi => hS i (by simp [hi])) (h1.inv hI (hS i (by simpa using hi)) hb))

/-! ### Progress -/

/-- Counters, without assumptions on the points. -/
def Sized (b : Builder) : Prop := b.constrainedCount ≤ b.info.length

theorem Steps.sized {st : List VInfo} {b b' : Builder} {l : List Nat} (h : Steps st b l b') (hb : Sized b) :
    Sized b' ∧ b'.info.length ≤ b.info.length + l.length := by
  induction h with
  | nil => exact ⟨hb, by simp⟩
  | @free b b1 b' i l v hv hc hl h ih =>
    have h1 : Sized (b1.addUnconstrained v.point) ∧ (b1.addUnconstrained v.point).info.length ≤ b.info.length + 1 := by
      have : b1.info = b.info ∧ b1.constrainedCount = b.constrainedCount := by
        rcases Builder.large_cases hl with ⟨-, rfl, -⟩ | ⟨-, h1, h2, -⟩
        · exact ⟨rfl, rfl⟩
        · exact ⟨h1, h2⟩
      unfold Sized at hb ⊢
      unfold Builder.addUnconstrained
      split <;> simp [this] <;> omega
    obtain ⟨i1, i2⟩ := ih h1.1
    refine ⟨i1, ?_⟩
    simp only [List.length_cons]; omega
  | @fixed b b1 b' i l v hv hc hl h ih =>
    have h1 : Sized b1 ∧ b1.info.length ≤ b.info.length + 1 := by
      unfold Sized at hb ⊢
      rcases Builder.tryAdd_cases hl with ⟨-, -, h2, h3, -⟩ | ⟨-, rfl, -⟩
      · rw [h2, h3]; simp; omega
      · exact ⟨hb, by omega⟩
    obtain ⟨i1, i2⟩ := ih h1.1
    refine ⟨i1, ?_⟩
    simp only [List.length_cons]; omega

theorem Stop.three {st : List VInfo} {b b' : Builder} {i : Nat} {r : Bool} (h : Stop st b i b' r) (hb : Sized b) : 3 ≤ b.info.length := by
  unfold Sized at hb
  cases h with
  | large hv hc hl =>
    rcases Builder.large_cases hl with ⟨-, -, h⟩ | ⟨h, -⟩
    · cases h
    · exact h
  | reject hv hc hl =>
    rcases Builder.tryAdd_cases hl with ⟨-, h, -⟩ | ⟨h, -⟩
    · cases h
    · omega

/-- If vertices remain, at least two were accepted from the front. -/
theorem nextRange_progress {st : List VInfo} {range acc rest e : List Nat} {p : HS3} (h : nextRange st range = some (p, acc, rest, e))
    (hr : rest ≠ []) : 2 ≤ acc.length := by
  obtain ⟨i, e', b1, b, -, -, h1, h2, -⟩ := nextRange_spec h
  obtain ⟨s1, s2⟩ := h1.sized (by simp [Sized])
  have : 3 ≤ b1.info.length := by
    cases h2 with
    | all => exact absurd rfl hr
    | large h => exact h.three s1
    | reject h => exact h.three s1
  simp at s2
  omega

/-! ### The plane -/

/-- A builder with three constrained vertices does not change any more. -/
theorem Builder.fixed_full {b b' : Builder} {v : HP3} {r : Bool} (h3 : b.constrainedCount = 3)
    (h : b.tryAddConstrained v = some (b', r)) : b' = b := by
  rcases Builder.tryAdd_cases h with ⟨h, -⟩ | ⟨-, h, -⟩
  · omega
  · exact h

/-- A vertex is stored as constrained, or it is in the plane of three others. -/
def Held (b : Builder) (v : HP3) : Prop :=
  (true, v) ∈ b.info ∨ b.constrainedCount = 3 ∧ ∃ p, b.plane = some p ∧ p.side v.pt = 0

/-- The invariants that do not depend on the visits. -/
structure Base (b : Builder) : Prop where
  counts : b.Counts
  full : b.Full
  setOk : b.SetOk

theorem Base.start : Base {} :=
  ⟨⟨rfl, by simp, by simp, by simp⟩, fun h => by simp at h, fun h => by simp at h⟩

theorem Base.inv {st : List VInfo} {S : Nat → Prop} (hw : ∀ i v, S i → st[i]? = some v → v.point.w ≠ 0) : Inv st S Base where
  free b i v hs hv h := ⟨Builder.counts_free h.counts _ (hw i v hs hv), Builder.full_free h.full _, Builder.setOk_free h.setOk _⟩
  fixed b b' i v r hs hv h hl := ⟨Builder.counts_fixed h.counts (hw i v hs hv) hl, Builder.full_fixed h.counts (hw i v hs hv) h.full hl,
    Builder.setOk_fixed h.counts (hw i v hs hv) h.setOk hl⟩
  large b b' r h hl := ⟨Builder.counts_large h.counts hl, Builder.full_large h.counts h.full hl, Builder.setOk_large h.counts h.setOk hl⟩

theorem held_free {b : Builder} {u : HP3} (h : Held b u) (v : HP3) : Held (b.addUnconstrained v) u := by
  unfold Builder.addUnconstrained
  split
  · rcases h with h | h
    · left; simp [h]
    · exact Or.inr h
  · exact h

theorem held_large {b b' : Builder} {u : HP3} {r : Bool} (hb : Base b) (h : Held b u) (hl : b.hasLargePlane = some (b', r)) : Held b' u := by
  rcases Builder.large_cases hl with ⟨-, rfl, -⟩ | ⟨-, h1, h2, h3, p, hp, h4, h5⟩
  · exact h
  · rcases h with h | h
    · left; rw [h1]; exact h
    · rw [h4 (hb.full h.1).1]; exact Or.inr h

theorem held_fixed {b b' : Builder} {u v : HP3} {r : Bool} (h : Held b u) (hl : b.tryAddConstrained v = some (b', r)) : Held b' u := by
  rcases Builder.tryAdd_cases hl with ⟨h1, -, h2, h3, -⟩ | ⟨-, rfl, -⟩
  · rcases h with h | h
    · left; rw [h2]; simp [h]
    · omega
  · exact h

theorem held_new {b b' : Builder} {v : HP3} (hb : Base b) (hv : v.w ≠ 0) (hl : b.tryAddConstrained v = some (b', true)) : Held b' v := by
  rcases Builder.tryAdd_cases hl with ⟨h1, -, h2, h3, -⟩ | ⟨h1, rfl, p, hp, hc⟩
  · left; rw [h2]; simp
  · right
    have := hb.counts.le
    exact ⟨by omega, p, hp, (C23_compare_homo p v hv).2.1 hc.symm⟩

theorem held_inv {st : List VInfo} {S : Nat → Prop} (hw : ∀ i v, S i → st[i]? = some v → v.point.w ≠ 0) (u : HP3) :
    Inv st S (fun b => Base b ∧ Held b u) where
  free b i v hs hv h := ⟨(Base.inv hw).free b i v hs hv h.1, held_free h.2 _⟩
  fixed b b' i v r hs hv h hl := ⟨(Base.inv hw).fixed b b' i v r hs hv h.1 hl, held_fixed h.2 hl⟩
  large b b' r h hl := ⟨(Base.inv hw).large b b' r h.1 hl, held_large h.1 h.2 hl⟩

/-- Accepted constrained vertices are held. -/
theorem Steps.held {st : List VInfo} {S : Nat → Prop} (hw : ∀ i v, S i → st[i]? = some v → v.point.w ≠ 0) {b b' : Builder} {l : List Nat}
    (h : Steps st b l b') (hS : ∀ i ∈ l, S i) (hb : Base b) :
    ∀ i ∈ l, ∀ v, st[i]? = some v → ¬ v.adjacent.length < 3 → Held b' v.point := by
  induction h with
  | nil => simp
  | @free b b1 b' j l u hv hc hl h ih =>
    intro i hi v hvi hvc
    rcases List.mem_cons.1 hi with rfl | hi
    · rw [hv] at hvi; simp only [Option.some.injEq] at hvi; subst hvi; exact absurd hc hvc
    · exact ih (fun i hi => hS i (by simp [hi])) ((Base.inv hw).free _ _ _ (hS j (by simp)) hv ((Base.inv hw).large _ _ _ hb hl)) i hi v hvi hvc
  | @fixed b b1 b' j l u hv hc hl h ih =>
    intro i hi v hvi hvc
    have hb1 := (Base.inv hw).fixed _ _ _ _ _ (hS j (by simp)) hv hb hl
    rcases List.mem_cons.1 hi with rfl | hi
    · rw [hv] at hvi; simp only [Option.some.injEq] at hvi; subst hvi
      exact (h.inv (held_inv hw u.point) (fun i hi => hS i (by simp [hi])) ⟨hb1, held_new hb (hw _ _ (hS i (by simp)) hv) hl⟩).2
    · exact ih (fun i hi => hS i (by simp [hi])) hb1 i hi v hvi hvc

theorem held_build {b : Builder} {u : HP3} (hb : Base b) (hf : b.Fresh) (h : Held b u) {p : HS3} (hp : b.build = some p) :
    p.side u.pt = 0 := by
  rcases h with h | ⟨h3, q, hq, h⟩
  · exact Builder.fresh_build hb.counts hf hp u h
  · unfold Builder.build at hp
    rw [if_pos (hb.full h3).1, hq] at hp
    simp only [Option.some.injEq] at hp; subst hp; exact h

/-- Few vertices: the plane is not stale. -/
theorem Steps.fresh {st : List VInfo} {S : Nat → Prop} (hw : ∀ i v, S i → st[i]? = some v → v.point.w ≠ 0) {b b' : Builder} {l : List Nat}
    (h : Steps st b l b') (hS : ∀ i ∈ l, S i) (hb : Base b) (hf : b.Fresh) (k : Nat) (hk : k + l.length ≤ 4) (hi : b.info.length ≤ k)
    (hp : k ≤ 3 → b.planeSet = true → b.constrainedCount = 3) : b'.Fresh := by
  induction h generalizing k with
  | nil => exact hf
  | @free b b1 b' j l u hv hc hl h ih =>
    have hb1 := (Base.inv hw).large _ _ _ hb hl
    have hinfo : (b1.addUnconstrained u.point).info.length ≤ b1.info.length + 1 := by
      unfold Builder.addUnconstrained; split <;> simp
    have hcc : (b1.addUnconstrained u.point).constrainedCount = b1.constrainedCount := by
      unfold Builder.addUnconstrained; split <;> rfl
    have hps : (b1.addUnconstrained u.point).planeSet = b1.planeSet := by
      unfold Builder.addUnconstrained; split <;> rfl
    have hb1i : b1.info = b.info := by
      rcases Builder.large_cases hl with ⟨-, rfl, -⟩ | ⟨-, h1, -⟩
      · rfl
      · exact h1
    rw [List.length_cons] at hk
    refine ih (fun i hi => hS i (by simp [hi])) ((Base.inv hw).free _ _ _ (hS j (by simp)) hv hb1)
      (Builder.fresh_free (Builder.fresh_large hb.counts hf hl) _) (k + 1) (by omega) (by rw [hb1i] at hinfo; omega) ?_
    rw [hcc, hps]
    intro hk3 hset
    rcases Builder.large_cases hl with ⟨-, rfl, -⟩ | ⟨h3, -⟩
    · exact hp (by omega) hset
    · omega
  | @fixed b b1 b' j l u hv hc hl h ih =>
    have hb1 := (Base.inv hw).fixed _ _ _ _ _ (hS j (by simp)) hv hb hl
    rw [List.length_cons] at hk
    have hok : b.planeSet = false ∨ 2 ≤ b.constrainedCount := by
      cases hs : b.planeSet with
      | false => exact Or.inl rfl
      | true => right; rw [hp (by omega) hs]; omega
    refine ih (fun i hi => hS i (by simp [hi])) hb1 (Builder.fresh_fixed hb.counts (hw _ _ (hS j (by simp)) hv) hf hok hl) (k + 1) (by omega) ?_ ?_
    · rcases Builder.tryAdd_cases hl with ⟨-, -, h2, -⟩ | ⟨-, rfl, -⟩
      · rw [h2]; simp; omega
      · omega
    · intro hk3 hset
      rcases Builder.tryAdd_cases hl with ⟨h1, -, h2, h3, ⟨h4, -⟩ | ⟨h4, h5, h6⟩⟩ | ⟨-, rfl, -⟩
      · omega
      · rw [h5] at hset
        have := hp (by omega) hset
        omega
      · exact hp (by omega) hset

theorem full_inv (st : List VInfo) (S : Nat → Prop) : Inv st S (fun b => b.constrainedCount = 3) where
  free b i v hs hv h := by
    show (b.addUnconstrained v.point).constrainedCount = 3
    unfold Builder.addUnconstrained; split <;> exact h
  fixed b b' i v r hs hv h hl := by rw [Builder.fixed_full h hl]; exact h
  large b b' r h hl := by
    rcases Builder.large_cases hl with ⟨-, rfl, -⟩ | ⟨-, -, h2, -⟩
    · exact h
    · exact h2.trans h

/-- The plane of the next range contains the accepted constrained vertices if there are at most four vertices. -/
theorem nextRange_plane {st : List VInfo} {range acc rest e : List Nat} {p : HS3} (h : nextRange st range = some (p, acc, rest, e))
    (hw : ∀ i ∈ range, ∀ v, st[i]? = some v → v.point.w ≠ 0) :
    p.n ≠ ⟨0, 0, 0⟩ ∧ (range.length ≤ 4 → ∀ i ∈ acc ++ e, ∀ v, st[i]? = some v → ¬ v.adjacent.length < 3 → p.side v.point.pt = 0) := by
  obtain ⟨i, e', b1, b, rfl, hr, h1, h2, hp⟩ := nextRange_spec h
  have hw' : ∀ i v, i ∈ range → st[i]? = some v → v.point.w ≠ 0 := fun i v hi hv => hw i hi v hv
  have hS1 : ∀ j ∈ i :: acc, j ∈ range := by intro j hj; rw [hr]; simp at hj ⊢; tauto
  have hS2 : ∀ j ∈ rest ++ e', j ∈ range := by intro j hj; rw [hr]; simp at hj ⊢; tauto
  have hb1 := h1.inv (Base.inv hw') hS1 Base.start
  have hb := h2.inv (Base.inv hw') hS2 hb1
  refine ⟨Builder.setOk_build hb.counts hb.setOk hp, ?_⟩
  intro hlen j hj v hv hc
  have hfr : b.Fresh := by
    have hl : (i :: acc).length ≤ 4 := by rw [hr] at hlen; simp at hlen ⊢; omega
    have hf1 : b1.Fresh := h1.fresh hw' hS1 Base.start (fun h => by simp at h) 0 (by simpa using hl) (by simp) (by simp)
    cases h2 with
    | all => exact hf1
    | large h =>
      cases h with
      | large hv hc hl => exact Builder.fresh_large hb1.counts hf1 hl
    | @reject b2 b3 _ i' j' _ _ r r' rej t1 tr t2 tj t3 =>
      have h3 : b1.constrainedCount = 3 := by
        cases t1 with
        | reject hv hc hl =>
          rcases Builder.tryAdd_cases hl with ⟨-, h, -⟩ | ⟨h, -⟩
          · cases h
          · have := hb1.counts.le; omega
      have : b.constrainedCount = 3 :=
        (Tail.reject t1 tr t2 tj t3).inv (full_inv st (fun _ => True)) (by simp) h3
      exact (hb.full this).2
  have hheld : Held b v.point := by
    have hj' : j ∈ i :: acc ∨ j ∈ e' := by simp at hj ⊢; tauto
    rcases hj' with hj' | hj'
    · have := h1.held hw' hS1 Base.start j hj' v hv hc
      exact (h2.inv (held_inv hw' v.point) hS2 ⟨hb1, this⟩).2
    · cases h2 with
      | all => simp at hj'
      | large h => simp at hj'
      | @reject b2 b3 _ i' j' _ _ r r' rej t1 tr t2 tj t3 =>
        have ti : i' ∈ range := hS2 i' (by
          have : i' ∈ rest ++ e'.reverse := by rw [tr]; simp
          simpa using this)
        have tj' : j' ∈ range := hS2 j' (by
          have : j' ∈ rest.reverse := by rw [tj]; simp
          simp at this; simp [this])
        have hb2 := t1.inv (Base.inv hw') ti hb1
        have hS3 : ∀ j ∈ e', j ∈ range := fun j hj => hS2 j (by simp [hj])
        have := t2.held hw' hS3 hb2 j hj' v hv hc
        exact (t3.inv (held_inv hw' v.point) tj' ⟨t2.inv (Base.inv hw') hS3 hb2, this⟩).2
  exact held_build hb hfr hheld hp

/-! ### Planes through given points -/

/-- A plane through three points of a set. -/
def Through (S : Q3 → Prop) (p : HS3) : Prop :=
  ∃ p1 p2 p3, S p1 ∧ S p2 ∧ S p3 ∧ ∃ k : ℚ, 0 < k ∧ ∀ q, p.side q = k * orient p1 p2 p3 q

def Within (S : Q3 → Prop) (b : Builder) : Prop :=
  Base b ∧ (∀ f v, (f, v) ∈ b.info → S v.pt) ∧ (b.planeSet = true → ∃ p, b.plane = some p ∧ Through S p)

theorem build_through {S : Q3 → Prop} {b : Builder} (hb : Base b) (hs : ∀ f v, (f, v) ∈ b.info → S v.pt) {p : HS3}
    (h : b.buildFromInfo = some p) : Through S p := by
  obtain ⟨-, -, p1, p2, p3, ⟨f1, h1⟩, ⟨f2, h2⟩, ⟨f3, h3⟩, hk⟩ := Builder.build_plane hb.counts h
  exact ⟨p1.pt, p2.pt, p3.pt, hs _ _ h1, hs _ _ h2, hs _ _ h3, hk⟩

theorem within_inv {st : List VInfo} {R : Nat → Prop} {S : Q3 → Prop} (hw : ∀ i v, R i → st[i]? = some v → v.point.w ≠ 0)
    (hs : ∀ i v, R i → st[i]? = some v → S v.point.pt) : Inv st R (Within S) where
  free b i v hi hv h := by
    obtain ⟨h1, h2, h3⟩ := h
    refine ⟨(Base.inv hw).free b i v hi hv h1, ?_, ?_⟩ <;> unfold Builder.addUnconstrained <;> split
    · intro f u hu
      simp at hu
      rcases hu with hu | ⟨-, rfl⟩
      · exact h2 f u hu
      · exact hs i v hi hv
    · exact h2
    · exact h3
    · exact h3
  fixed b b' i v r hi hv h hl := by
    obtain ⟨h1, h2, h3⟩ := h
    have hb' := (Base.inv hw).fixed b b' i v r hi hv h1 hl
    rcases Builder.tryAdd_cases hl with ⟨t1, -, t2, t3, t4⟩ | ⟨-, rfl, -⟩
    · have hin : ∀ f u, (f, u) ∈ b'.info → S u.pt := by
        intro f u hu
        rw [t2] at hu
        simp at hu
        rcases hu with hu | ⟨-, rfl⟩
        · exact h2 f u hu
        · exact hs i v hi hv
      refine ⟨hb', hin, ?_⟩
      rcases t4 with ⟨-, t5, p, hp, t6⟩ | ⟨-, t5, t6⟩
      · exact fun _ => ⟨p, hp, build_through hb' hin t6⟩
      · rw [t5, t6]; exact h3
    · exact ⟨h1, h2, h3⟩
  large b b' r h hl := by
    obtain ⟨h1, h2, h3⟩ := h
    have hb' := (Base.inv hw).large b b' r h1 hl
    rcases Builder.large_cases hl with ⟨-, rfl, -⟩ | ⟨-, t1, t2, t3, p, hp, t4, t5⟩
    · exact ⟨h1, h2, h3⟩
    · refine ⟨hb', by rw [t1]; exact h2, ?_⟩
      intro _
      cases hset : b.planeSet with
      | true => rw [t4 hset]; exact h3 hset
      | false => exact ⟨p, hp, build_through h1 h2 (t5 hset)⟩

theorem nextRange_through {st : List VInfo} {range acc rest e : List Nat} {p : HS3} (h : nextRange st range = some (p, acc, rest, e))
    (hw : ∀ i ∈ range, ∀ v, st[i]? = some v → v.point.w ≠ 0) (S : Q3 → Prop) (hs : ∀ i ∈ range, ∀ v, st[i]? = some v → S v.point.pt) :
    Through S p := by
  obtain ⟨i, e', b1, b, rfl, hr, h1, h2, hp⟩ := nextRange_spec h
  have hw' : ∀ i v, i ∈ range → st[i]? = some v → v.point.w ≠ 0 := fun i v hi hv => hw i hi v hv
  have hs' : ∀ i v, i ∈ range → st[i]? = some v → S v.point.pt := fun i v hi hv => hs i hi v hv
  have hS1 : ∀ j ∈ i :: acc, j ∈ range := by intro j hj; rw [hr]; simp at hj ⊢; tauto
  have hS2 : ∀ j ∈ rest ++ e', j ∈ range := by intro j hj; rw [hr]; simp at hj ⊢; tauto
  have h0 : Within S {} := ⟨Base.start, by simp, by simp⟩
  have hb := h2.inv (within_inv hw' hs') hS2 (h1.inv (within_inv hw' hs') hS1 h0)
  unfold Builder.build at hp
  by_cases hset : b.planeSet = true
  · rw [if_pos hset] at hp
    obtain ⟨q, hq, ht⟩ := hb.2.2 hset
    rw [hp] at hq; simp only [Option.some.injEq] at hq; subst hq; exact ht
  · rw [if_neg hset] at hp
    exact build_through hb.1 hb.2.1 hp

/-- Points of a plane are in every plane through three points of it. -/
theorem through_plane {H : HS3} (hH : H.n ≠ ⟨0, 0, 0⟩) {p : HS3} (h : Through (fun q => H.side q = 0) p) {q : Q3} (hq : H.side q = 0) :
    p.side q = 0 := by
  obtain ⟨p1, p2, p3, h1, h2, h3, k, -, hk⟩ := h
  rw [hk q]
  have hz : orient p1 p2 p3 q = 0 := by
    rw [HS3.side_eq] at h1 h2 h3 hq
    have key : ∀ c : ℚ, c ∈ ({(H.n.x : ℚ), (H.n.y : ℚ), (H.n.z : ℚ)} : Set ℚ) → c * orient p1 p2 p3 q = 0 := by
      have e2 : (H.n.x : ℚ) * (p2 0 - p1 0) + H.n.y * (p2 1 - p1 1) + H.n.z * (p2 2 - p1 2) = 0 := by linarith
      have e3 : (H.n.x : ℚ) * (p3 0 - p1 0) + H.n.y * (p3 1 - p1 1) + H.n.z * (p3 2 - p1 2) = 0 := by linarith
      have e4 : (H.n.x : ℚ) * (q 0 - p1 0) + H.n.y * (q 1 - p1 1) + H.n.z * (q 2 - p1 2) = 0 := by linarith
      simp only [orient, dotQ, crossQ_zero, crossQ_one, crossQ_two, subQ]
      intro c hc
      simp only [Set.mem_insert_iff, Set.mem_singleton_iff] at hc
      generalize p2 0 - p1 0 = a0 at *
      generalize p2 1 - p1 1 = a1 at *
      generalize p2 2 - p1 2 = a2 at *
      generalize p3 0 - p1 0 = b0 at *
      generalize p3 1 - p1 1 = b1 at *
      generalize p3 2 - p1 2 = b2 at *
      generalize q 0 - p1 0 = c0 at *
      generalize q 1 - p1 1 = c1 at *
      generalize q 2 - p1 2 = c2 at *
      rcases hc with rfl | rfl | rfl
      · linear_combination (b1 * c2 - b2 * c1) * e2 + (c1 * a2 - c2 * a1) * e3 + (a1 * b2 - a2 * b1) * e4
      · linear_combination (b2 * c0 - b0 * c2) * e2 + (c2 * a0 - c0 * a2) * e3 + (a2 * b0 - a0 * b2) * e4
      · linear_combination (b0 * c1 - b1 * c0) * e2 + (c0 * a1 - c1 * a0) * e3 + (a0 * b1 - a1 * b0) * e4
    by_contra hne
    apply hH
    have hx := (mul_eq_zero.1 (key H.n.x (by simp))).resolve_right hne
    have hy := (mul_eq_zero.1 (key H.n.y (by simp))).resolve_right hne
    have hz := (mul_eq_zero.1 (key H.n.z (by simp))).resolve_right hne
    obtain ⟨⟨x, y, z⟩, d⟩ := H
    simp only at hx hy hz
    simp only [V3.mk.injEq]
    exact ⟨by exact_mod_cast hx, by exact_mod_cast hy, by exact_mod_cast hz⟩
  rw [hz, mul_zero]

end Walnut.Repair
