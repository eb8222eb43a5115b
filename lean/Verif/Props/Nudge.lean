/-
C55: the planes of `NudgingPlaneBuilder` contain the constrained vertices.

A history is the list of calls made so far, with their results.  A vertex is accepted as constrained if
`TryAddConstrained` returned true for it.
-/
import Verif.Repair.NudgeProof

namespace Walnut.Props
open Walnut Walnut.Geom Walnut.Repair

/-- The vertices accepted as constrained, in the order of the calls. -/
def acceptedFixed (evs : List Event) : List HP3 :=
  evs.filterMap fun e => match e with | .fixed v true => some v | _ => none

/-- All vertices passed to the builder are finite points. -/
def FinitePoints (evs : List Event) : Prop :=
  ∀ e ∈ evs, match e with | .free v => v.w ≠ 0 | .fixed v _ => v.w ≠ 0 | .large _ => True

theorem acceptedFixed_append (a b : List Event) : acceptedFixed (a ++ b) = acceptedFixed a ++ acceptedFixed b := by
  simp [acceptedFixed]

/-- What the calls establish. -/
theorem history_inv {evs : List Event} {b : Builder} (h : History evs b) (hf : FinitePoints evs) :
    b.Counts ∧ b.Full ∧ b.SetOk ∧ b.constrainedCount = min 3 (acceptedFixed evs).length ∧
    ∀ v ∈ acceptedFixed evs, (true, v) ∈ b.info ∨ b.constrainedCount = 3 ∧ ∃ p, b.plane = some p ∧ p.side v.pt = 0 := by
  induction h with
  | start =>
    refine ⟨⟨rfl, by simp, by simp, by simp⟩, fun h => by simp at h, fun h => by simp at h, by simp [acceptedFixed],
      by simp [acceptedFixed]⟩
  | @free evs b v h ih =>
    obtain ⟨i1, i2, i3, i4, i5⟩ := ih fun e he => hf e (by simp [he])
    have hv : v.w ≠ 0 := hf (.free v) (by simp)
    have hcc : (b.addUnconstrained v).constrainedCount = b.constrainedCount := by
      unfold Builder.addUnconstrained; split <;> rfl
    have hpl : (b.addUnconstrained v).plane = b.plane := by
      unfold Builder.addUnconstrained; split <;> rfl
    have ha : acceptedFixed (evs ++ [.free v]) = acceptedFixed evs := by simp [acceptedFixed]
    refine ⟨Builder.counts_free i1 v hv, Builder.full_free i2 v, Builder.setOk_free i3 v, by rw [hcc, i4, ha], ?_⟩
    rw [ha, hcc, hpl]
    intro u hu
    rcases i5 u hu with h | h
    · left; unfold Builder.addUnconstrained; split
      · simp [h]
      · exact h
    · exact Or.inr h
  | @fixed evs b b' v r h hs ih =>
    obtain ⟨i1, i2, i3, i4, i5⟩ := ih fun e he => hf e (by simp [he])
    have hv : v.w ≠ 0 := hf (.fixed v r) (by simp)
    refine ⟨Builder.counts_fixed i1 hv hs, Builder.full_fixed i1 hv i2 hs, Builder.setOk_fixed i1 hv i3 hs, ?_, ?_⟩
    · rcases Builder.tryAdd_cases hs with ⟨h1, rfl, h2, h3, -⟩ | ⟨h1, rfl, -⟩
      · rw [h3]; simp [acceptedFixed_append]; rw [i4] at h1 ⊢; simp [acceptedFixed]; simp [acceptedFixed] at h1; omega
      · rw [acceptedFixed_append]; rw [i4] at h1 ⊢; simp; omega
    · intro u hu
      rcases Builder.tryAdd_cases hs with ⟨h1, rfl, h2, h3, -⟩ | ⟨h1, rfl, p, hp, rfl⟩
      · rw [h2]
        simp [acceptedFixed] at hu
        rcases hu with hu | rfl
        · rcases i5 u (by simpa [acceptedFixed] using hu) with h | h
          · left; simp [h]
          · omega
        · left; simp
      · rw [acceptedFixed_append] at hu
        rcases List.mem_append.1 hu with hu | hu
        · exact i5 u hu
        · right
          have := i1.le
          cases hr : p.isCoincident v with
          | false => rw [hr] at hu; simp [acceptedFixed] at hu
          | true =>
            rw [hr] at hu
            simp [acceptedFixed] at hu
            subst hu
            exact ⟨by omega, p, hp, (C23_compare_homo p u hv).2.1 hr⟩
  | @large evs b b' r h hs ih =>
    obtain ⟨i1, i2, i3, i4, i5⟩ := ih fun e he => hf e (by simp [he])
    have ha : acceptedFixed (evs ++ [.large r]) = acceptedFixed evs := by simp [acceptedFixed]
    refine ⟨Builder.counts_large i1 hs, Builder.full_large i1 i2 hs, Builder.setOk_large i1 i3 hs, ?_, ?_⟩
    · rw [ha, ← i4]
      rcases Builder.large_cases hs with ⟨-, rfl, -⟩ | ⟨-, h1, h2, -⟩
      · rfl
      · exact h2
    · rw [ha]
      intro u hu
      rcases Builder.large_cases hs with ⟨-, rfl, -⟩ | ⟨-, h1, h2, h3, p, hp, h4, h5⟩
      · exact i5 u hu
      · rw [h1, h2]
        rcases i5 u hu with h | h
        · exact Or.inl h
        · right
          rw [h4 (i2 h.1).1]; exact h

/-- C55: once three constrained vertices have been accepted, the plane goes through all accepted constrained vertices,
whatever other calls there were. -/
theorem C55_three (evs : List Event) (b : Builder) (h : History evs b) (hf : FinitePoints evs)
    (h3 : 3 ≤ (acceptedFixed evs).length) (p : HS3) (hb : b.build = some p) :
    p.n ≠ ⟨0, 0, 0⟩ ∧ ∀ v ∈ acceptedFixed evs, p.side v.pt = 0 := by
  obtain ⟨i1, i2, i3, i4, i5⟩ := history_inv h hf
  refine ⟨Builder.setOk_build i1 i3 hb, ?_⟩
  intro v hv
  obtain ⟨hs, hfr⟩ := i2 (by omega)
  rcases i5 v hv with h | ⟨-, q, hq, h⟩
  · exact Builder.fresh_build i1 hfr hb v h
  · unfold Builder.build at hb
    rw [if_pos hs, hq] at hb
    simp only [Option.some.injEq] at hb; subst hb; exact h

/-- C55: the plane goes through every accepted constrained vertex (partial: `HasLargePlane` must not have been called before a
constrained vertex is accepted, unless three are accepted; see `C55_stale_false`). -/
theorem C55_plane_partial (before after : List Event) (b : Builder) (h : History (before ++ after) b)
    (hf : FinitePoints (before ++ after)) (hl : ∀ r, Event.large r ∉ before)
    (ha : acceptedFixed after = [])
    (p : HS3) (hb : b.build = some p) :
    p.n ≠ ⟨0, 0, 0⟩ ∧ ∀ v ∈ acceptedFixed (before ++ after), p.side v.pt = 0 := by
  have key : ∀ evs b, History evs b → FinitePoints evs → ∀ before after, evs = before ++ after →
      (∀ r, Event.large r ∉ before) → acceptedFixed after = [] →
      b.constrainedCount < 3 → b.Fresh ∧ (after = [] → b.planeSet = false) := by
    intro evs b h
    induction h with
    | start => exact fun _ _ _ _ _ _ _ => ⟨fun h => by simp at h, fun _ => rfl⟩
    | @free evs b v h ih =>
      intro hf before after he hl ha hc
      have hf' : FinitePoints evs := fun e he => hf e (by simp [he])
      have hcc : (b.addUnconstrained v).constrainedCount = b.constrainedCount := by
        unfold Builder.addUnconstrained; split <;> rfl
      have hps : (b.addUnconstrained v).planeSet = b.planeSet := by
        unfold Builder.addUnconstrained; split <;> rfl
      rw [hcc] at hc; rw [hps]
      rcases List.eq_nil_or_concat after with rfl | ⟨aft, x, rfl⟩
      · rw [List.append_nil] at he
        obtain ⟨i1, i2⟩ := ih hf' evs [] (by simp) (fun r hr => hl r (by rw [← he]; simp [hr])) rfl hc
        exact ⟨Builder.fresh_free i1 v, fun _ => i2 rfl⟩
      · rw [List.concat_eq_append, ← List.append_assoc] at he
        have he' : evs = before ++ aft := List.append_inj_left' he rfl
        obtain ⟨i1, -⟩ := ih hf' before aft he' hl (by rw [List.concat_eq_append, acceptedFixed_append] at ha; simp at ha; exact ha.1) hc
        exact ⟨Builder.fresh_free i1 v, by simp⟩
    | @fixed evs b b' v r h hs ih =>
      intro hf before after he hl ha hc
      have hf' : FinitePoints evs := fun e he => hf e (by simp [he])
      have hv : v.w ≠ 0 := hf (.fixed v r) (by simp)
      have hc1 := (history_inv h hf').1
      rcases Builder.tryAdd_cases hs with ⟨h1, rfl, h2, h3, h4⟩ | ⟨h1, rfl, p, hp, rfl⟩
      · rcases List.eq_nil_or_concat after with rfl | ⟨aft, x, rfl⟩
        · rw [List.append_nil] at he
          obtain ⟨i1, i2⟩ := ih hf' evs [] (by simp) (fun r hr => hl r (by rw [← he]; simp [hr])) rfl h1
          refine ⟨Builder.fresh_fixed hc1 hv i1 (Or.inl (i2 rfl)) hs, fun _ => ?_⟩
          rcases h4 with ⟨h4, -⟩ | ⟨-, h5, -⟩
          · omega
          · rw [h5]; exact i2 rfl
        · rw [List.concat_eq_append, ← List.append_assoc] at he
          have := List.append_inj_right' he rfl
          simp at this
          subst this
          rw [List.concat_eq_append, acceptedFixed_append] at ha
          simp [acceptedFixed] at ha
      · omega
    | @large evs b b' r h hs ih =>
      intro hf before after he hl ha hc
      have hf' : FinitePoints evs := fun e he => hf e (by simp [he])
      have hc1 := (history_inv h hf').1
      have hcc : b.constrainedCount = b'.constrainedCount := by
        rcases Builder.large_cases hs with ⟨-, rfl, -⟩ | ⟨-, h1, h2, -⟩
        · rfl
        · exact h2.symm
      rcases List.eq_nil_or_concat after with rfl | ⟨aft, x, rfl⟩
      · rw [List.append_nil] at he
        exact absurd (by rw [← he]; simp) (hl r)
      · rw [List.concat_eq_append, ← List.append_assoc] at he
        have he' : evs = before ++ aft := List.append_inj_left' he rfl
        obtain ⟨i1, -⟩ := ih hf' before aft he' hl (by rw [List.concat_eq_append, acceptedFixed_append] at ha; simp at ha; exact ha.1) (by omega)
        exact ⟨Builder.fresh_large hc1 i1 hs, by simp⟩
  by_cases h3 : 3 ≤ (acceptedFixed (before ++ after)).length
  · exact C55_three _ b h hf h3 p hb
  · obtain ⟨i1, i2, i3, i4, i5⟩ := history_inv h hf
    refine ⟨Builder.setOk_build i1 i3 hb, ?_⟩
    intro v hv
    obtain ⟨hfr, -⟩ := key _ b h hf before after rfl hl ha (by omega)
    rcases i5 v hv with h | ⟨h, -⟩
    · exact Builder.fresh_build i1 hfr hb v h
    · omega

/-- C55: a constrained vertex is rejected exactly if three have been accepted and it is not in the plane through them. -/
theorem C55_reject (evs : List Event) (b b' : Builder) (v : HP3) (r : Bool) (h : History evs b) (hf : FinitePoints evs)
    (hv : v.w ≠ 0) (hs : b.tryAddConstrained v = some (b', r)) :
    r = false ↔ 3 ≤ (acceptedFixed evs).length ∧ ∃ p, b.build = some p ∧ p.side v.pt ≠ 0 := by
  obtain ⟨i1, i2, i3, i4, i5⟩ := history_inv h hf
  rcases Builder.tryAdd_cases hs with ⟨h1, rfl, -⟩ | ⟨h1, rfl, p, hp, rfl⟩
  · simp; omega
  · have h3 : b'.constrainedCount = 3 := by have := i1.le; omega
    have hb : b'.build = some p := by unfold Builder.build; rw [if_pos (i2 h3).1, hp]
    rw [hb]
    constructor
    · intro h
      refine ⟨by omega, p, rfl, fun hc => ?_⟩
      rw [(C23_compare_homo p v hv).2.2 hc] at h; cases h
    · rintro ⟨-, q, hq, hn⟩
      simp only [Option.some.injEq] at hq; subst hq
      cases hi : p.isCoincident v with
      | false => rfl
      | true => exact absurd ((C23_compare_homo p v hv).2.1 hi) hn

/-- C55: the six entries of the array always suffice. -/
theorem C55_array (evs : List Event) (b : Builder) (h : History evs b) (hf : FinitePoints evs) :
    b.info.length ≤ 6 ∧ ((acceptedFixed evs).length < 3 → b.info.length < 6) := by
  obtain ⟨i1, i2, i3, i4, i5⟩ := history_inv h hf
  have := i1.length
  omega

/-- C55 does not hold if `HasLargePlane` is called before a constrained vertex is accepted: the plane built for the call is
kept, and the vertex accepted afterwards is not in it. -/
theorem C55_stale_false : ∃ (evs : List Event) (b : Builder) (v : HP3) (p : HS3),
    History evs b ∧ FinitePoints evs ∧ v ∈ acceptedFixed evs ∧ b.build = some p ∧ p.side v.pt ≠ 0 := by
  let a : HP3 := ⟨⟨0, 0, 0⟩, 1⟩
  let b : HP3 := ⟨⟨1, 0, 0⟩, 1⟩
  let c : HP3 := ⟨⟨0, 1, 0⟩, 1⟩
  let v : HP3 := ⟨⟨0, 0, 1⟩, 1⟩
  let info := [(false, a), (false, b), (false, c)]
  have h3 : History [.free a, .free b, .free c] { info := info } :=
    History.free (evs := [.free a, .free b]) c (History.free (evs := [.free a]) b (History.free (evs := []) a .start))
  have h4 : History [.free a, .free b, .free c, .large false] { info := info, plane := some ⟨⟨0, 0, 1⟩, 0⟩, planeSet := true } :=
    History.large (evs := [.free a, .free b, .free c]) false h3 (by decide +kernel)
  have h5 : History [.free a, .free b, .free c, .large false, .fixed v true]
      { info := info ++ [(true, v)], constrainedCount := 1, plane := some ⟨⟨0, 0, 1⟩, 0⟩, planeSet := true } :=
    History.fixed (evs := [.free a, .free b, .free c, .large false]) v true h4 rfl
  refine ⟨_, _, v, ⟨⟨0, 0, 1⟩, 0⟩, h5, ?_, by simp [acceptedFixed], rfl, ?_⟩
  · intro e he
    simp at he
    rcases he with rfl | rfl | rfl | rfl | rfl <;> simp [a, b, c, v]
  · simp [HS3.side_eq, v]

/-- Three collinear vertices: `Build` divides by zero. -/
theorem C55_collinear_undefined : ∃ (evs : List Event) (b : Builder), History evs b ∧ FinitePoints evs ∧
    evs.length = 3 ∧ b.build = none := by
  let a : HP3 := ⟨⟨0, 0, 0⟩, 1⟩
  let b : HP3 := ⟨⟨1, 0, 0⟩, 1⟩
  let c : HP3 := ⟨⟨2, 0, 0⟩, 1⟩
  refine ⟨[.free a, .free b, .free c], _,
    History.free (evs := [.free a, .free b]) c (History.free (evs := [.free a]) b (History.free (evs := []) a .start)), ?_, rfl,
    by decide +kernel⟩
  intro e he
  simp at he
  rcases he with rfl | rfl | rfl <;> simp [a, b, c]

/-- A history with four accepted constrained vertices and one that is rejected. -/
example : ∃ (evs : List Event) (b : Builder), History evs b ∧ FinitePoints evs ∧ 3 ≤ (acceptedFixed evs).length ∧
    b.build = some ⟨⟨0, 0, 1⟩, 5⟩ := by
  let f : HP3 := ⟨⟨7, 7, 7⟩, 1⟩
  let a : HP3 := ⟨⟨0, 0, 5⟩, 1⟩
  let b : HP3 := ⟨⟨2, 0, 10⟩, 2⟩
  let c : HP3 := ⟨⟨0, 1, 5⟩, 1⟩
  let d : HP3 := ⟨⟨9, 1, 15⟩, 3⟩
  have h1 := History.free (evs := []) f .start
  have h2 : History [.free f, .fixed a true] { info := [(false, f), (true, a)], constrainedCount := 1 } :=
    History.fixed (evs := [.free f]) a true h1 rfl
  have h3 : History [.free f, .fixed a true, .fixed b true] { info := [(false, f), (true, a), (true, b)], constrainedCount := 2 } :=
    History.fixed (evs := [.free f, .fixed a true]) b true h2 rfl
  have h4 : History [.free f, .fixed a true, .fixed b true, .fixed c true]
      { info := [(false, f), (true, a), (true, b), (true, c)], constrainedCount := 3, plane := some ⟨⟨0, 0, 1⟩, 5⟩, planeSet := true } :=
    History.fixed (evs := [.free f, .fixed a true, .fixed b true]) c true h3 (by decide +kernel)
  have h5 : History [.free f, .fixed a true, .fixed b true, .fixed c true, .fixed d true]
      { info := [(false, f), (true, a), (true, b), (true, c)], constrainedCount := 3, plane := some ⟨⟨0, 0, 1⟩, 5⟩, planeSet := true } :=
    History.fixed (evs := [.free f, .fixed a true, .fixed b true, .fixed c true]) d true h4 (by decide +kernel)
  have h6 : History [.free f, .fixed a true, .fixed b true, .fixed c true, .fixed d true, .fixed f false]
      { info := [(false, f), (true, a), (true, b), (true, c)], constrainedCount := 3, plane := some ⟨⟨0, 0, 1⟩, 5⟩, planeSet := true } :=
    History.fixed (evs := [.free f, .fixed a true, .fixed b true, .fixed c true, .fixed d true]) f false h5 (by decide +kernel)
  refine ⟨_, _, h6, ?_, by simp [acceptedFixed], rfl⟩
  intro e he
  simp at he
  rcases he with rfl | rfl | rfl | rfl | rfl | rfl <;> simp [a, b, c, d, f]

/-- The partial theorem applies to two constrained vertices and a free one. -/
example : ∃ (evs : List Event) (b : Builder), History (evs ++ [.large false]) b ∧ FinitePoints evs ∧
    (∀ r, Event.large r ∉ evs) ∧ (acceptedFixed evs).length = 2 ∧ b.build = some ⟨⟨0, 0, 1⟩, 5⟩ := by
  let a : HP3 := ⟨⟨0, 0, 5⟩, 1⟩
  let b : HP3 := ⟨⟨2, 0, 10⟩, 2⟩
  let c : HP3 := ⟨⟨0, 1, 5⟩, 1⟩
  have h1 : History [.fixed a true] { info := [(true, a)], constrainedCount := 1 } :=
    History.fixed (evs := []) a true .start rfl
  have h2 : History [.fixed a true, .fixed b true] { info := [(true, a), (true, b)], constrainedCount := 2 } :=
    History.fixed (evs := [.fixed a true]) b true h1 rfl
  have h3 : History [.fixed a true, .fixed b true, .free c] { info := [(true, a), (true, b), (false, c)], constrainedCount := 2 } :=
    History.free (evs := [.fixed a true, .fixed b true]) c h2
  refine ⟨[.fixed a true, .fixed b true, .free c], 
    { info := [(true, a), (true, b), (false, c)], constrainedCount := 2, plane := some ⟨⟨0, 0, 1⟩, 5⟩, planeSet := true },
    History.large false h3 (by decide +kernel), ?_, by simp, by simp [acceptedFixed], rfl⟩
  intro e he
  simp at he
  rcases he with rfl | rfl | rfl <;> simp [a, b, c]

end Walnut.Props
