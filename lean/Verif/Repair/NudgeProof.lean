/- Invariants of the plane builder. -/
import Verif.Repair.Nudge
import Verif.Props.Reduce
import Verif.Props.Planes

namespace Walnut.Repair
open Walnut Walnut.Geom Walnut.Props

theorem orient_self {a b c : Q3} : orient a b c a = 0 ∧ orient a b c b = 0 ∧ orient a b c c = 0 := by
  simp only [orient, dotQ, crossQ_zero, crossQ_one, crossQ_two, subQ]
  refine ⟨?_, ?_, ?_⟩ <;> ring

namespace Builder

theorem filterLoop_mem : ∀ (l : List (Bool × HP3)) (need au : Nat) (out : List HP3),
    filterLoop need au l = some out → need = (l.filter (·.1)).length + au →
    (∀ v, (true, v) ∈ l → v ∈ out) ∧ ∀ v ∈ out, ∃ f, (f, v) ∈ l := by
  intro l
  induction l with
  | nil =>
    intro need au out h hn
    cases need with
    | zero => simp [filterLoop] at h; subst h; simp
    | succ n => simp [filterLoop] at h
  | cons x r ih =>
    intro need au out h hn
    obtain ⟨f, w⟩ := x
    cases need with
    | zero =>
      simp only [filterLoop, Option.some.injEq] at h; subst h
      refine ⟨?_, by simp⟩
      intro v hv
      exfalso
      have : (true, v) ∈ ((f, w) :: r).filter (·.1) := List.mem_filter.2 ⟨hv, rfl⟩
      have := List.length_pos_of_mem this
      omega
    | succ n =>
      cases f with
      | true =>
        simp only [filterLoop, Option.bind_eq_bind, Option.bind_eq_some_iff] at h
        obtain ⟨q, hq, h⟩ := h
        simp at h; subst h
        obtain ⟨i1, i2⟩ := ih n au q hq (by simp at hn; omega)
        refine ⟨?_, ?_⟩
        · intro v hv
          rcases List.mem_cons.1 hv with h | h
          · simp at h; simp [h]
          · exact List.mem_cons_of_mem _ (i1 v h)
        · intro v hv
          rcases List.mem_cons.1 hv with rfl | h
          · exact ⟨true, by simp⟩
          · obtain ⟨f, hf⟩ := i2 v h; exact ⟨f, by simp [hf]⟩
      | false =>
        have hn : n + 1 = (r.filter (·.1)).length + au := by simpa using hn
        cases au with
        | zero =>
          simp only [filterLoop] at h
          obtain ⟨i1, i2⟩ := ih (n + 1) 0 out h hn
          refine ⟨?_, ?_⟩
          · intro v hv
            rcases List.mem_cons.1 hv with h | h
            · simp at h
            · exact i1 v h
          · intro v hv
            obtain ⟨f, hf⟩ := i2 v hv; exact ⟨f, by simp [hf]⟩
        | succ au =>
          simp only [filterLoop, Option.bind_eq_bind, Option.bind_eq_some_iff] at h
          obtain ⟨q, hq, h⟩ := h
          simp at h; subst h
          obtain ⟨i1, i2⟩ := ih n au q hq (by omega)
          refine ⟨?_, ?_⟩
          · intro v hv
            rcases List.mem_cons.1 hv with h | h
            · simp at h
            · exact List.mem_cons_of_mem _ (i1 v h)
          · intro v hv
            rcases List.mem_cons.1 hv with rfl | h
            · exact ⟨false, by simp⟩
            · obtain ⟨f, hf⟩ := i2 v h; exact ⟨f, by simp [hf]⟩

/-- Enough vertices: the loop does not read an entry that has not been written. -/
theorem filterLoop_some : ∀ (l : List (Bool × HP3)) (need au : Nat),
    need ≤ (l.filter (·.1)).length + min au (l.filter (!·.1)).length → ∃ out, filterLoop need au l = some out ∧ out.length = need := by
  intro l
  induction l with
  | nil =>
    intro need au h
    cases need with
    | zero => exact ⟨[], rfl, rfl⟩
    | succ n => simp at h
  | cons x r ih =>
    intro need au h
    obtain ⟨f, w⟩ := x
    cases need with
    | zero => exact ⟨[], rfl, rfl⟩
    | succ n =>
      cases f with
      | true =>
        obtain ⟨q, hq, hl⟩ := ih n au (by simp at h; omega)
        exact ⟨w :: q, by simp [filterLoop, hq], by simp [hl]⟩
      | false =>
        cases au with
        | zero =>
          obtain ⟨q, hq, hl⟩ := ih (n + 1) 0 (by simpa using h)
          exact ⟨q, by simp [filterLoop, hq], hl⟩
        | succ au =>
          obtain ⟨q, hq, hl⟩ := ih n au (by simp at h; omega)
          exact ⟨w :: q, by simp [filterLoop, hq], by simp [hl]⟩

/-- The counters of a builder. -/
structure Counts (b : Builder) : Prop where
  fixed : b.constrainedCount = (b.info.filter (·.1)).length
  le : b.constrainedCount ≤ 3
  free : (b.info.filter (!·.1)).length ≤ 3
  wpos : ∀ f v, (f, v) ∈ b.info → v.w ≠ 0

theorem filter_add (l : List (Bool × HP3)) : (l.filter (·.1)).length + (l.filter (!·.1)).length = l.length := by
  induction l with
  | nil => rfl
  | cons x r ih =>
    obtain ⟨f, w⟩ := x
    cases f <;> simp <;> omega

theorem Counts.length {b : Builder} (h : Counts b) : b.info.length ≤ b.constrainedCount + 3 := by
  have := filter_add b.info
  have := h.fixed
  have := h.free
  omega

/-- The plane built is in general through three accepted vertices, all constrained ones among them. -/
theorem build_plane {b : Builder} (hc : Counts b) {p : HS3} (h : b.buildFromInfo = some p) :
    (∀ v, (true, v) ∈ b.info → p.side v.pt = 0) ∧ p.n ≠ ⟨0, 0, 0⟩ ∧
    ∃ p1 p2 p3 : HP3, (∃ f, (f, p1) ∈ b.info) ∧ (∃ f, (f, p2) ∈ b.info) ∧ (∃ f, (f, p3) ∈ b.info) ∧
      ∃ k : ℚ, 0 < k ∧ ∀ q, p.side q = k * orient p1.pt p2.pt p3.pt q := by
  unfold buildFromInfo at h
  simp only [Option.bind_eq_bind, Option.bind_eq_some_iff] at h
  obtain ⟨out, ho, h⟩ := h
  have h1 := hc.fixed
  have h2 := hc.le
  obtain ⟨m1, m2⟩ := filterLoop_mem _ _ _ _ ho (by omega)
  match out, h, m1, m2 with
  | [p1, p2, p3], h, m1, m2 =>
    simp only [Option.bind_eq_some_iff] at h
    obtain ⟨q, hq, hr⟩ := h
    obtain ⟨f1, i1⟩ := m2 p1 (by simp)
    obtain ⟨f2, i2⟩ := m2 p2 (by simp)
    obtain ⟨f3, i3⟩ := m2 p3 (by simp)
    have hm : p2.w ≠ -2 ^ 63 := by
      intro hc
      unfold HS3.ofHomoPoints at hq
      rw [show abs? p2.w = none by unfold abs?; rw [if_pos hc]] at hq
      simp at hq
    obtain ⟨q', hq', k, hk, hs⟩ := C23_of_homo_points_partial p1 p2 p3 (hc.wpos _ _ i1) (hc.wpos _ _ i2) (hc.wpos _ _ i3) hm
    rw [hq] at hq'; simp only [Option.some.injEq] at hq'; subst hq'
    obtain ⟨⟨g, hg, hgs⟩, hcop⟩ := C61_plane_reduce q p hr
    have hgq : (0 : ℚ) < g := by exact_mod_cast hg
    have hside : ∀ x, p.side x = k / g * orient p1.pt p2.pt p3.pt x := by
      intro x
      have := hgs x
      rw [hs x] at this
      field_simp; linarith
    obtain ⟨o1, o2, o3⟩ := orient_self (a := p1.pt) (b := p2.pt) (c := p3.pt)
    refine ⟨?_, ?_, p1, p2, p3, ⟨f1, i1⟩, ⟨f2, i2⟩, ⟨f3, i3⟩, k / g, by positivity, hside⟩
    · intro v hv
      have := m1 v hv
      simp at this
      rcases this with rfl | rfl | rfl <;> rw [hside] <;> simp [o1, o2, o3]
    · intro hn
      -- then the constant is zero as well, and everything is divisible by two
      have hd : p.d = 0 := by
        have e := hside p1.pt
        rw [o1, mul_zero, HS3.side_eq, hn] at e
        simp at e
        exact_mod_cast e
      have := hcop 2
      simp [hn, hd] at this

theorem counts_free {b : Builder} (h : Counts b) (v : HP3) (hv : v.w ≠ 0) : Counts (b.addUnconstrained v) := by
  unfold addUnconstrained
  by_cases hl : b.info.length < 3
  · rw [if_pos hl]
    have := filter_add b.info
    refine ⟨by simpa using h.fixed, h.le, ?_, ?_⟩
    · simp; omega
    · intro f u hu
      simp at hu
      rcases hu with hu | ⟨-, rfl⟩
      · exact h.wpos f u hu
      · exact hv
  · rw [if_neg hl]; exact h

theorem tryAdd_cases {b b' : Builder} {v : HP3} {r : Bool} (h : b.tryAddConstrained v = some (b', r)) :
    (b.constrainedCount < 3 ∧ r = true ∧ b'.info = b.info ++ [(true, v)] ∧ b'.constrainedCount = b.constrainedCount + 1 ∧
      ((b.constrainedCount + 1 = 3 ∧ b'.planeSet = true ∧ ∃ p, b'.plane = some p ∧ b'.buildFromInfo = some p) ∨
       (b.constrainedCount + 1 ≠ 3 ∧ b'.planeSet = b.planeSet ∧ b'.plane = b.plane))) ∨
    (3 ≤ b.constrainedCount ∧ b' = b ∧ ∃ p, b.plane = some p ∧ r = p.isCoincident v) := by
  unfold tryAddConstrained at h
  by_cases hc : b.constrainedCount < 3
  · rw [if_pos hc] at h
    by_cases h6 : 6 ≤ b.info.length
    · rw [if_pos h6] at h; cases h
    · rw [if_neg h6] at h
      simp only at h
      by_cases h3 : b.constrainedCount + 1 = 3
      · rw [if_pos h3] at h
        simp only [Option.bind_eq_bind, Option.bind_eq_some_iff] at h
        obtain ⟨p, hp, h⟩ := h
        simp at h
        obtain ⟨rfl, rfl⟩ := h
        exact Or.inl ⟨hc, rfl, rfl, rfl, Or.inl ⟨h3, rfl, p, rfl, hp⟩⟩
      · rw [if_neg h3] at h
        simp at h
        obtain ⟨rfl, rfl⟩ := h
        exact Or.inl ⟨hc, rfl, rfl, rfl, Or.inr ⟨h3, rfl, rfl⟩⟩
  · rw [if_neg hc] at h
    simp only [Option.bind_eq_bind, Option.bind_eq_some_iff] at h
    obtain ⟨p, hp, h⟩ := h
    simp at h
    obtain ⟨rfl, rfl⟩ := h
    exact Or.inr ⟨by omega, rfl, p, hp, rfl⟩

theorem large_cases {b b' : Builder} {r : Bool} (h : b.hasLargePlane = some (b', r)) :
    (b.info.length < 3 ∧ b' = b ∧ r = false) ∨
    (3 ≤ b.info.length ∧ b'.info = b.info ∧ b'.constrainedCount = b.constrainedCount ∧ b'.planeSet = true ∧
      ∃ p, b'.plane = some p ∧ (b.planeSet = true → b' = b) ∧ (b.planeSet = false → b.buildFromInfo = some p)) := by
  unfold hasLargePlane at h
  by_cases hl : b.info.length < 3
  · rw [if_pos hl] at h; simp at h
    exact Or.inl ⟨hl, h.1.symm, h.2⟩
  · rw [if_neg hl] at h
    right
    cases hs : b.planeSet with
    | true =>
      simp only [hs, if_true, Option.bind_eq_bind, Option.bind_some, Option.bind_eq_some_iff] at h
      obtain ⟨p, hp, h⟩ := h
      simp at h
      obtain ⟨rfl, -⟩ := h
      exact ⟨by omega, rfl, rfl, hs, p, hp, fun _ => rfl, by simp⟩
    | false =>
      simp only [hs, Bool.false_eq_true, if_false, Option.bind_eq_bind, Option.bind_eq_some_iff] at h
      obtain ⟨b1, ⟨p, hp, h1⟩, p', hp', h⟩ := h
      simp at h1 h; subst h1
      obtain ⟨rfl, -⟩ := h
      exact ⟨by omega, rfl, rfl, rfl, p, rfl, by simp, fun _ => hp⟩

theorem counts_fixed {b b' : Builder} {v : HP3} {r : Bool} (hc : Counts b) (hv : v.w ≠ 0)
    (h : b.tryAddConstrained v = some (b', r)) : Counts b' := by
  rcases tryAdd_cases h with ⟨h1, -, h2, h3, -⟩ | ⟨-, rfl, -⟩
  · refine ⟨?_, by omega, ?_, ?_⟩
    · rw [h2, h3, hc.fixed]; simp
    · rw [h2]; simpa using hc.free
    · intro f u hu
      rw [h2] at hu
      simp at hu
      rcases hu with hu | ⟨-, rfl⟩
      · exact hc.wpos f u hu
      · exact hv
  · exact hc

theorem counts_large {b b' : Builder} {r : Bool} (hc : Counts b) (h : b.hasLargePlane = some (b', r)) : Counts b' := by
  rcases large_cases h with ⟨-, rfl, -⟩ | ⟨-, h1, h2, -⟩
  · exact hc
  · exact ⟨by rw [h1, h2]; exact hc.fixed, by rw [h2]; exact hc.le, by rw [h1]; exact hc.free, by rw [h1]; exact hc.wpos⟩

/-- A plane that is set is through all constrained vertices stored. -/
def Fresh (b : Builder) : Prop :=
  b.planeSet = true → ∃ p, b.plane = some p ∧ ∀ v, (true, v) ∈ b.info → p.side v.pt = 0

/-- The plane of a full builder. -/
def Full (b : Builder) : Prop := b.constrainedCount = 3 → b.planeSet = true ∧ b.Fresh

/-- A plane that is set is defined. -/
def SetOk (b : Builder) : Prop := b.planeSet = true → ∃ p, b.plane = some p ∧ p.n ≠ ⟨0, 0, 0⟩

theorem fresh_build {b : Builder} (hc : Counts b) (hf : Fresh b) {p : HS3} (h : b.build = some p) :
    ∀ v, (true, v) ∈ b.info → p.side v.pt = 0 := by
  unfold build at h
  by_cases hs : b.planeSet = true
  · rw [if_pos hs] at h
    obtain ⟨p', hp', hv⟩ := hf hs
    rw [h] at hp'; simp only [Option.some.injEq] at hp'; subst hp'
    exact hv
  · rw [if_neg hs] at h
    exact (build_plane hc h).1

theorem fresh_free {b : Builder} (hf : Fresh b) (v : HP3) : Fresh (b.addUnconstrained v) := by
  unfold addUnconstrained
  by_cases hl : b.info.length < 3
  · rw [if_pos hl]
    intro hs
    obtain ⟨p, hp, h⟩ := hf hs
    refine ⟨p, hp, fun u hu => h u ?_⟩
    simpa using hu
  · rw [if_neg hl]; exact hf

theorem fresh_fixed {b b' : Builder} {v : HP3} {r : Bool} (hc : Counts b) (hv : v.w ≠ 0) (hf : Fresh b)
    (hok : b.planeSet = false ∨ 2 ≤ b.constrainedCount)
    (h : b.tryAddConstrained v = some (b', r)) : Fresh b' := by
  have hc' := counts_fixed hc hv h
  rcases tryAdd_cases h with ⟨h1, -, h2, h3, ⟨h4, h5, p, hp, hb⟩ | ⟨h4, h5, h6⟩⟩ | ⟨-, rfl, -⟩
  · intro _
    exact ⟨p, hp, (build_plane hc' hb).1⟩
  · intro hs
    rw [h5] at hs
    rcases hok with h | h
    · rw [hs] at h; cases h
    · omega
  · exact hf

theorem fresh_large {b b' : Builder} {r : Bool} (hc : Counts b) (hf : Fresh b) (h : b.hasLargePlane = some (b', r)) :
    Fresh b' := by
  rcases large_cases h with ⟨-, rfl, -⟩ | ⟨-, h1, h2, h3, p, hp, h4, h5⟩
  · exact hf
  · intro _
    cases hs : b.planeSet with
    | true => rw [h4 hs]; exact hf hs
    | false => exact ⟨p, hp, by rw [h1]; exact (build_plane hc (h5 hs)).1⟩

theorem full_free {b : Builder} (hf : Full b) (v : HP3) : Full (b.addUnconstrained v) := by
  intro h
  have h3 : b.constrainedCount = 3 := by
    unfold addUnconstrained at h; split at h <;> exact h
  obtain ⟨h1, h2⟩ := hf h3
  refine ⟨?_, fresh_free h2 v⟩
  unfold addUnconstrained; split <;> exact h1

theorem full_fixed {b b' : Builder} {v : HP3} {r : Bool} (hc : Counts b) (hv : v.w ≠ 0) (hf : Full b)
    (h : b.tryAddConstrained v = some (b', r)) : Full b' := by
  have hc' := counts_fixed hc hv h
  rcases tryAdd_cases h with ⟨h1, -, h2, h3, ⟨h4, h5, p, hp, hb⟩ | ⟨h4, h5, h6⟩⟩ | ⟨-, rfl, -⟩
  · exact fun _ => ⟨h5, fun _ => ⟨p, hp, (build_plane hc' hb).1⟩⟩
  · intro h; omega
  · exact hf

theorem full_large {b b' : Builder} {r : Bool} (hc : Counts b) (hf : Full b) (h : b.hasLargePlane = some (b', r)) :
    Full b' := by
  rcases large_cases h with ⟨-, rfl, -⟩ | ⟨-, h1, h2, h3, p, hp, h4, h5⟩
  · exact hf
  · intro h
    rw [h2] at h
    rw [h4 (hf h).1]; exact hf h

theorem setOk_free {b : Builder} (hf : SetOk b) (v : HP3) : SetOk (b.addUnconstrained v) := by
  unfold addUnconstrained; split <;> exact hf

theorem setOk_fixed {b b' : Builder} {v : HP3} {r : Bool} (hc : Counts b) (hv : v.w ≠ 0) (hf : SetOk b)
    (h : b.tryAddConstrained v = some (b', r)) : SetOk b' := by
  have hc' := counts_fixed hc hv h
  rcases tryAdd_cases h with ⟨h1, -, h2, h3, ⟨h4, h5, p, hp, hb⟩ | ⟨h4, h5, h6⟩⟩ | ⟨-, rfl, -⟩
  · exact fun _ => ⟨p, hp, (build_plane hc' hb).2.1⟩
  · intro hs; rw [h5] at hs; rw [h6]; exact hf hs
  · exact hf

theorem setOk_large {b b' : Builder} {r : Bool} (hc : Counts b) (hf : SetOk b) (h : b.hasLargePlane = some (b', r)) :
    SetOk b' := by
  rcases large_cases h with ⟨-, rfl, -⟩ | ⟨-, h1, h2, h3, p, hp, h4, h5⟩
  · exact hf
  · intro _
    cases hs : b.planeSet with
    | true => rw [h4 hs]; exact hf hs
    | false => exact ⟨p, hp, (build_plane hc (h5 hs)).2.1⟩

theorem setOk_build {b : Builder} (hc : Counts b) (hf : SetOk b) {p : HS3} (h : b.build = some p) : p.n ≠ ⟨0, 0, 0⟩ := by
  unfold build at h
  by_cases hs : b.planeSet = true
  · rw [if_pos hs] at h
    obtain ⟨p', hp', hv⟩ := hf hs
    rw [h] at hp'; simp only [Option.some.injEq] at hp'; subst hp'
    exact hv
  · rw [if_neg hs] at h
    exact (build_plane hc h).2.1

end Builder
end Walnut.Repair
