/-
C53: partners survive moving half-edges in memory.
-/
import Verif.Conn.Move
import Mathlib.Tactic.IntervalCases

namespace Walnut.Props
open Walnut.Conn

variable {M : Mem}

/-- The edges 7 and 8 at the addresses 0 and 1, the edge 9 at 10; 8 and 9 are partners.  The new edge 5 is at 20. -/
def exMem : Mem where
  label a := if a = 0 then some 7 else if a = 1 then some 8 else if a = 10 then some 9 else if a = 20 then some 5 else none
  ptr a := if a = 1 then some 10 else if a = 10 then some 1 else none

theorem exMem_ok : exMem.Ok := by
  refine ⟨?_, ?_, ?_, ?_⟩
  · intro a b h
    simp only [exMem] at h ⊢
    split at h
    · cases h; rename_i h; subst h; rfl
    · split at h
      · cases h; rename_i h; subst h; rfl
      · cases h
  · intro a h
    simp only [exMem] at h
    split at h
    · cases h; omega
    · split at h
      · cases h; omega
      · cases h
  · intro a h
    simp only [exMem] at h ⊢
    split at h
    · rename_i ha; subst ha; simp
    · split at h
      · rename_i ha; subst ha; simp
      · simp at h
  · intro a b e ha hb
    simp only [exMem] at ha hb
    split at ha
    · cases ha
      repeat (split at hb; first | omega | simp at hb)
      simp at hb
    · split at ha
      · cases ha
        repeat (split at hb; first | omega | simp at hb)
        simp at hb
      · split at ha
        · cases ha
          repeat (split at hb; first | omega | simp at hb)
          simp at hb
        · split at ha
          · cases ha
            repeat (split at hb; first | omega | simp at hb)
            simp at hb
          · cases ha

/-- After a move construction or assignment to an object without a partner, the same half-edges are partners, and partners are
mutual.  The object that was moved from has no partner. -/
theorem C53_move (h : M.Ok) {dst src : Nat} (hne : dst ≠ src) (hd : M.ptr dst = none) :
    ∀ M' ∈ [M.construct dst src, M.assign dst src], M'.Ok ∧ (∀ e f, M'.Partners e f ↔ M.Partners e f) ∧
      M'.label dst = M.label src ∧ M'.ptr src = none ∧ ∀ a, a ≠ dst → a ≠ src → M'.label a = M.label a := by
  have key : ∀ M', Moved M M' dst src → M'.Ok ∧ (∀ e f, M'.Partners e f ↔ M.Partners e f) ∧
      M'.label dst = M.label src ∧ M'.ptr src = none ∧ ∀ a, a ≠ dst → a ≠ src → M'.label a = M.label a := by
    intro M' m
    refine ⟨m.ok h hne hd, m.partners h hne hd, by rw [m.at, if_pos rfl], (m.none hne).1, ?_⟩
    intro a h1 h2
    rw [m.at, if_neg h1, if_neg h2]
  intro M' hm
  rcases List.mem_cons.1 hm with rfl | hm
  · exact key _ (construct_moved h hne hd)
  · rw [List.mem_singleton] at hm
    subst hm
    exact key _ (assign_moved h hne hd)

example : exMem.Ok ∧ (2 : Nat) ≠ 1 ∧ exMem.ptr 2 = none ∧ exMem.Partners 8 9 ∧ (exMem.construct 2 1).ptr 10 = some 2 ∧
    (exMem.assign 2 1).ptr 2 = some 10 :=
  ⟨exMem_ok, by decide, rfl, ⟨1, 10, rfl, rfl, rfl⟩, by decide, by decide⟩

/-- After inserting a half-edge into the vector of a polygon, whether or not its storage has to grow, the vector has the half-edges
in the right order, and the same half-edges are partners. -/
theorem C53_insert (h : M.Ok) {base base' : Nat} {l : List Nat} (hl : M.Holds base l) {i tmp e : Nat} (hi : i ≤ l.length)
    (ht : tmp < base ∨ base + l.length < tmp) (he : M.label tmp = some e) :
    (M.ptr (base + l.length) = none →
      let M' := M.insertInPlace base l.length i tmp
      M'.Ok ∧ M'.Holds base (l.insertIdx i e) ∧ (∀ e f, M'.Partners e f ↔ M.Partners e f) ∧
        ∀ a, a < base ∨ base + l.length < a → a ≠ tmp → M'.label a = M.label a) ∧
    ((∀ j ≤ l.length, M.ptr (base' + j) = none) → base' + l.length < base ∨ base + l.length ≤ base' → tmp < base' ∨ base' + l.length < tmp →
      let M' := M.insertGrow base base' l.length i tmp
      M'.Ok ∧ M'.Holds base' (l.insertIdx i e) ∧ (∀ e f, M'.Partners e f ↔ M.Partners e f) ∧
        ∀ a, a < base ∨ base + l.length ≤ a → a < base' ∨ base' + l.length < a → a ≠ tmp → M'.label a = M.label a) := by
  have len : (l.insertIdx i e).length = l.length + 1 := List.length_insertIdx_of_le_length hi e
  have at' : ∀ j, (l.insertIdx i e)[j]? = if j < i then l[j]? else if j = i then some e else l[j - 1]? := by
    intro j
    rw [List.getElem?_insertIdx]
    split
    · rfl
    · split
      · rw [if_pos (by omega)]
      · rfl
  constructor
  · intro h0
    by_cases hil : i = l.length
    · have hne : base + l.length ≠ tmp := by omega
      have m := construct_moved h hne h0
      simp only [Mem.insertInPlace, if_pos hil]
      refine ⟨m.ok h hne h0, ?_, m.partners h hne h0, ?_⟩
      · intro j hj
        rw [at', m.at]
        by_cases hji : j < i
        · rw [if_neg (by omega), if_neg (by omega), if_pos hji]
          exact hl j (by omega)
        · have : j = l.length := by omega
          rw [if_pos (by omega), if_neg hji, if_pos (by omega), he]
      · intro a ha hat
        rw [m.at, if_neg (by omega), if_neg hat]
    · simp only [Mem.insertInPlace, if_neg hil]
      have hne : base + l.length ≠ base + l.length - 1 := by omega
      have m := construct_moved h hne h0
      have hb : base + i + (l.length - 1 - i) = base + l.length - 1 := by omega
      obtain ⟨s1, s2, s3, s4⟩ := shiftUp_spec (base + i) (l.length - 1 - i) _ (m.ok h hne h0) (by rw [hb]; exact (m.none hne).1)
      have hne2 : base + i ≠ tmp := by omega
      have m2 := assign_moved s1.ok hne2 s3
      have s := ((m.same h hne h0).trans s1).trans (m2.same s1.ok hne2 s3)
      refine ⟨s.ok, ?_, s.partners, ?_⟩
      · intro j hj
        rw [at', m2.at]
        by_cases j1 : j < i
        · rw [if_neg (by omega), if_neg (by omega), if_pos j1, s2]
          rw [if_neg (show ¬ base + j = base + i by omega), if_neg (show ¬ (base + i < base + j ∧ base + j ≤ base + i + (l.length - 1 - i)) by omega)]
          simp only [ite_self]
          rw [m.at, if_neg (by omega), if_neg (by omega)]
          exact hl j (by omega)
        · by_cases j2 : j = i
          · subst j2
            rw [if_pos rfl, if_neg j1, if_pos rfl, s2, if_neg (show ¬ tmp = base + j by omega),
              if_neg (show ¬ (base + j < tmp ∧ tmp ≤ base + j + (l.length - 1 - j)) by omega)]
            simp only [ite_self]
            rw [m.at, if_neg (by omega), if_neg (by omega), he]
          · rw [if_neg (by omega), if_neg (by omega), if_neg j1, if_neg j2, s2]
            have hj1 := hl (j - 1) (by omega)
            by_cases j3 : j = l.length
            · have e1 : base + j = base + l.length := by omega
              have : (M.construct (base + l.length) (base + l.length - 1)).label (base + j) = l[j - 1]? := by
                rw [m.at, if_pos e1, ← hj1]
                congr 1; omega
              rw [if_neg (show ¬ base + j = base + i by omega), if_neg (show ¬ (base + i < base + j ∧ base + j ≤ base + i + (l.length - 1 - i)) by omega)]
              simp only [ite_self]
              exact this
            · rw [if_neg (show ¬ l.length - 1 - i = 0 by omega), if_neg (show ¬ base + j = base + i by omega),
                if_pos (show (base + i < base + j ∧ base + j ≤ base + i + (l.length - 1 - i)) by omega), m.at, if_neg (by omega), if_neg (by omega), ← hj1]
              congr 1; omega
      · intro a ha hat
        rw [m2.at, if_neg (by omega), if_neg hat, s2, if_neg (show ¬ a = base + i by omega),
          if_neg (show ¬ (base + i < a ∧ a ≤ base + i + (l.length - 1 - i)) by omega)]
        simp only [ite_self]
        rw [m.at, if_neg (by omega), if_neg (by omega)]
  · intro h0 hd ht'
    have hne : base' + i ≠ tmp := by omega
    have hd0 := h0 i hi
    have m := construct_moved h hne hd0
    obtain ⟨r1, r2, r3⟩ := moveRange_spec i base' base _ (m.ok h hne hd0) (by omega) (by
      intro j hj
      exact m.keep (by omega) (h0 j (by omega)))
    obtain ⟨q1, q2, q3⟩ := moveRange_spec (l.length - i) (base' + i + 1) (base + i) _ r1.ok (by omega) (by
      intro j hj
      refine r3 _ (by omega) (m.keep (by omega) ?_)
      have := h0 (i + 1 + j) (by omega)
      rw [show base' + (i + 1 + j) = base' + i + 1 + j by omega] at this
      exact this)
    have s := ((m.same h hne hd0).trans r1).trans q1
    refine ⟨s.ok, ?_, s.partners, ?_⟩
    · intro j hj
      rw [at']
      change (Mem.moveRange (base' + i + 1) (base + i) (l.length - i) (Mem.moveRange base' base i (M.construct (base' + i) tmp))).label _ = _
      rw [q2]
      by_cases j1 : j < i
      · rw [if_neg (by omega), if_neg (by omega), if_pos j1, r2, if_pos (by omega), m.at, if_neg (by omega), if_neg (by omega), ← hl j (by omega)]
        congr 1; omega
      · by_cases j2 : j = i
        · rw [if_neg (by omega), if_neg (by omega), if_neg j1, if_pos j2, r2, if_neg (by omega), if_neg (by omega), m.at, if_pos (by omega), he]
        · rw [if_pos (by omega), if_neg j1, if_neg j2, r2, if_neg (by omega), if_neg (by omega), m.at, if_neg (by omega), if_neg (by omega),
            ← hl (j - 1) (by omega)]
          congr 1; omega
    · intro a ha ha' hat
      change (Mem.moveRange (base' + i + 1) (base + i) (l.length - i) (Mem.moveRange base' base i (M.construct (base' + i) tmp))).label _ = _
      rw [q2, if_neg (by omega), if_neg (by omega), r2, if_neg (by omega), if_neg (by omega), m.at, if_neg (by omega), if_neg hat]

example : exMem.Ok ∧ exMem.Holds 0 [7, 8] ∧ exMem.label 20 = some 5 ∧ exMem.ptr 20 = none ∧ exMem.ptr 2 = none ∧
    (∀ j ≤ 2, exMem.ptr (30 + j) = none) ∧ (exMem.insertInPlace 0 2 1 20).ptr 2 = some 10 ∧ (exMem.insertGrow 0 30 2 1 20).ptr 32 = some 10 := by
  refine ⟨exMem_ok, ?_, rfl, rfl, rfl, by decide, by decide, by decide⟩
  intro i hi
  change i < 2 at hi
  interval_cases i <;> rfl

/-- After erasing a half-edge without a partner, the vector has the other half-edges in the same order, and the same half-edges are
partners. -/
theorem C53_erase (h : M.Ok) {base : Nat} {l : List Nat} (hl : M.Holds base l) {i : Nat} (hi : i < l.length) (h0 : M.ptr (base + i) = none) :
    let M' := M.eraseAt base l.length i
    M'.Ok ∧ M'.Holds base (l.eraseIdx i) ∧ (∀ e f, M'.Partners e f ↔ M.Partners e f) ∧
      ∀ a, a < base ∨ base + l.length ≤ a → M'.label a = M.label a := by
  obtain ⟨s1, s2, s3, s4⟩ := shiftDown_spec (l.length - 1 - i) (base + i) M h h0
  have hb : base + i + (l.length - 1 - i) = base + l.length - 1 := by omega
  rw [hb] at s3
  have lab : ∀ a, (M.eraseAt base l.length i).label a =
      if a = base + l.length - 1 then none else (M.shiftDown (base + i) (l.length - 1 - i)).label a := by
    intro a
    simp [Mem.eraseAt, Function.update_apply]
  have pn : ∀ a b, (M.shiftDown (base + i) (l.length - 1 - i)).ptr a = some b → a ≠ base + l.length - 1 ∧ b ≠ base + l.length - 1 := by
    intro a b hab
    refine ⟨?_, ?_⟩
    · rintro rfl; rw [s3] at hab; cases hab
    · rintro rfl; have := s1.ok.sym _ _ hab; rw [s3] at this; cases this
  refine ⟨⟨s1.ok.sym, s1.ok.irrefl, ?_, ?_⟩, ?_, ?_, ?_⟩
  · intro a ha
    obtain ⟨b, hb⟩ := Option.ne_none_iff_exists'.1 ha
    rw [lab, if_neg (pn a b hb).1]
    exact s1.ok.live a ha
  · intro a b e ha hb
    rw [lab] at ha hb
    split at ha
    · cases ha
    · split at hb
      · cases hb
      · exact s1.ok.inj _ _ _ ha hb
  · intro j hj
    rw [List.length_eraseIdx_of_lt hi] at hj
    rw [lab, if_neg (by omega), s2, List.getElem?_eraseIdx]
    by_cases hji : j < i
    · rw [if_pos hji, if_neg (show ¬ base + j = base + i + (l.length - 1 - i) by omega), if_neg (show ¬ (base + i ≤ base + j ∧ base + j < base + i + (l.length - 1 - i)) by omega)]
      simp only [ite_self]
      exact hl j (by omega)
    · rw [if_neg hji, if_neg (show ¬ l.length - 1 - i = 0 by omega), if_neg (show ¬ base + j = base + i + (l.length - 1 - i) by omega), if_pos (by omega)]
      exact hl (j + 1) (by omega)
  · intro e f
    rw [← s1.partners]
    constructor
    · rintro ⟨a, b, ha, hb, hab⟩
      have := pn a b hab
      rw [lab, if_neg this.1] at ha
      rw [lab, if_neg this.2] at hb
      exact ⟨a, b, ha, hb, hab⟩
    · rintro ⟨a, b, ha, hb, hab⟩
      have := pn a b hab
      exact ⟨a, b, by rw [lab, if_neg this.1]; exact ha, by rw [lab, if_neg this.2]; exact hb, hab⟩
  · intro a ha
    rw [lab, if_neg (by omega), s2, if_neg (show ¬ a = base + i + (l.length - 1 - i) by omega), if_neg (show ¬ (base + i ≤ a ∧ a < base + i + (l.length - 1 - i)) by omega)]
    simp only [ite_self]

example : exMem.Ok ∧ exMem.Holds 0 [7, 8] ∧ exMem.ptr (0 + 0) = none ∧ (exMem.eraseAt 0 2 0).ptr 0 = some 10 ∧ (exMem.eraseAt 0 2 0).ptr 10 = some 0 := by
  refine ⟨exMem_ok, ?_, rfl, by decide, by decide⟩
  intro i hi
  change i < 2 at hi
  interval_cases i <;> rfl

/-- Move assignment needs that the objects are not partners: else both become their own partners. -/
theorem C53_move_assign_partner_false : ∃ M : Mem, M.Ok ∧ M.ptr 1 = some 10 ∧ (M.assign 1 10).ptr 1 = some 1 ∧ (M.assign 1 10).ptr 10 = some 10 :=
  ⟨exMem, exMem_ok, rfl, by decide, by decide⟩

end Walnut.Props
