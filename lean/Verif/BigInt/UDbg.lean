/- A build with assertions either aborts or computes what the build without
assertions computes. -/
import Verif.BigInt.UModel

namespace Walnut.BigUInt

theorem read_mono {b : Blk} {i : Nat} {w : Word} (h : b.read true i = some w) :
    b.read false i = some w := by
  unfold Blk.read at *
  simp only [Bool.true_and, decide_eq_true_eq, Bool.false_and, Bool.false_eq_true, if_false] at *
  split at h
  · cases h
  · exact h

theorem getAtBitOffset_mono {b : Blk} {s : Nat} {w : Word}
    (h : getAtBitOffset true b s = some w) : getAtBitOffset false b s = some w := by
  unfold getAtBitOffset at *
  simp only [Option.bind_eq_bind] at *
  split at h
  · rename_i hc
    rw [if_pos hc]
    simp only [Option.bind_eq_some_iff] at *
    obtain ⟨n, h1, x, h2, h3⟩ := h
    exact ⟨n, read_mono h1, x, read_mono h2, h3⟩
  · rename_i hc
    rw [if_neg hc]
    simp only [Option.bind_eq_some_iff] at *
    obtain ⟨n, h1, x, h2, h3⟩ := h
    exact ⟨n, h1, x, read_mono h2, h3⟩

theorem subShiftLoop_mono (k : Nat) : ∀ {os ws : List Word} {u : Nat} {p : Word} {c : Bool}
    {t : List Word}, subShiftLoop true k ws os u p c = some t →
      subShiftLoop false k ws os u p c = some t
  | [], ws, u, p, c, t, h => by
    unfold subShiftLoop at *; exact h
  | o :: os, [], u, p, c, t, h => by
    unfold subShiftLoop at h; cases h
  | o :: os, w :: ws, u, p, c, t, h => by
    unfold subShiftLoop at *
    split at h
    · cases h
    · simp only [Bool.false_and, Bool.false_eq_true, if_false]
      simp only [Option.map_eq_some_iff] at *
      obtain ⟨x, h1, h2⟩ := h
      exact ⟨x, subShiftLoop_mono k h1, h2⟩

theorem subtractLeftShifted_mono {b r : Blk} {o : List Word} {s : Nat}
    (h : subtractLeftShifted true b o s = some r) : subtractLeftShifted false b o s = some r := by
  unfold subtractLeftShifted at *
  simp only [Option.map_eq_some_iff] at *
  obtain ⟨x, h1, h2⟩ := h
  exact ⟨x, subShiftLoop_mono _ h1, h2⟩

theorem divStep1_mono {other : List Word} {d : Word} {o : Int} {s s' : DivState}
    (h : divStep1 true other d o s = some s') : divStep1 false other d o s = some s' := by
  unfold divStep1 at *
  simp only [Option.bind_eq_bind, Option.bind_eq_some_iff] at *
  obtain ⟨x, h1, h2⟩ := h
  refine ⟨x, getAtBitOffset_mono h1, ?_⟩
  split at h2
  · simp at h2
  · rename_i hd
    simp only [hd, if_false] at *
    simp only [Option.bind_eq_some_iff] at *
    obtain ⟨q, h3, m, h4, h5⟩ := h2
    refine ⟨q, h3, m, subtractLeftShifted_mono h4, ?_⟩
    simp only [Bool.false_and, Bool.false_eq_true, if_false]
    split at h5
    · simp only [Option.bind_eq_some_iff] at h5
      obtain ⟨y, _, h6⟩ := h5
      split at h6
      · simpa using h6
      · simp at h6
    · exact h5

theorem divStep2_mono {other : List Word} {d : Word} {o : Int} {s s' : DivState}
    (h : divStep2 true other d o s = some s') : divStep2 false other d o s = some s' := by
  unfold divStep2 at *
  simp only [Option.bind_eq_bind, Option.bind_eq_some_iff] at *
  obtain ⟨x, h1, h2⟩ := h
  refine ⟨x, getAtBitOffset_mono h1, ?_⟩
  split at h2
  · simp at h2
  · rename_i hd
    simp only [hd, if_false] at *
    simp only [Option.bind_eq_some_iff] at *
    obtain ⟨q, h3, m, h4, h5⟩ := h2
    exact ⟨q, h3, m, subtractLeftShifted_mono h4, h5⟩

theorem divLoop1_mono {other : List Word} {d : Word} {o : Int} : ∀ {fuel : Nat} {s s' : DivState},
    divLoop1 true other d o fuel s = some s' → divLoop1 false other d o fuel s = some s' := by
  intro fuel
  induction fuel with
  | zero => intro s s' h; exact h
  | succ n ih =>
    intro s s' h
    unfold divLoop1 at h ⊢
    split at h
    · rename_i hc
      rw [if_pos hc]
      simp only [Option.bind_eq_bind, Option.bind_eq_some_iff] at h ⊢
      obtain ⟨x, h1, h2⟩ := h
      exact ⟨x, divStep1_mono h1, ih h2⟩
    · rename_i hc
      rw [if_neg hc]; exact h

theorem divLoop2_mono {other : List Word} {d : Word} {o : Int} : ∀ {fuel : Nat} {s s' : DivState},
    divLoop2 true other d o fuel s = some s' → divLoop2 false other d o fuel s = some s' := by
  intro fuel
  induction fuel with
  | zero => intro s s' h; exact h
  | succ n ih =>
    intro s s' h
    unfold divLoop2 at h ⊢
    split at h
    · rename_i hc
      rw [if_pos hc]
      simp only [Option.bind_eq_bind, Option.bind_eq_some_iff] at h ⊢
      obtain ⟨x, h1, h2⟩ := h
      exact ⟨x, divStep2_mono h1, ih h2⟩
    · rename_i hc
      rw [if_neg hc]; exact h

theorem divideRemainder_mono {a b : List Word} {x : List Word × List Word}
    (h : divideRemainder true a b = some x) : divideRemainder false a b = some x := by
  unfold divideRemainder at *
  split
  · rename_i hc; rw [if_pos hc] at h; exact h
  · rename_i hc; rw [if_neg hc] at h
    unfold divideRemainderSlow at *
    simp only [Option.bind_eq_bind, Option.bind_eq_some_iff] at *
    obtain ⟨r0, h1, s1, h2, s2, h3, h4⟩ := h
    refine ⟨r0, h1, s1, divLoop1_mono h2, s2, divLoop2_mono h3, ?_⟩
    simp only [Bool.false_and, Bool.false_eq_true, if_false]
    split at h4
    · simp at h4
    · exact h4

end Walnut.BigUInt
