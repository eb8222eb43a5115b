/- C47: ConcatRange is the concatenation of its ranges. -/
import Verif.Util.Concat
import Mathlib.Tactic.Common
import Mathlib.Data.List.Basic

namespace Walnut.Props
open Walnut.Util

variable {α : Type}

/-- The elements from `s` up to `e`. -/
def sliceOf (mem : Nat → List α) (s e : Pos) : List α :=
  match s, e with
  | some s, some e => ((mem s.c).take e.i).drop s.i
  | _, _ => []

/-- The elements of a sequence of ranges, in order. -/
def contents (mem : Nat → List α) (rs : CRanges) : List α :=
  rs.flatMap fun R => sliceOf mem R.first R.second

/-- `[s, e)` is a non-empty range of a container. -/
def ValidRange (mem : Nat → List α) (s e : Pos) : Prop :=
  ∃ c i j, s = some ⟨c, i⟩ ∧ e = some ⟨c, j⟩ ∧ i < j ∧ j ≤ (mem c).length

/-- The class invariant: non-empty ranges and then the terminator. -/
inductive CWF (mem : Nat → List α) : CRanges → Prop where
  | term : CWF mem [.term]
  | cons (R : CRange) (rs : CRanges) : ValidRange mem R.first R.second → CWF mem rs → CWF mem (R :: rs)

/-- The iterator of the `n`-th element. -/
def itAt : Nat → CRanges → Nat → CIt
  | base, [], _ => ⟨base, none⟩
  | base, R :: rs, n =>
    match R.first, R.second with
    | some s, some e => if n < e.i - s.i then ⟨base, some ⟨s.c, s.i + n⟩⟩ else itAt (base + 1) rs (n - (e.i - s.i))
    | _, _ => ⟨base, none⟩

theorem contents_nil (mem : Nat → List α) : contents mem [CRange.term] = [] := rfl

theorem contents_cons (mem : Nat → List α) (R : CRange) (rs : CRanges) :
    contents mem (R :: rs) = sliceOf mem R.first R.second ++ contents mem rs := by
  simp [contents]

theorem contents_append (mem : Nat → List α) (a b : CRanges) :
    contents mem (a ++ b) = contents mem a ++ contents mem b := by
  simp [contents]

theorem CWF.ne {mem : Nat → List α} {rs : CRanges} (h : CWF mem rs) : rs ≠ [] := by
  cases h <;> simp

theorem CWF.dropLast {mem : Nat → List α} {rs : CRanges} (h : CWF mem rs) :
    rs = rs.dropLast ++ [.term] ∧ ∀ R ∈ rs.dropLast, ValidRange mem R.first R.second := by
  induction h with
  | term => simp
  | cons R rs hR h ih =>
    obtain ⟨h1, h2⟩ := ih
    have := h.ne
    rw [List.dropLast_cons_of_ne_nil this]
    refine ⟨by rw [List.cons_append, ← h1], ?_⟩
    intro R' hR'
    rcases List.mem_cons.1 hR' with rfl | hR'
    · exact hR
    · exact h2 R' hR'

theorem CWF.of {mem : Nat → List α} (l : List CRange) (h : ∀ R ∈ l, ValidRange mem R.first R.second) :
    CWF mem (l ++ [.term]) := by
  induction l with
  | nil => exact .term
  | cons R l ih =>
    exact .cons R _ (h R List.mem_cons_self) (ih fun R' hR' => h R' (List.mem_cons_of_mem _ hR'))

theorem itAt_zero {mem : Nat → List α} {rs : CRanges} (h : CWF mem rs) (base : Nat) :
    ∃ R, rs[0]? = some R ∧ itAt base rs 0 = ⟨base, R.first⟩ := by
  cases h with
  | term => exact ⟨.term, rfl, rfl⟩
  | cons R rs hR h =>
    obtain ⟨c, i, j, h1, h2, h3, h4⟩ := hR
    refine ⟨R, rfl, ?_⟩
    simp only [itAt, h1, h2]
    rw [if_pos (by omega)]
    rfl

theorem getElem?_pre (pre : CRanges) (R : CRange) (rs : CRanges) :
    (pre ++ R :: rs)[pre.length]? = some R := by simp

theorem getElem?_pre1 (pre : CRanges) (R : CRange) (rs : CRanges) :
    (pre ++ R :: rs)[pre.length + 1]? = rs[0]? := by
  rw [List.getElem?_append_right (by omega)]
  simp

theorem slice_length {mem : Nat → List α} {c i j : Nat} (h : i < j) (h' : j ≤ (mem c).length) :
    (sliceOf mem (some ⟨c, i⟩) (some ⟨c, j⟩)).length = j - i := by
  simp [sliceOf]; omega

theorem inc_itAt {mem : Nat → List α} {rs : CRanges} (h : CWF mem rs) :
    ∀ (pre : CRanges) (n : Nat), n < (contents mem rs).length →
    inc (pre ++ rs) (itAt pre.length rs n) = some (itAt pre.length rs (n + 1)) := by
  induction h with
  | term => intro pre n hn; simp [contents_nil] at hn
  | cons R rs hR h ih =>
    intro pre n hn
    obtain ⟨c, i, j, h1, h2, h3, h4⟩ := hR
    rw [contents_cons, List.length_append, h1, h2, slice_length h3 h4] at hn
    simp only [itAt, h1, h2]
    by_cases hnj : n < j - i
    · rw [if_pos hnj]
      simp only [inc, rangeEnd, getElem?_pre, Option.map_some, h2]
      by_cases hl : n + 1 < j - i
      · rw [if_pos hl, if_neg]
        · rfl
        · simp only [Option.some.injEq, InIt.mk.injEq, true_and]; omega
      · rw [if_neg hl, if_pos]
        · obtain ⟨R', hR', hz⟩ := itAt_zero h (pre.length + 1)
          simp only [advanceRange, getElem?_pre1, hR']
          rw [show n + 1 - (j - i) = 0 by omega, hz]
        · simp only [Option.some.injEq, InIt.mk.injEq, true_and]; omega
    · rw [if_neg hnj, if_neg (by omega)]
      have := ih (pre ++ [R]) (n - (j - i)) (by omega)
      simp only [List.append_assoc, List.cons_append, List.nil_append, List.length_append,
        List.length_cons, List.length_nil, Nat.zero_add] at this
      rw [this]
      congr 2
      omega

theorem dec_itAt {mem : Nat → List α} {rs : CRanges} (h : CWF mem rs) :
    ∀ (pre : CRanges) (n : Nat), n < (contents mem rs).length →
    dec (pre ++ rs) (itAt pre.length rs (n + 1)) = some (itAt pre.length rs n) := by
  induction h with
  | term => intro pre n hn; simp [contents_nil] at hn
  | cons R rs hR h ih =>
    intro pre n hn
    obtain ⟨c, i, j, h1, h2, h3, h4⟩ := hR
    rw [contents_cons, List.length_append, h1, h2, slice_length h3 h4] at hn
    simp only [itAt, h1, h2]
    by_cases hl : n + 1 < j - i
    · rw [if_pos hl, if_pos (by omega)]
      simp only [dec, rangeBegin, getElem?_pre, Option.map_some, h1]
      rw [if_neg (by simp only [Option.some.injEq, InIt.mk.injEq, true_and]; omega)]
      simp only
      rw [if_neg (by omega)]
      rfl
    · rw [if_neg hl]
      by_cases hnj : n < j - i
      · rw [if_pos hnj, show n + 1 - (j - i) = 0 by omega]
        obtain ⟨R', hR', hz⟩ := itAt_zero h (pre.length + 1)
        rw [hz]
        simp only [dec, rangeBegin, getElem?_pre1, hR', Option.map_some, if_true]
        rw [if_neg (by omega)]
        simp only [Nat.add_sub_cancel, getElem?_pre, h2]
        rw [if_neg (by omega)]
        simp only [Option.some.injEq, CIt.mk.injEq, InIt.mk.injEq, true_and]
        omega
      · rw [if_neg hnj]
        have := ih (pre ++ [R]) (n - (j - i)) (by omega)
        simp only [List.append_assoc, List.cons_append, List.nil_append, List.length_append,
          List.length_cons, List.length_nil, Nat.zero_add] at this
        rw [show n + 1 - (j - i) = n - (j - i) + 1 by omega]
        exact this

theorem deref_itAt {mem : Nat → List α} {rs : CRanges} (h : CWF mem rs) :
    ∀ (base n : Nat), cderef mem (itAt base rs n) = (contents mem rs)[n]? := by
  induction h with
  | term => intro base n; rw [contents_nil]; simp [itAt, cderef, CRange.term]
  | cons R rs hR h ih =>
    intro base n
    obtain ⟨c, i, j, h1, h2, h3, h4⟩ := hR
    rw [contents_cons, h1, h2]
    simp only [itAt, h1, h2]
    by_cases hnj : n < j - i
    · rw [if_pos hnj, List.getElem?_append_left (by rw [slice_length h3 h4]; exact hnj)]
      simp only [cderef, sliceOf, List.getElem?_drop]
      rw [List.getElem?_take_of_lt (by omega)]
    · rw [if_neg hnj, List.getElem?_append_right (by rw [slice_length h3 h4]; omega),
        slice_length h3 h4]
      exact ih _ _

theorem end_itAt {mem : Nat → List α} {rs : CRanges} (h : CWF mem rs) :
    ∀ base, itAt base rs (contents mem rs).length = ⟨base + (rs.length - 1), none⟩ := by
  induction h with
  | term => intro base; rfl
  | cons R rs hR h ih =>
    intro base
    obtain ⟨c, i, j, h1, h2, h3, h4⟩ := hR
    rw [contents_cons, List.length_append, h1, h2, slice_length h3 h4]
    simp only [itAt, h1, h2]
    rw [if_neg (by omega), Nat.add_sub_cancel_left, ih]
    have := List.length_pos_iff.2 h.ne
    simp only [CIt.mk.injEq, and_true, List.length_cons]
    omega

/-- Repeating a partial step. -/
def iterate (f : CIt → Option CIt) : Nat → CIt → Option CIt
  | 0, it => some it
  | n + 1, it => (iterate f n it).bind f

/-- C47: from `begin()`, `n` increments reach the `n`-th element of the
concatenation, and as many increments as there are elements reach `end()`. -/
theorem C47_forward (mem : Nat → List α) (rs : CRanges) (h : CWF mem rs) :
    ∃ b, cbegin rs = some b ∧ iterate (inc rs) (contents mem rs).length b = cend rs ∧
    ∀ n x, (contents mem rs)[n]? = some x →
      ∃ it, iterate (inc rs) n b = some it ∧ cderef mem it = some x ∧ some it ≠ cend rs := by
  obtain ⟨R, hR, hz⟩ := itAt_zero h 0
  refine ⟨⟨0, R.first⟩, by simp [cbegin, hR], ?_⟩
  have key : ∀ n, n ≤ (contents mem rs).length → iterate (inc rs) n ⟨0, R.first⟩ = some (itAt 0 rs n) := by
    intro n
    induction n with
    | zero => intro _; rw [hz]; rfl
    | succ n ih =>
      intro hn
      simp only [iterate, ih (by omega), Option.bind_some]
      exact inc_itAt h [] n (by omega)
  have hlen := List.length_pos_iff.2 h.ne
  have hend : cend rs = some ⟨rs.length - 1, none⟩ := by
    obtain ⟨h1, -⟩ := h.dropLast
    have : rs[rs.length - 1]? = some .term := by
      rw [List.getElem?_eq_getElem (by omega)]
      congr 1
      rw [← List.getLast_eq_getElem h.ne]
      conv => lhs; arg 1; rw [h1]
      simp
    simp only [cend, this, Option.map_some, CRange.term]
    rw [if_neg (by omega)]
  refine ⟨?_, ?_⟩
  · rw [key _ (Nat.le_refl _), end_itAt h, hend, Nat.zero_add]
  · intro n x hx
    have hn : n < (contents mem rs).length := by
      by_contra hc
      rw [List.getElem?_eq_none (by omega)] at hx
      simp at hx
    have hd : cderef mem (itAt 0 rs n) = some x := by rw [deref_itAt h, hx]
    refine ⟨itAt 0 rs n, key n (by omega), hd, ?_⟩
    rw [hend]
    intro he
    obtain he := Option.some.inj he
    rw [he] at hd
    simp [cderef] at hd

/-- C47: from `end()`, `n + 1` decrements reach the `n`-th element from the back. -/
theorem C47_backward (mem : Nat → List α) (rs : CRanges) (h : CWF mem rs) :
    ∃ e, cend rs = some e ∧ iterate (dec rs) (contents mem rs).length e = cbegin rs ∧
    ∀ n x, (contents mem rs).reverse[n]? = some x →
      ∃ it, iterate (dec rs) (n + 1) e = some it ∧ cderef mem it = some x := by
  obtain ⟨b, hb, hf, -⟩ := C47_forward mem rs h
  obtain ⟨R, hR, hz⟩ := itAt_zero h 0
  have hb' : b = itAt 0 rs 0 := by
    simp only [cbegin, hR, Option.map_some, Option.some.injEq] at hb
    rw [hz, hb]
  have key1 : ∀ n, n ≤ (contents mem rs).length → iterate (inc rs) n b = some (itAt 0 rs n) := by
    intro n
    induction n with
    | zero => intro _; rw [hb']; rfl
    | succ n ih =>
      intro hn
      simp only [iterate, ih (by omega), Option.bind_some]
      exact inc_itAt h [] n (by omega)
  rw [key1 _ (Nat.le_refl _)] at hf
  refine ⟨_, hf.symm, ?_⟩
  have key : ∀ n, n ≤ (contents mem rs).length →
      iterate (dec rs) n (itAt 0 rs (contents mem rs).length) =
        some (itAt 0 rs ((contents mem rs).length - n)) := by
    intro n
    induction n with
    | zero => intro _; rfl
    | succ n ih =>
      intro hn
      simp only [iterate, ih (by omega), Option.bind_some]
      have := dec_itAt h [] ((contents mem rs).length - (n + 1)) (by omega)
      rw [show (contents mem rs).length - (n + 1) + 1 = (contents mem rs).length - n by omega] at this
      exact this
  refine ⟨?_, ?_⟩
  · rw [key _ (Nat.le_refl _), Nat.sub_self, hb, hb']
  · intro n x hx
    have hn : n < (contents mem rs).length := by
      by_contra hc
      rw [List.getElem?_eq_none (by simp; omega)] at hx
      simp at hx
    refine ⟨_, key (n + 1) (by omega), ?_⟩
    rw [deref_itAt h, ← hx, List.getElem?_reverse hn]
    congr 1
    omega

/-- C47: `Append` adds the range at the end, also when it is empty. -/
theorem C47_append (mem : Nat → List α) (rs : CRanges) (h : CWF mem rs) (s e : Pos)
    (hv : s = e ∨ ValidRange mem s e) :
    CWF mem (append rs s e) ∧ contents mem (append rs s e) = contents mem rs ++ sliceOf mem s e := by
  obtain ⟨h1, h2⟩ := h.dropLast
  have empty : s = e → sliceOf mem s e = [] := by
    rintro rfl
    cases s with
    | none => rfl
    | some p => simp [sliceOf]
  by_cases hse : s = e
  · rw [append, if_pos hse, empty hse]
    exact ⟨h, by simp⟩
  · have hv' := hv.resolve_left hse
    rw [append, if_neg hse]
    refine ⟨CWF.of _ ?_, ?_⟩
    · intro R hR
      rcases List.mem_append.1 hR with hR | hR
      · exact h2 R hR
      · rw [List.mem_singleton] at hR
        subst hR
        exact hv'
    · conv => rhs; rw [h1]
      rw [contents_append, contents_append, contents_append, contents_nil, contents_cons]
      simp [contents]

/-- C47: `Prepend` adds the range at the front. -/
theorem C47_prepend (mem : Nat → List α) (rs : CRanges) (h : CWF mem rs) (s e : Pos)
    (hv : s = e ∨ ValidRange mem s e) :
    CWF mem (prepend rs s e) ∧ contents mem (prepend rs s e) = sliceOf mem s e ++ contents mem rs := by
  have empty : s = e → sliceOf mem s e = [] := by
    rintro rfl
    cases s with
    | none => rfl
    | some p => simp [sliceOf]
  by_cases hse : s = e
  · rw [prepend, if_pos hse, empty hse]
    exact ⟨h, by simp⟩
  · have hv' := hv.resolve_left hse
    rw [prepend, if_neg hse]
    exact ⟨.cons _ _ hv' h, by rw [contents_cons]⟩

theorem itAt_ge (rs : CRanges) : ∀ base n, base ≤ (itAt base rs n).r := by
  induction rs with
  | nil => intro base n; exact Nat.le_refl _
  | cons R rs ih =>
    intro base n
    simp only [itAt]
    split
    · split
      · exact Nat.le_refl _
      · exact Nat.le_trans (Nat.le_succ _) (ih (base + 1) _)
    · exact Nat.le_refl _

theorem appendedRanges_spec {mem : Nat → List α} {rs : CRanges} (h : CWF mem rs) :
    ∀ (pre : CRanges) (p q fuel : Nat), p ≤ q → q ≤ (contents mem rs).length → rs.length < fuel →
    ∃ l, appendedRanges (pre ++ rs) fuel (itAt pre.length rs p) (itAt pre.length rs q) = some l ∧
      (∀ R ∈ l, ValidRange mem R.first R.second) ∧
      contents mem l = ((contents mem rs).take q).drop p := by
  induction h with
  | term =>
    intro pre p q fuel hpq hq hf
    rw [contents_nil] at hq ⊢
    obtain ⟨k, rfl⟩ : ∃ k, fuel = k + 1 := ⟨fuel - 1, by simp at hf; omega⟩
    refine ⟨[], ?_, by simp, by simp [contents]⟩
    simp [appendedRanges, itAt, CRange.term]
  | cons R rs hR h ih =>
    intro pre p q fuel hpq hq hf
    obtain ⟨c, i, j, h1, h2, h3, h4⟩ := id hR
    have hsl := slice_length (mem := mem) h3 h4
    rw [contents_cons, List.length_append, h1, h2, hsl] at hq
    simp only [List.length_cons] at hf
    obtain ⟨k, rfl⟩ : ∃ k, fuel = k + 1 := ⟨fuel - 1, by omega⟩
    rw [contents_cons, h1, h2]
    by_cases hp : p < j - i
    · by_cases hq' : q < j - i
      · -- both in the first range
        simp only [itAt, h1, h2, if_pos hp, if_pos hq']
        by_cases hpq' : p = q
        · subst hpq'
          refine ⟨[], by simp [appendedRanges], by simp, ?_⟩
          simp [contents]
        · refine ⟨[⟨some ⟨c, i + p⟩, some ⟨c, i + q⟩⟩], ?_, ?_, ?_⟩
          · simp [appendedRanges, hpq']
          · intro R' hR'
            rw [List.mem_singleton] at hR'
            subst hR'
            exact ⟨c, i + p, i + q, rfl, rfl, by omega, by omega⟩
          · rw [contents_cons, List.take_append_of_le_length (by rw [hsl]; omega)]
            simp only [sliceOf, contents, List.flatMap_nil, List.append_nil]
            rw [List.take_drop, List.drop_drop, List.take_take]
            congr 2
            omega
      · -- start in the first range, end later
        obtain ⟨R', hR', hz⟩ := itAt_zero h (pre.length + 1)
        obtain ⟨l, hl, hv, hc⟩ := ih (pre ++ [R]) 0 (q - (j - i)) k (by omega) (by omega) (by omega)
        simp only [List.append_assoc, List.cons_append, List.nil_append, List.length_append,
          List.length_cons, List.length_nil, Nat.zero_add] at hl
        refine ⟨⟨some ⟨c, i + p⟩, some ⟨c, j⟩⟩ :: l, ?_, ?_, ?_⟩
        · have hge := itAt_ge rs (pre.length + 1) (q - (j - i))
          simp only [itAt, h1, h2, if_pos hp, if_neg hq', appendedRanges, rangeEnd, getElem?_pre,
            Option.map_some, advanceRange, getElem?_pre1, hR']
          rw [if_pos (by omega), ← hz, hl]
          rfl
        · intro R'' hR''
          rcases List.mem_cons.1 hR'' with rfl | hR''
          · exact ⟨c, i + p, j, rfl, rfl, by omega, h4⟩
          · exact hv R'' hR''
        · rw [contents_cons, hc, List.take_append, List.drop_append, hsl]
          rw [List.take_of_length_le (l := sliceOf mem _ _) (by rw [hsl]; omega), hsl,
            show p - (j - i) = 0 by omega]
          simp only [sliceOf, List.drop_zero]
          congr 1
          rw [List.drop_drop]
    · -- both later
      have hq' : ¬ q < j - i := by omega
      obtain ⟨l, hl, hv, hc⟩ := ih (pre ++ [R]) (p - (j - i)) (q - (j - i)) (k + 1) (by omega)
        (by omega) (by omega)
      simp only [List.append_assoc, List.cons_append, List.nil_append, List.length_append,
        List.length_cons, List.length_nil, Nat.zero_add] at hl
      refine ⟨l, ?_, hv, ?_⟩
      · simp only [itAt, h1, h2, if_neg hp, if_neg hq']
        exact hl
      · rw [hc, List.take_append, List.drop_append, hsl,
          List.take_of_length_le (l := sliceOf mem _ _) (by rw [hsl]; omega), hsl,
          List.drop_eq_nil_of_le (as := sliceOf mem _ _) (by rw [hsl]; omega), List.nil_append]

/-- `it` is the iterator that `p` increments of `begin()` reach. -/
def IsIter (rs : CRanges) (p : Nat) (it : CIt) : Prop :=
  ∃ b, cbegin rs = some b ∧ iterate (inc rs) p b = some it

theorem isIter_itAt {mem : Nat → List α} {rs : CRanges} (h : CWF mem rs) {p : Nat} {it : CIt}
    (hp : p ≤ (contents mem rs).length) (hi : IsIter rs p it) : it = itAt 0 rs p := by
  obtain ⟨b, hb, hit⟩ := hi
  obtain ⟨R, hR, hz⟩ := itAt_zero h 0
  have hb' : b = itAt 0 rs 0 := by
    simp only [cbegin, hR, Option.map_some, Option.some.injEq] at hb
    rw [hz, hb]
  have key1 : ∀ n, n ≤ (contents mem rs).length → iterate (inc rs) n b = some (itAt 0 rs n) := by
    intro n
    induction n with
    | zero => intro _; rw [hb']; rfl
    | succ n ih =>
      intro hn
      simp only [iterate, ih (by omega), Option.bind_some]
      exact inc_itAt h [] n (by omega)
  rw [key1 p hp] at hit
  exact (Option.some.inj hit).symm

/-- C47: appending the part of another `ConcatRange` between two of its iterators
adds exactly the elements between them at the end. -/
theorem C47_append_iterators (mem : Nat → List α) (rs o : CRanges) (h : CWF mem rs) (ho : CWF mem o)
    (p q : Nat) (s e : CIt) (hpq : p ≤ q) (hq : q ≤ (contents mem o).length)
    (hs : IsIter o p s) (he : IsIter o q e) :
    ∃ rs', appendIt rs o s e = some rs' ∧ CWF mem rs' ∧
      contents mem rs' = contents mem rs ++ ((contents mem o).take q).drop p := by
  obtain rfl := isIter_itAt ho (by omega) hs
  obtain rfl := isIter_itAt ho hq he
  obtain ⟨l, hl, hv, hc⟩ := appendedRanges_spec ho [] p q (o.length + 1) hpq hq (by omega)
  simp only [List.nil_append, List.length_nil] at hl
  obtain ⟨h1, h2⟩ := h.dropLast
  refine ⟨rs.dropLast ++ l ++ [.term], by simp [appendIt, hl], CWF.of _ ?_, ?_⟩
  · intro R hR
    rcases List.mem_append.1 hR with hR | hR
    · exact h2 R hR
    · exact hv R hR
  · conv => rhs; rw [h1]
    rw [contents_append, contents_append, contents_append, contents_nil, hc]
    simp

/-- C47, the part of `Prepend` of two iterators that holds: the elements come
first if the range was empty, nothing was added, or both sides have the same number
of ranges. -/
theorem C47_prepend_iterators_partial (mem : Nat → List α) (rs o : CRanges) (h : CWF mem rs)
    (ho : CWF mem o) (p q : Nat) (s e : CIt) (hpq : p ≤ q) (hq : q ≤ (contents mem o).length)
    (hs : IsIter o p s) (he : IsIter o q e) :
    ∃ rs' app, prependIt rs o s e = some rs' ∧ appendIt rs o s e = some app ∧ CWF mem rs' ∧
      (rs.length = 1 ∨ app.length = rs.length ∨ app.length - rs.length = rs.length - 1 →
      contents mem rs' = ((contents mem o).take q).drop p ++ contents mem rs) := by
  obtain rfl := isIter_itAt ho (by omega) hs
  obtain rfl := isIter_itAt ho hq he
  obtain ⟨l, hl, hv, hc⟩ := appendedRanges_spec ho [] p q (o.length + 1) hpq hq (by omega)
  simp only [List.nil_append, List.length_nil] at hl
  obtain ⟨h1, h2⟩ := h.dropLast
  have happ : appendIt rs o (itAt 0 o p) (itAt 0 o q) = some (rs.dropLast ++ l ++ [.term]) := by
    simp [appendIt, hl]
  obtain ⟨old, hold⟩ : ∃ old, rs.dropLast = old := ⟨_, rfl⟩
  rw [hold] at h1 h2 happ
  subst h1
  have hlen : (old ++ l ++ [CRange.term]).length - (old ++ [CRange.term]).length = l.length := by
    simp; omega
  have hd : (old ++ l ++ [CRange.term]).drop ((old ++ l ++ [CRange.term]).length - 1) =
      [CRange.term] := by
    rw [show (old ++ l ++ [CRange.term]).length - 1 = (old ++ l).length by simp]
    simp
  refine ⟨((old ++ l).drop l.length ++ (old ++ l).take l.length) ++ [.term],
    old ++ l ++ [.term], ?_, happ, CWF.of _ ?_, ?_⟩
  · simp only [prependIt, happ, Option.map_some, hlen, hd, List.dropLast_concat]
  · intro R hR
    have : R ∈ old ++ l := by
      rcases List.mem_append.1 hR with hR | hR
      · exact List.mem_of_mem_drop hR
      · exact List.mem_of_mem_take hR
    rcases List.mem_append.1 this with hR | hR
    · exact h2 R hR
    · exact hv R hR
  · intro hor
    have hor' : old.length = 0 ∨ l.length = 0 ∨ l.length = old.length := by
      simp only [List.length_append, List.length_cons, List.length_nil] at hor
      omega
    rw [contents_append, contents_append, contents_append, contents_nil, ← hc]
    simp only [List.append_nil]
    rcases hor' with h0 | h0 | h0
    · rw [List.length_eq_zero_iff] at h0
      subst h0
      simp [contents]
    · rw [List.length_eq_zero_iff] at h0
      subst h0
      simp [contents]
    · rw [h0, List.drop_left, List.take_left]

/-- Two containers and a view of three ranges, used as the examples below. -/
def demoMem : Nat → List Nat
  | 0 => [1, 2, 3, 4, 5]
  | 1 => [10, 20, 30]
  | _ => []
def demoView : CRanges := [⟨some ⟨0, 1⟩, some ⟨0, 4⟩⟩, ⟨some ⟨1, 0⟩, some ⟨1, 2⟩⟩, .term]

example : CWF demoMem demoView ∧ contents demoMem demoView = [2, 3, 4, 10, 20] :=
  ⟨.cons _ _ ⟨0, 1, 4, rfl, rfl, by decide, by decide⟩
    (.cons _ _ ⟨1, 0, 2, rfl, rfl, by decide, by decide⟩ .term), by decide⟩
example : IsIter demoView 2 ⟨0, some ⟨0, 3⟩⟩ ∧ IsIter demoView 5 ⟨2, none⟩ :=
  ⟨⟨⟨0, some ⟨0, 1⟩⟩, by decide, by decide⟩, ⟨⟨0, some ⟨0, 1⟩⟩, by decide, by decide⟩⟩

/-- C47 fails for `Prepend` of two iterators: prepending `[4]` to the view gives
`[10, 20, 4, 2, 3, 4]` (the ranges are rotated by the wrong amount). -/
theorem C47_prepend_iterators_false :
    (prependIt demoView [⟨some ⟨0, 3⟩, some ⟨0, 4⟩⟩, .term] ⟨0, some ⟨0, 3⟩⟩ ⟨1, none⟩).map
      (contents demoMem) = some [10, 20, 4, 2, 3, 4] := by decide

/-- C47 fails for `operator+` and `operator[]`: `begin()[1]` is the first element
again, and `begin() + 5`, which should be `end()`, reads past the end of `ranges_`. -/
theorem C47_plus_false :
    ((cbegin demoView).bind fun b => (plus demoView b 1).bind (cderef demoMem)) = some 2 ∧
    ((cbegin demoView).bind fun b => plus demoView b 5) = none := by decide

theorem plusLoop_spec {mem : Nat → List α} {rs : CRanges} (h : CWF mem rs) :
    ∀ (pre : CRanges) (k fuel : Nat), k + 1 < rs.length → rs.length < fuel →
    ∀ it, it = itAt pre.length rs 0 →
    plusLoop (pre ++ rs) fuel it (contents mem (rs.take k)).length =
      some (itAt pre.length rs (contents mem (rs.take k)).length) := by
  induction h with
  | term => intro pre k fuel hk; simp at hk
  | cons R rs hR h ih =>
    intro pre k fuel hk hf it hit
    obtain ⟨c, i, j, h1, h2, h3, h4⟩ := id hR
    have hsl := slice_length (mem := mem) h3 h4
    obtain ⟨f, rfl⟩ : ∃ f, fuel = f + 1 := ⟨fuel - 1, by omega⟩
    have hit' : it = ⟨pre.length, some ⟨c, i⟩⟩ := by
      rw [hit]; simp only [itAt, h1, h2]; rw [if_pos (by omega)]; rfl
    simp only [List.length_cons] at hk hf
    cases k with
    | zero =>
      simp only [List.take_zero, contents, List.flatMap_nil, List.length_nil]
      rw [← hit, hit']
      simp only [plusLoop, rangeEnd, getElem?_pre, Option.map_some, h2, itDiff]
      rw [if_pos ⟨trivial, by omega⟩]
      simp only
      rw [if_pos (by omega)]
    | succ k =>
      rw [List.take_succ_cons, contents_cons, List.length_append, h1, h2, hsl, hit']
      obtain ⟨R', hR', hz⟩ := itAt_zero h (pre.length + 1)
      simp only [plusLoop, rangeEnd, getElem?_pre, Option.map_some, h2, itDiff, advanceRange,
        getElem?_pre1, hR']
      rw [if_pos ⟨trivial, by omega⟩]
      simp only
      rw [if_neg (by omega), ← hz, Nat.add_sub_cancel_left]
      have := ih (pre ++ [R]) k f (by omega) (by omega) _ rfl
      simp only [List.append_assoc, List.cons_append, List.nil_append, List.length_append,
        List.length_cons, List.length_nil, Nat.zero_add] at this
      rw [this]
      simp only [itAt, h1, h2]
      rw [if_neg (by omega), Nat.add_sub_cancel_left]

/-- C47, the part of `operator+` that holds: adding the total size of whole
ranges to `begin()` gives that element. -/
theorem C47_plus_partial (mem : Nat → List α) (rs : CRanges) (h : CWF mem rs) (k : Nat)
    (hk : k + 1 < rs.length) :
    ∃ b it, cbegin rs = some b ∧ plus rs b (contents mem (rs.take k)).length = some it ∧
      cderef mem it = (contents mem rs)[(contents mem (rs.take k)).length]? := by
  obtain ⟨R, hR, hz⟩ := itAt_zero h 0
  refine ⟨⟨0, R.first⟩, itAt 0 rs (contents mem (rs.take k)).length, by simp [cbegin, hR], ?_, ?_⟩
  · have := plusLoop_spec h [] k (rs.length + 1) hk (by omega) ⟨0, R.first⟩ hz.symm
    exact this
  · rw [deref_itAt h]

end Walnut.Props
