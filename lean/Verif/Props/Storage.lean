/- C14: storage of `BigIntWords`. -/
import Verif.Util.StorageInv

namespace Walnut.Props
open Walnut.Util WMem

/-- What the caller must respect: objects are constructed at free addresses and used
while alive, `malloc` returns unused blocks, sizes are at least one, at most the words of
the source are copied, and an object that was moved from is only destroyed, assigned,
resized without copy or moved again. -/
def WMayDo (s : WMem) (op : WOp) : Prop :=
  let free (a : Nat) := s.objs a = none
  let alive (a : Nat) := ∃ A, s.objs a = some A
  let usable (a n : Nat) := ∃ A, s.objs a = some A ∧ A.moved = false ∧ n ≤ A.extraSize + 1
  let fresh (b : Nat) := s.blks b = none
  match op with
  | .new a => free a
  | .newSize a size blk => free a ∧ 1 ≤ size ∧ fresh blk
  | .moveCtor a b => free a ∧ alive b
  | .copyUsed a b used blk => free a ∧ usable b used ∧ 1 ≤ used ∧ fresh blk
  | .copyExtend a used copy b blk => free a ∧ usable b copy ∧ 1 ≤ copy ∧ copy ≤ used ∧ fresh blk
  | .destroy a => alive a
  | .assign a b used blk => alive a ∧ usable b used ∧ 1 ≤ used ∧ fresh blk
  | .pushBack a _ blk => usable a 0 ∧ fresh blk
  | .resizeNoCopy a used blk => alive a ∧ 1 ≤ used ∧ fresh blk
  | .resize a used blk => usable a 0 ∧ 1 ≤ used ∧ fresh blk
  | .resizeInit a used _ blk => usable a 0 ∧ 1 ≤ used ∧ fresh blk
  | .moveAssign a b => alive a ∧ alive b
  | .write a i _ => usable a (i + 1)

/-- Specification: the words of every object (`none` for no object or an object
moved from) before and after an operation.  Words outside the source are left open. -/
def WSpec (f : Nat → Option (List W)) (op : WOp) (f' : Nat → Option (List W)) : Prop :=
  let upd (a : Nat) (v : Option (List W)) := ∀ x, f' x = if x = a then v else f x
  match op with
  | .new a => upd a (some [some 0])
  | .newSize a n _ => upd a (some (some 0 :: List.replicate (n - 1) none))
  | .moveCtor a b => ∀ x, f' x = if x = b then none else if x = a then f b else f x
  | .copyUsed a b used _ => ∃ l, f b = some l ∧ upd a (some (l.take used))
  | .copyExtend a used copy b _ =>
    ∃ l, f b = some l ∧ upd a (some (l.take copy ++ List.replicate (used - copy) (some 0)))
  | .destroy a => upd a none
  | .assign a b used _ => ∃ l, f b = some l ∧ upd a (some (l.take used))
  | .pushBack a w _ => ∃ l, f a = some l ∧ upd a (some (l ++ [some w]))
  | .resizeNoCopy a used _ => ∃ l, l.length = used ∧ upd a (some l)
  | .resize a used _ => ∃ l l', f a = some l ∧ l'.length = used ∧
      (∀ i < min used l.length, l'[i]? = l[i]?) ∧ upd a (some l')
  | .resizeInit a used w _ =>
    ∃ l, f a = some l ∧ upd a (some (l ++ List.replicate (used - l.length) (some w)))
  | .moveAssign a b => ∀ x, f' x = if x = a then f b else if x = b then none else f x
  | .write a i w => ∃ l, f a = some l ∧ upd a (some (l.set i (some w)))

/-- The result of one operation. -/
def WGood (s : WMem) (op : WOp) : Prop :=
  ∃ s', wstep s op = some s' ∧ WInv s' ∧ WSpec (wabs s) op (wabs s')

theorem good_new (s : WMem) (a : Nat) (hi : WInv s) (h : WMayDo s (.new a)) : WGood s (.new a) := by
  simp only [WMayDo] at h
  have hp : PutSpec s (s.setObj a (some ⟨some 0, 0, none, false⟩)) a (some ⟨some 0, 0, none, false⟩) [] :=
    ⟨fun x => rfl, fun y => by simp [h, setObj], by simp, by simp⟩
  exact ⟨_, by simp [wstep, h], hp.inv hi, fun x => by rw [hp.abs hi]; rfl⟩

/-- What allocation does. -/
theorem alloc_spec (s : WMem) (n b : Nat) (hb : s.blks b = none) :
    ∃ s' p, s.alloc n b = some (s', p) ∧ (∀ x, s'.objs x = s.objs x) ∧
      ((n = 0 ∧ p = none ∧ s' = s) ∨
       (n ≠ 0 ∧ p = some b ∧ s' = s.setBlk b (some (List.replicate n none)))) := by
  unfold alloc
  by_cases hn : n = 0
  · exact ⟨s, none, by simp [hn], fun _ => rfl, Or.inl ⟨hn, rfl, rfl⟩⟩
  · exact ⟨s.setBlk b (some (List.replicate n none)), some b, by simp [hn, hb], fun _ => rfl,
      Or.inr ⟨hn, rfl, rfl⟩⟩

theorem good_newSize (s : WMem) (a n blk : Nat) (hi : WInv s) (h : WMayDo s (.newSize a n blk)) :
    WGood s (.newSize a n blk) := by
  obtain ⟨ha, hn, hb⟩ := h
  obtain ⟨s1, p, hal, ho, hc⟩ := alloc_spec s (n - 1) blk hb
  have hw : wstep s (.newSize a n blk) = some (s1.setObj a (some ⟨some 0, n - 1, p, false⟩)) := by
    have : ¬ n = 0 := by omega
    simp only [wstep, ha, Option.isSome_none, Bool.false_eq_true, false_or, this, if_false, hal]
  have hp : PutSpec s (s1.setObj a (some ⟨some 0, n - 1, p, false⟩)) a
      (some ⟨some 0, n - 1, p, false⟩) (List.replicate (n - 1) none) := by
    rcases hc with ⟨h0, rfl, rfl⟩ | ⟨h0, rfl, rfl⟩
    · exact ⟨fun x => rfl, fun y => by simp [ha, setObj], by simp, by simp [h0]⟩
    · refine ⟨fun x => rfl, fun y => ?_, ?_, by simp⟩
      · simp only [setObj, setBlk, ha, Option.bind_some, Option.bind_none, Option.some.injEq, reduceCtorEq,
          if_false, eq_comm (a := y)]
      · simp only [Option.bind_some, Option.some.injEq]
        rintro y rfl
        exact Or.inr hb
  refine ⟨_, hw, hp.inv hi, fun x => ?_⟩
  rw [hp.abs hi]
  rcases hc with ⟨h0, rfl, rfl⟩ | ⟨h0, rfl, rfl⟩
  · simp [h0]
  · simp

theorem good_moveCtor (s : WMem) (a b : Nat) (hi : WInv s) (h : WMayDo s (.moveCtor a b)) :
    WGood s (.moveCtor a b) := by
  obtain ⟨ha, B, hB⟩ := h
  have hab : a ≠ b := by rintro rfl; simp [ha] at hB
  have hw : wstep s (.moveCtor a b) =
      some ((s.setObj a (some ⟨B.first, B.extraSize, B.extra, B.moved⟩)).setObj b
        (some { B with extra := none, moved := true })) := by simp only [wstep, ha, hB]
  refine ⟨_, hw, ?_, ?_⟩
  · obtain ⟨i1, i2, i3, i4⟩ := hi
    refine ⟨?_, ?_, ?_, ?_⟩
    · intro x X y
      simp only [setObj]
      grind
    · intro x x' X X' y
      simp only [setObj]
      grind
    · intro y hy
      obtain ⟨x, X, hX, hXy⟩ := i3 y hy
      by_cases hx : x = b
      · subst hx
        rw [hB] at hX
        obtain rfl := Option.some.inj hX
        exact ⟨a, _, by simp only [setObj, if_neg hab, if_true], hXy⟩
      · have hxa : x ≠ a := by rintro rfl; simp [ha] at hX
        exact ⟨x, X, by simp [setObj, hx, hxa, hX], hXy⟩
    · intro x X hX hm
      simp only [setObj] at hX
      split at hX
      · simp only [Option.some.injEq] at hX; subst hX; simp at hm
      · split at hX
        · simp only [Option.some.injEq] at hX
          subst hX
          exact i4 b B hB hm
        · exact i4 x X hX hm
  · intro x
    simp only [wabs, setObj]
    by_cases hx : x = b
    · simp [hx]
    · rw [if_neg hx, if_neg hx]
      by_cases hxa : x = a
      · simp only [hxa, if_true, hB]
        rfl
      · simp only [if_neg hxa]
        rfl

theorem good_moveAssign (s : WMem) (a b : Nat) (hi : WInv s) (h : WMayDo s (.moveAssign a b)) :
    WGood s (.moveAssign a b) := by
  obtain ⟨⟨A, hA⟩, B, hB⟩ := h
  have hw : wstep s (.moveAssign a b) =
      some ((s.setObj b (some { B with extra := A.extra, moved := true })).setObj a
        (some ⟨B.first, B.extraSize, B.extra, B.moved⟩)) := by simp only [wstep, hA, hB]
  refine ⟨_, hw, ?_, ?_⟩
  · obtain ⟨i1, i2, i3, i4⟩ := hi
    refine ⟨?_, ?_, ?_, ?_⟩
    · intro x X y
      simp only [setObj]
      grind
    · intro x x' X X' y
      simp only [setObj]
      have k1 := i2 a b A B y
      have k2 := i2 a x A X y
      have k3 := i2 a x' A X' y
      have k4 := i2 b x B X y
      have k5 := i2 b x' B X' y
      have k6 := i2 x x' X X' y
      grind
    · intro y hy
      obtain ⟨x, X, hX, hXy⟩ := i3 y hy
      by_cases hx : x = b
      · subst hx
        rw [hB] at hX
        obtain rfl := Option.some.inj hX
        exact ⟨a, _, by simp only [setObj, if_true], hXy⟩
      · by_cases hxa : x = a
        · subst hxa
          rw [hA] at hX
          obtain rfl := Option.some.inj hX
          exact ⟨b, { B with extra := A.extra, moved := true }, by
            simp only [setObj, if_neg (Ne.symm hx), if_true], hXy⟩
        · exact ⟨x, X, by simp [setObj, hx, hxa, hX], hXy⟩
    · intro x X hX hm
      simp only [setObj] at hX
      split at hX
      · simp only [Option.some.injEq] at hX
        subst hX
        exact i4 b B hB hm
      · split at hX
        · simp only [Option.some.injEq] at hX; subst hX; simp at hm
        · exact i4 x X hX hm
  · intro x
    simp only [wabs, setObj]
    by_cases hxa : x = a
    · simp only [hxa, if_true, hB]
      rfl
    · rw [if_neg hxa, if_neg hxa]
      by_cases hx : x = b
      · simp [hx]
      · simp only [if_neg hx]
        rfl

theorem good_destroy (s : WMem) (a : Nat) (hi : WInv s) (h : WMayDo s (.destroy a)) :
    WGood s (.destroy a) := by
  obtain ⟨A, hA⟩ := h
  cases hb : A.extra with
  | none =>
    have hp : PutSpec s (s.setObj a none) a none [] :=
      ⟨fun x => rfl, fun y => by simp [hA, hb, setObj], by simp, by simp⟩
    exact ⟨_, by simp only [wstep, hA, hb, free], hp.inv hi, fun x => by rw [hp.abs hi]; rfl⟩
  | some b =>
    have hs := hi.own a A b hA hb
    have hp : PutSpec s ((s.setBlk b none).setObj a none) a none [] :=
      ⟨fun x => rfl, fun y => by simp [hA, hb, setObj, setBlk, eq_comm], by simp, by simp⟩
    exact ⟨_, by simp only [wstep, hA, hb, free, hs, if_true], hp.inv hi, fun x => by rw [hp.abs hi]; rfl⟩

/-- `resize_without_copy`. -/
theorem resizeNoCopy_spec (s : WMem) (a used blk : Nat) (A : WObj) (hi : WInv s) (hA : s.objs a = some A)
    (hu : 1 ≤ used) (hf : s.blks blk = none) :
    ∃ s' p wd, resizeNoCopyW s a used blk = some s' ∧
      PutSpec s s' a (some { A with extra := p, extraSize := used - 1, moved := false }) wd ∧
      used - 1 ≤ wd.length ∧ (p = none → wd = []) ∧
      ((p = A.extra ∧ wd = blkWords s A.extra) ∨
        (blkWords s A.extra).length < used - 1 ∧ p = some blk) := by
  have hu' : ¬ used = 0 := by omega
  have hcap : s.capacity A.extra = some (blkWords s A.extra).length := by
    cases hb : A.extra with
    | none => rfl
    | some b =>
      obtain ⟨l, hl⟩ := Option.isSome_iff_exists.1 (hi.own a A b hA hb)
      simp [capacity, blkWords, hl]
  have hblk : ∀ b, A.extra = some b → s.blks b = some (blkWords s A.extra) := by
    intro b hb
    obtain ⟨l, hl⟩ := Option.isSome_iff_exists.1 (hi.own a A b hA hb)
    simp [blkWords, hb, hl]
  unfold resizeNoCopyW
  simp only [hA, if_neg hu', hcap]
  by_cases hc : (blkWords s A.extra).length < used - 1
  · rw [if_pos hc]
    cases hb : A.extra with
    | none =>
      simp only [free, alloc]
      rw [if_neg (by omega), hf]
      simp only [Option.isSome_none, Bool.false_eq_true, if_false]
      refine ⟨_, some blk, List.replicate (used - 1) none, rfl, ⟨fun x => rfl, fun y => ?_, ?_, ?_⟩,
        by simp, by simp, Or.inr ⟨by rw [hb] at hc; exact hc, rfl⟩⟩
      · simp [hA, hb, setObj, setBlk, eq_comm]
      · simp only [Option.bind_some, Option.some.injEq]
        rintro y rfl
        exact Or.inr hf
      · simp
    | some b =>
      have hs := hi.own a A b hA hb
      have hne : blk ≠ b := by rintro rfl; simp [hf] at hs
      simp only [free, hs, if_true, alloc]
      rw [if_neg (by omega)]
      have hf' : (s.setBlk b none).blks blk = none := by simp [setBlk, hf]
      rw [hf']
      simp only [Option.isSome_none, Bool.false_eq_true, if_false]
      refine ⟨_, some blk, List.replicate (used - 1) none, rfl, ⟨fun x => rfl, fun y => ?_, ?_, ?_⟩,
        by simp, by simp, Or.inr ⟨by rw [hb] at hc; exact hc, rfl⟩⟩
      · simp [hA, hb, setObj, setBlk, eq_comm]
      · simp only [Option.bind_some, Option.some.injEq]
        rintro y rfl
        exact Or.inr hf
      · simp
  · rw [if_neg hc]
    refine ⟨_, A.extra, blkWords s A.extra, rfl, ⟨fun x => rfl, fun y => ?_, ?_, ?_⟩, by omega, ?_,
      Or.inl ⟨rfl, rfl⟩⟩
    · simp only [setObj, Option.bind_some, hA]
      split
      · rename_i hy; rw [hblk y hy]
      · rfl
    · intro y hy
      left
      rw [hA]
      exact hy
    · intro O hO _
      simp only [Option.some.injEq] at hO
      subst hO
      cases hb : A.extra with
      | none => simp [hb, blkWords] at hc ⊢; omega
      | some b => simp only [Option.isSome_some, if_true]; rw [← hb]; omega
    · intro hb; rw [hb]; rfl

theorem good_resizeNoCopy (s : WMem) (a used blk : Nat) (hi : WInv s)
    (h : WMayDo s (.resizeNoCopy a used blk)) : WGood s (.resizeNoCopy a used blk) := by
  obtain ⟨⟨A, hA⟩, hu, hf⟩ := h
  obtain ⟨s', p, wd, h1, hp, h3, h4, -⟩ := resizeNoCopy_spec s a used blk A hi hA hu hf
  refine ⟨s', h1, hp.inv hi, ⟨A.first :: wd.take (used - 1), by simp; omega, fun x => ?_⟩⟩
  rw [hp.abs hi]
  cases p with
  | none => simp [h4 rfl]
  | some p => simp

/-- Allocation followed by copying words of an object. -/
theorem alloc_copy (s : WMem) (b : Nat) (B : WObj) (n m blk : Nat) (hi : WInv s) (hB : s.objs b = some B)
    (hm : B.moved = false) (hmn : m ≤ n) (hmB : m ≤ B.extraSize) (hf : s.blks blk = none) :
    ∃ s1 s2 p wd, s.alloc n blk = some (s1, p) ∧ s1.copyLoop p B.extra 0 m = some s2 ∧
      (∀ x, s2.objs x = s.objs x) ∧ (∀ y, s2.blks y = if p = some y then some wd else s.blks y) ∧
      ((n = 0 ∧ p = none) ∨ (n ≠ 0 ∧ p = some blk)) ∧ wd.length = n ∧
      ∀ j, j < m → wd[j]? = (blkWords s B.extra)[j]? := by
  obtain ⟨w1, w2, w3, w4⟩ := hi.words hB hm
  obtain ⟨s1, p, hal, ho, hc⟩ := alloc_spec s n blk hf
  rcases hc with ⟨h0, rfl, rfl⟩ | ⟨h0, rfl, rfl⟩
  · obtain rfl : m = 0 := by omega
    exact ⟨s1, s1, none, [], hal, rfl, fun _ => rfl, fun y => by simp, Or.inl ⟨h0, rfl⟩, by simp [h0],
      fun j hj => by omega⟩
  · by_cases hm0 : m = 0
    · subst hm0
      refine ⟨_, _, some blk, List.replicate n none, hal, rfl, fun _ => rfl, fun y => ?_,
        Or.inr ⟨h0, rfl⟩, by simp, fun j hj => by omega⟩
      simp [setBlk, eq_comm]
    · cases hb : B.extra with
      | none => have := w4 hb; omega
      | some c =>
        have hc := w3 c hb
        have hne : c ≠ blk := by rintro rfl; simp [hf] at hc
        obtain ⟨D', e1, e2, e3⟩ := copyLoop_spec m (s.setBlk blk (some (List.replicate n none))) blk c 0
          (List.replicate n none) (blkWords s B.extra) (by simp [setBlk]) (by simp [setBlk, hne, hc])
          (by simp; omega) (by omega)
        refine ⟨_, _, some blk, D', hal, e1, fun _ => rfl, fun y => ?_, Or.inr ⟨h0, rfl⟩,
          by simpa using e2, fun j hj => ?_⟩
        · simp only [setBlk, Option.some.injEq, eq_comm (a := blk)]
          split <;> rfl
        · rw [e3, if_pos (by omega), hb]

theorem good_copyUsed (s : WMem) (a b used blk : Nat) (hi : WInv s)
    (h : WMayDo s (.copyUsed a b used blk)) : WGood s (.copyUsed a b used blk) := by
  obtain ⟨ha, ⟨B, hB, hm, hle⟩, hu, hf⟩ := h
  obtain ⟨w1, w2, w3, w4⟩ := hi.words hB hm
  obtain ⟨s1, s2, p, wd, h1, h2, h3, h4, h5, h6, h7⟩ :=
    alloc_copy s b B (used - 1) (used - 1) blk hi hB hm (by omega) (by omega) hf
  have hw : wstep s (.copyUsed a b used blk) = some (s2.setObj a (some ⟨B.first, used - 1, p, false⟩)) := by
    simp only [wstep, ha, hB]
    rw [if_neg (by omega)]
    simp only [h1, h2]
  have hp : PutSpec s (s2.setObj a (some ⟨B.first, used - 1, p, false⟩)) a
      (some ⟨B.first, used - 1, p, false⟩) wd := by
    refine ⟨fun x => by simp only [setObj, h3], fun y => ?_, ?_, ?_⟩
    · simp only [setObj, h4, ha, Option.bind_some, Option.bind_none, reduceCtorEq, if_false]
    · simp only [Option.bind_some]
      rintro y rfl
      rcases h5 with ⟨_, h⟩ | ⟨_, h⟩
      · simp at h
      · simp only [Option.some.injEq] at h; subst h; exact Or.inr hf
    · intro O hO _
      simp only [Option.some.injEq] at hO
      subst hO
      rcases h5 with ⟨h0, rfl⟩ | ⟨h0, rfl⟩
      · simp [h0]
      · simp [h6]
  refine ⟨_, hw, hp.inv hi, ⟨_, w1, fun x => ?_⟩⟩
  rw [hp.abs hi]
  have hwd : wd = (blkWords s B.extra).take (used - 1) := by
    apply List.ext_getElem?
    intro j
    rw [List.getElem?_take]
    by_cases hj : j < used - 1
    · rw [h7 j hj, if_pos hj]
    · rw [if_neg hj, List.getElem?_eq_none (by omega)]
  have : (B.first :: (blkWords s B.extra).take B.extraSize).take used = B.first :: wd := by
    obtain ⟨k, rfl⟩ : ∃ k, used = k + 1 := ⟨used - 1, by omega⟩
    rw [List.take_succ_cons, List.take_take, hwd]
    congr 2
    omega
  rw [this]
  rcases h5 with ⟨h0, rfl⟩ | ⟨h0, rfl⟩
  · have : wd = [] := List.length_eq_zero_iff.1 (by omega)
    simp [this]
  · simp [← h6]

theorem good_copyExtend (s : WMem) (a used copy b blk : Nat) (hi : WInv s)
    (h : WMayDo s (.copyExtend a used copy b blk)) : WGood s (.copyExtend a used copy b blk) := by
  obtain ⟨ha, ⟨B, hB, hm, hle⟩, hc1, hcu, hf⟩ := h
  obtain ⟨w1, w2, w3, w4⟩ := hi.words hB hm
  obtain ⟨s1, s2, p, wd, h1, h2, h3, h4, h5, h6, h7⟩ :=
    alloc_copy s b B (used - 1) (copy - 1) blk hi hB hm (by omega) (by omega) hf
  obtain ⟨s3, wd', g1, g2, g3, g4, g5⟩ : ∃ s3 wd', s2.fillLoop p (some 0) (copy - 1) (used - 1 - (copy - 1)) =
      some s3 ∧ (∀ x, s3.objs x = s.objs x) ∧
      (∀ y, s3.blks y = if p = some y then some wd' else s.blks y) ∧ wd'.length = used - 1 ∧
      ∀ j : Nat, wd'[j]? = if copy - 1 ≤ j ∧ j < copy - 1 + (used - 1 - (copy - 1)) then some (some 0) else wd[j]? := by
    rcases h5 with ⟨h0, rfl⟩ | ⟨h0, rfl⟩
    · refine ⟨s2, wd, by rw [show used - 1 - (copy - 1) = 0 by omega]; rfl, h3, h4, h6, fun j => ?_⟩
      rw [if_neg (by omega)]
    · obtain ⟨D', e1, e2, e3⟩ := fillLoop_spec (used - 1 - (copy - 1)) s2 blk (copy - 1) (some 0) wd
        (by rw [h4, if_pos rfl]) (by omega)
      refine ⟨_, D', e1, h3, fun y => ?_, by omega, e3⟩
      simp only [setBlk, h4, Option.some.injEq, eq_comm (a := blk)]
      split <;> rfl
  have hw : wstep s (.copyExtend a used copy b blk) =
      some (s3.setObj a (some ⟨B.first, used - 1, p, false⟩)) := by
    simp only [wstep, ha, hB]
    rw [if_neg (by omega)]
    simp only [h1, h2, g1]
  have hp : PutSpec s (s3.setObj a (some ⟨B.first, used - 1, p, false⟩)) a
      (some ⟨B.first, used - 1, p, false⟩) wd' := by
    refine ⟨fun x => by simp only [setObj, g2], fun y => ?_, ?_, ?_⟩
    · simp only [setObj, g3, ha, Option.bind_some, Option.bind_none, reduceCtorEq, if_false]
    · simp only [Option.bind_some]
      rintro y rfl
      rcases h5 with ⟨_, h⟩ | ⟨_, h⟩
      · simp at h
      · simp only [Option.some.injEq] at h; subst h; exact Or.inr hf
    · intro O hO _
      simp only [Option.some.injEq] at hO
      subst hO
      rcases h5 with ⟨h0, rfl⟩ | ⟨h0, rfl⟩
      · simp [h0]
      · simp [g4]
  refine ⟨_, hw, hp.inv hi, ⟨_, w1, fun x => ?_⟩⟩
  rw [hp.abs hi]
  have : (B.first :: (blkWords s B.extra).take B.extraSize).take copy ++
      List.replicate (used - copy) (some 0) = B.first :: wd' := by
    obtain ⟨k, rfl⟩ : ∃ k, copy = k + 1 := ⟨copy - 1, by omega⟩
    rw [List.take_succ_cons, List.take_take, List.cons_append]
    congr 1
    apply List.ext_getElem?
    intro j
    rw [g5, show min k B.extraSize = k by omega]
    by_cases hj : j < k
    · rw [if_neg (by omega), h7 j (by omega), List.getElem?_append_left (by rw [List.length_take]; omega),
        List.getElem?_take_of_lt hj]
    · rw [List.getElem?_append_right (by rw [List.length_take]; omega), List.length_take,
        show min k (blkWords s B.extra).length = k by omega]
      by_cases hj2 : j < used - 1
      · rw [if_pos (by omega), List.getElem?_replicate_of_lt (by omega)]
      · rw [if_neg (by omega), List.getElem?_eq_none (l := wd) (by omega),
          List.getElem?_eq_none (by rw [List.length_replicate]; omega)]
  rw [this]
  rcases h5 with ⟨h0, rfl⟩ | ⟨h0, rfl⟩
  · have : wd' = [] := List.length_eq_zero_iff.1 (by omega)
    simp [this]
  · simp [← g4]

theorem good_assign (s : WMem) (a b used blk : Nat) (hi : WInv s)
    (h : WMayDo s (.assign a b used blk)) : WGood s (.assign a b used blk) := by
  obtain ⟨⟨A, hA⟩, ⟨B, hB, hm, hle⟩, hu, hf⟩ := h
  obtain ⟨w1, w2, w3, w4⟩ := hi.words hB hm
  obtain ⟨s1, p, wd, h1, hp, h3, h4, h5⟩ := resizeNoCopy_spec s a used blk A hi hA hu hf
  have hi1 := hp.inv hi
  have hA1 : s1.objs a = some { A with extra := p, extraSize := used - 1, moved := false } := by
    rw [hp.objs, if_pos rfl]
  -- the source after the resize
  obtain ⟨B1, hB1, hB1f, hB1e⟩ : ∃ B1, s1.objs b = some B1 ∧ B1.first = B.first ∧
      (B1.extra = B.extra) := by
    by_cases hab : b = a
    · subst hab
      rw [hA] at hB
      obtain rfl := Option.some.inj hB
      refine ⟨_, hA1, rfl, ?_⟩
      rcases h5 with ⟨h5, -⟩ | ⟨h5, -⟩
      · exact h5
      · omega
    · exact ⟨B, by rw [hp.objs, if_neg hab, hB], rfl, rfl⟩
  have hblk : ∀ c, B.extra = some c → s1.blks c = some (blkWords s B.extra) := by
    intro c hc
    by_cases hab : b = a
    · subst hab
      rw [hA] at hB
      obtain rfl := Option.some.inj hB
      rcases h5 with ⟨h5, h5'⟩ | ⟨h5, -⟩
      · rw [hp.blks, if_pos (by rw [Option.bind_some]; simp only; rw [h5]; exact hc), h5']
      · omega
    · have n1 : (s.objs a).bind WObj.extra ≠ some c := by
        intro h
        rw [hA] at h
        exact hab (hi.excl b a B A c hB hc hA h)
      have n2 : p ≠ some c := by
        intro h
        rcases h5 with ⟨h5, -⟩ | ⟨-, h5⟩
        · rw [hA] at n1; exact n1 (by rw [← h, h5]; rfl)
        · rw [h5] at h
          simp only [Option.some.injEq] at h
          subst h
          have := w3 blk hc
          simp [hf] at this
      rw [hp.blks, if_neg (by simpa using n2), if_neg n1]
      exact w3 c hc
  -- the copy
  obtain ⟨s2, wd', g1, g2, g3, g4, g5⟩ : ∃ s2 wd', (s1.setObj a (some (WObj.mk B.first (used - 1) p false))).copyLoop
      p B.extra 0 (used - 1) = some s2 ∧ (∀ x, s2.objs x = if x = a then
        some (WObj.mk B.first (used - 1) p false) else s1.objs x) ∧
      (∀ y, s2.blks y = if p = some y then some wd' else s1.blks y) ∧ used - 1 ≤ wd'.length ∧
      ∀ j : Nat, j < used - 1 → wd'[j]? = (blkWords s B.extra)[j]? := by
    by_cases h0 : used - 1 = 0
    · rw [h0]
      refine ⟨_, wd, rfl, fun x => rfl, fun y => ?_, by omega, fun j hj => by omega⟩
      simp only [setObj]
      split
      · rename_i hy
        rw [hp.blks, if_pos (by simpa using hy)]
      · rfl
    · cases p with
      | none => have := h4 rfl; subst this; simp at h3; omega
      | some d =>
        cases hb : B.extra with
        | none => have := w4 hb; omega
        | some c =>
          have hd : s1.blks d = some wd := by rw [hp.blks, if_pos (by simp)]
          obtain ⟨D', e1, e2, e3⟩ := copyLoop_spec (used - 1)
            (s1.setObj a (some (WObj.mk B.first (used - 1) (some d) false))) d c 0 wd (blkWords s B.extra)
            hd (hblk c hb) (by omega) (by omega)
          refine ⟨_, D', e1, fun x => rfl, fun y => ?_, by omega, fun j hj => ?_⟩
          · simp only [setBlk, setObj, Option.some.injEq, eq_comm (a := d)]
          · rw [e3, if_pos (by omega), hb]
  have hw : wstep s (.assign a b used blk) = some s2 := by
    simp only [wstep, h1, hA1, hB1, hB1f, hB1e]
    exact g1
  have hp2 : PutSpec s s2 a (some (WObj.mk B.first (used - 1) p false)) wd' := by
    refine ⟨fun x => ?_, fun y => ?_, fun y hy => ?_, fun O hO _ => ?_⟩
    · rw [g2, hp.objs]; split <;> rfl
    · rw [g3, hp.blks]
      simp only [Option.bind_some]
      split <;> rfl
    · exact hp.fresh y hy
    · simp only [Option.some.injEq] at hO
      subst hO
      cases p with
      | none => have := h4 rfl; subst this; simpa using h3
      | some d => simpa using g4
  refine ⟨s2, hw, hp2.inv hi, ⟨_, w1, fun x => ?_⟩⟩
  rw [hp2.abs hi]
  have hwd : wd'.take (used - 1) = (blkWords s B.extra).take (used - 1) := by
    apply List.ext_getElem?
    intro j
    rw [List.getElem?_take, List.getElem?_take]
    by_cases hj : j < used - 1
    · rw [if_pos hj, if_pos hj, g5 j hj]
    · rw [if_neg hj, if_neg hj]
  have : (B.first :: (blkWords s B.extra).take B.extraSize).take used = B.first :: wd'.take (used - 1) := by
    obtain ⟨k, rfl⟩ : ∃ k, used = k + 1 := ⟨used - 1, by omega⟩
    rw [List.take_succ_cons, List.take_take, hwd]
    congr 2
    omega
  rw [this]
  cases p with
  | none => have := h4 rfl; subst this; simp at h3; simp [h3]
  | some d => simp

/-- The reallocation in `resize`. -/
theorem grow_spec (s : WMem) (a n blk : Nat) (A : WObj) (hi : WInv s) (hA : s.objs a = some A)
    (hm : A.moved = false) (hf : s.blks blk = none) :
    ∃ s' p wd, growW s a n blk = some s' ∧ PutSpec s s' a (some { A with extra := p }) wd ∧
      n ≤ wd.length ∧ A.extraSize ≤ wd.length ∧ (p = none → wd = []) ∧
      ∀ j, j < A.extraSize → wd[j]? = (blkWords s A.extra)[j]? := by
  obtain ⟨w1, w2, w3, w4⟩ := hi.words hA hm
  have hcap : s.capacity A.extra = some (blkWords s A.extra).length := by
    cases hb : A.extra with
    | none => rfl
    | some b =>
      obtain ⟨l, hl⟩ := Option.isSome_iff_exists.1 (hi.own a A b hA hb)
      simp [capacity, blkWords, hl]
  unfold growW
  simp only [hA, hcap]
  by_cases hc : (blkWords s A.extra).length < n
  · rw [if_pos hc]
    obtain ⟨s1, s2, p, wd, h1, h2, h3, h4, h5, h6, h7⟩ :=
      alloc_copy s a A n A.extraSize blk hi hA hm (by omega) (by omega) hf
    have hpb : p = some blk := by
      rcases h5 with ⟨h0, -⟩ | ⟨-, h⟩
      · omega
      · exact h
    subst hpb
    simp only [h1, h2]
    have hfree : ∃ s3, s2.free A.extra = some s3 ∧ (∀ x, s3.objs x = s.objs x) ∧
        ∀ y, s3.blks y = if some blk = some y then some wd else if A.extra = some y then none else s.blks y := by
      cases hb : A.extra with
      | none =>
        exact ⟨s2, rfl, h3, fun y => by rw [h4]; simp⟩
      | some c =>
        have hc' := w3 c hb
        have hne : c ≠ blk := by rintro rfl; simp [hf] at hc'
        have hs2 : s2.blks c = some (blkWords s A.extra) := by
          rw [h4, if_neg (by simpa using Ne.symm hne), hc']
        refine ⟨s2.setBlk c none, by simp [free, hs2], h3, fun y => ?_⟩
        simp only [setBlk, h4, Option.some.injEq, eq_comm (a := c)]
        by_cases hy : y = c
        · subst hy; simp [Ne.symm hne]
        · simp [hy]
    obtain ⟨s3, g1, g2, g3⟩ := hfree
    simp only [g1]
    refine ⟨_, some blk, wd, rfl, ⟨fun x => by simp only [setObj, g2], fun y => ?_, ?_, ?_⟩, by omega,
      by omega, by simp, h7⟩
    · simp only [setObj, g3, hA, Option.bind_some]
    · simp only [Option.bind_some, Option.some.injEq]
      rintro y rfl
      exact Or.inr hf
    · intro O hO _
      simp only [Option.some.injEq] at hO
      subst hO
      simp only [Option.isSome_some, if_true]
      omega
  · rw [if_neg hc]
    refine ⟨s, A.extra, blkWords s A.extra, rfl, ⟨fun x => ?_, fun y => ?_, ?_, ?_⟩, by omega, w2, ?_,
      fun j _ => rfl⟩
    · split
      · rename_i hx; rw [hx, hA]
      · rfl
    · simp only [Option.bind_some, hA]
      split
      · rename_i hy; exact w3 y hy
      · rfl
    · intro y hy
      left
      rw [hA]
      exact hy
    · intro O hO _
      simp only [Option.some.injEq] at hO
      subst hO
      cases hb : A.extra with
      | none => simp [w4 hb]
      | some b => simp only [Option.isSome_some, if_true]; rw [← hb]; exact w2
    · intro hb; rw [hb]; rfl

/-- `resize`. -/
theorem resize_spec (s : WMem) (a used blk : Nat) (A : WObj) (hi : WInv s) (hA : s.objs a = some A)
    (hm : A.moved = false) (hu : 1 ≤ used) (hf : s.blks blk = none) :
    ∃ s' p wd, resizeW s a used blk = some s' ∧
      PutSpec s s' a (some { A with extra := p, extraSize := used - 1 }) wd ∧
      used - 1 ≤ wd.length ∧ (p = none → wd = []) ∧
      ∀ j, j < A.extraSize → wd[j]? = (blkWords s A.extra)[j]? := by
  obtain ⟨s1, p, wd, h1, hp, h3, h4, h5, h6⟩ := grow_spec s a (used - 1) blk A hi hA hm hf
  have ho : s1.objs a = some { A with extra := p } := by rw [hp.objs, if_pos rfl]
  refine ⟨s1.setObj a (some { A with extra := p, extraSize := used - 1 }), p, wd, ?_, ⟨fun x => ?_,
    fun y => ?_, fun y hy => hp.fresh y hy, fun O hO _ => ?_⟩, h3, h5, h6⟩
  · unfold resizeW
    rw [if_neg (by omega)]
    simp only [h1, ho]
  · simp only [setObj, hp.objs]; split <;> rfl
  · simp only [setObj, hp.blks]; rfl
  · simp only [Option.some.injEq] at hO
    subst hO
    cases p with
    | none => have := h5 rfl; subst this; simpa using h3
    | some d => simpa using h3

theorem good_resize (s : WMem) (a used blk : Nat) (hi : WInv s) (h : WMayDo s (.resize a used blk)) :
    WGood s (.resize a used blk) := by
  obtain ⟨⟨A, hA, hm, -⟩, hu, hf⟩ := h
  obtain ⟨w1, w2, w3, w4⟩ := hi.words hA hm
  obtain ⟨s', p, wd, h1, hp, h3, h4, h5⟩ := resize_spec s a used blk A hi hA hm hu hf
  refine ⟨s', h1, hp.inv hi, ⟨_, A.first :: wd.take (used - 1), w1, by simp; omega, ?_, fun x => ?_⟩⟩
  · intro i hi'
    simp only [List.length_cons, List.length_take] at hi'
    cases i with
    | zero => rfl
    | succ i =>
      simp only [List.getElem?_cons_succ]
      rw [List.getElem?_take_of_lt (by omega), List.getElem?_take_of_lt (by omega), h5 i (by omega)]
  · rw [hp.abs hi]
    cases p with
    | none => simp [h4 rfl, hm]
    | some p => simp [hm]

theorem store_put {s s1 : WMem} {a : Nat} {O : WObj} {wd : List W} {d i : Nat} {w : W}
    (hp : PutSpec s s1 a (some O) wd) (hd : O.extra = some d) (hi : i < wd.length) :
    ∃ s2, s1.store O.extra i w = some s2 ∧ PutSpec s s2 a (some O) (wd.set i w) := by
  have hb : s1.blks d = some wd := by rw [hp.blks, if_pos (by simpa using hd)]
  refine ⟨s1.setBlk d (some (wd.set i w)), by simp [store, hd, hb, hi], ⟨hp.objs, fun y => ?_, hp.fresh,
    fun O' hO' hm => ?_⟩⟩
  · simp only [setBlk, hp.blks, Option.bind_some, hd, Option.some.injEq, eq_comm (a := y)]
    split <;> rfl
  · simpa using hp.cap O' hO' hm

theorem good_pushBack (s : WMem) (a : Nat) (w : Word) (blk : Nat) (hi : WInv s)
    (h : WMayDo s (.pushBack a w blk)) : WGood s (.pushBack a w blk) := by
  obtain ⟨⟨A, hA, hm, -⟩, hf⟩ := h
  obtain ⟨w1, w2, w3, w4⟩ := hi.words hA hm
  obtain ⟨s1, p, wd, h1, hp, h3, h4, h5⟩ := resize_spec s a (A.extraSize + 1 + 1) blk A hi hA hm (by omega) hf
  cases p with
  | none => have := h4 rfl; subst this; simp at h3
  | some d =>
    obtain ⟨s2, g1, hp2⟩ := store_put (w := some w) hp rfl (i := A.extraSize) (by omega)
    have ho : s1.objs a = some { A with extra := some d, extraSize := A.extraSize + 1 + 1 - 1 } := by
      rw [hp.objs, if_pos rfl]
    refine ⟨s2, ?_, hp2.inv hi, ⟨_, w1, fun x => ?_⟩⟩
    · simp only [wstep, hA, h1, ho]
      exact g1
    · rw [hp2.abs hi]
      simp only [Option.bind_some, hm, Option.isSome_some, if_true, Bool.false_eq_true, if_false]
      congr 2
      rw [List.cons_append]
      congr 1
      apply List.ext_getElem?
      intro j
      rw [List.getElem?_take]
      have hlen : ((blkWords s A.extra).take A.extraSize).length = A.extraSize := by
        rw [List.length_take]; omega
      by_cases hj : j < A.extraSize
      · rw [if_pos (by omega), List.getElem?_set_ne (by omega), h5 j hj,
          List.getElem?_append_left (by omega), List.getElem?_take_of_lt hj]
      · rw [List.getElem?_append_right (by omega), hlen]
        by_cases hj2 : j = A.extraSize
        · subst hj2
          rw [if_pos (by omega), List.getElem?_set_self (by omega)]
          simp
        · rw [if_neg (by omega), List.getElem?_eq_none (by simp; omega)]

theorem good_resizeInit (s : WMem) (a used : Nat) (w : Word) (blk : Nat) (hi : WInv s)
    (h : WMayDo s (.resizeInit a used w blk)) : WGood s (.resizeInit a used w blk) := by
  obtain ⟨⟨A, hA, hm, -⟩, hu, hf⟩ := h
  obtain ⟨w1, w2, w3, w4⟩ := hi.words hA hm
  obtain ⟨s1, p, wd, h1, hp, h3, h4, h5, h6⟩ := grow_spec s a (used - 1) blk A hi hA hm hf
  have ho : s1.objs a = some { A with extra := p } := by rw [hp.objs, if_pos rfl]
  obtain ⟨s2, wd', g1, g2, g3, g4, g5⟩ : ∃ s2 wd', s1.fillLoop p (some w) A.extraSize
        (used - 1 - A.extraSize) = some s2 ∧ (∀ x, s2.objs x = s1.objs x) ∧
      (∀ y, s2.blks y = if p = some y then some wd' else s1.blks y) ∧ wd'.length = wd.length ∧
      ∀ j : Nat, wd'[j]? = if A.extraSize ≤ j ∧ j < A.extraSize + (used - 1 - A.extraSize) then
        some (some w) else wd[j]? := by
    cases p with
    | none =>
      have := h5 rfl
      subst this
      simp only [List.length_nil] at h3
      refine ⟨s1, [], by rw [show used - 1 - A.extraSize = 0 by omega]; rfl, fun _ => rfl,
        fun y => by simp, rfl, fun j => ?_⟩
      rw [if_neg (by omega)]
    | some d =>
      have hd : s1.blks d = some wd := by rw [hp.blks, if_pos (by simp)]
      obtain ⟨D', e1, e2, e3⟩ := fillLoop_spec (used - 1 - A.extraSize) s1 d A.extraSize (some w) wd hd
        (by omega)
      refine ⟨_, D', e1, fun _ => rfl, fun y => ?_, e2, e3⟩
      simp only [setBlk, Option.some.injEq, eq_comm (a := d)]
  have hw : wstep s (.resizeInit a used w blk) = some (s2.setObj a (some
      { A with extra := p, extraSize := max A.extraSize (used - 1) })) := by
    simp only [wstep]
    rw [if_neg (by omega)]
    simp only [h1, ho, g1]
  have hp2 : PutSpec s (s2.setObj a (some { A with extra := p, extraSize := max A.extraSize (used - 1) })) a
      (some { A with extra := p, extraSize := max A.extraSize (used - 1) }) wd' := by
    refine ⟨fun x => ?_, fun y => ?_, fun y hy => hp.fresh y hy, fun O hO _ => ?_⟩
    · simp only [setObj, g2, hp.objs]; split <;> rfl
    · simp only [setObj, g3, hp.blks, Option.bind_some]
      split <;> rfl
    · simp only [Option.some.injEq] at hO
      subst hO
      cases p with
      | none => have := h5 rfl; subst this; simp at h3 h4 ⊢; omega
      | some d => simp only [Option.isSome_some, if_true]; omega
  refine ⟨_, hw, hp2.inv hi, ⟨_, w1, fun x => ?_⟩⟩
  rw [hp2.abs hi]
  have hlen : ((blkWords s A.extra).take A.extraSize).length = A.extraSize := by
    rw [List.length_take]; omega
  have : A.first :: (blkWords s A.extra).take A.extraSize ++ List.replicate
      (used - (A.first :: (blkWords s A.extra).take A.extraSize).length) (some w) =
      A.first :: wd'.take (max A.extraSize (used - 1)) := by
    rw [List.cons_append]
    congr 1
    apply List.ext_getElem?
    intro j
    rw [List.getElem?_take, g5, List.length_cons, hlen]
    by_cases hj : j < A.extraSize
    · rw [if_pos (by omega), if_neg (by omega), h6 j hj,
        List.getElem?_append_left (by omega), List.getElem?_take_of_lt hj]
    · rw [List.getElem?_append_right (by omega), hlen]
      by_cases hj2 : j < used - 1
      · rw [if_pos (by omega), if_pos (by omega), List.getElem?_replicate_of_lt (by omega)]
      · rw [if_neg (by omega), List.getElem?_eq_none (by simp; omega)]
  rw [this]
  cases p with
  | none =>
    have := h5 rfl
    subst this
    have : wd' = [] := List.length_eq_zero_iff.1 (by simpa using g4)
    subst this
    simp [hm]
  | some d => simp [hm]

theorem good_write (s : WMem) (a i : Nat) (w : Word) (hi : WInv s) (h : WMayDo s (.write a i w)) :
    WGood s (.write a i w) := by
  obtain ⟨A, hA, hm, hle⟩ := h
  obtain ⟨w1, w2, w3, w4⟩ := hi.words hA hm
  have idput : ∀ f, PutSpec s (s.setObj a (some { A with first := f })) a (some { A with first := f })
      (blkWords s A.extra) := by
    intro f
    refine ⟨fun x => rfl, fun y => ?_, fun y hy => Or.inl (by rw [hA]; exact hy), fun O hO _ => ?_⟩
    · simp only [setObj, Option.bind_some, hA]
      split
      · rename_i hy; exact w3 y hy
      · rfl
    · simp only [Option.some.injEq] at hO
      subst hO
      cases hb : A.extra with
      | none => simp [w4 hb]
      | some b => simp only [Option.isSome_some, if_true]; rw [← hb]; exact w2
  cases i with
  | zero =>
    have hp := idput (some w)
    refine ⟨_, ?_, hp.inv hi, ⟨_, w1, fun x => ?_⟩⟩
    · simp only [wstep, hA]
      rw [if_neg (by omega), if_pos trivial]
    · rw [hp.abs hi]
      simp only [Option.bind_some, hm, Bool.false_eq_true, if_false, List.set_cons_zero]
      cases hb : A.extra with
      | none => simp [blkWords]
      | some b => simp
  | succ i =>
    cases hb : A.extra with
    | none => have := w4 hb; omega
    | some d =>
      have hself : s.setObj a (some { A with first := A.first }) = s := by
        cases s
        simp only [setObj, WMem.mk.injEq, true_and]
        funext x
        split
        · subst_vars; exact hA.symm
        · rfl
      have hp := idput A.first
      rw [hself] at hp
      obtain ⟨s2, g1, hp2⟩ := store_put (w := some w) hp hb (i := i) (by omega)
      refine ⟨s2, ?_, hp2.inv hi, ⟨_, w1, fun x => ?_⟩⟩
      · simp only [wstep, hA]
        rw [if_neg (by omega), if_neg (by omega)]
        exact g1
      · rw [hp2.abs hi]
        simp only [Option.bind_some, hm, Bool.false_eq_true, if_false, hb, Option.isSome_some, if_true,
          List.set_cons_succ, List.take_set]

theorem good_step (s : WMem) (op : WOp) (hi : WInv s) (h : WMayDo s op) : WGood s op := by
  cases op with
  | new a => exact good_new s a hi h
  | newSize a n blk => exact good_newSize s a n blk hi h
  | moveCtor a b => exact good_moveCtor s a b hi h
  | copyUsed a b used blk => exact good_copyUsed s a b used blk hi h
  | copyExtend a used copy b blk => exact good_copyExtend s a used copy b blk hi h
  | destroy a => exact good_destroy s a hi h
  | assign a b used blk => exact good_assign s a b used blk hi h
  | pushBack a w blk => exact good_pushBack s a w blk hi h
  | resizeNoCopy a used blk => exact good_resizeNoCopy s a used blk hi h
  | resize a used blk => exact good_resize s a used blk hi h
  | resizeInit a used w blk => exact good_resizeInit s a used w blk hi h
  | moveAssign a b => exact good_moveAssign s a b hi h
  | write a i w => exact good_write s a i w hi h

/-- States a program reaches with permitted operations. -/
inductive WReachable : WMem → Prop where
  | empty : WReachable .empty
  | step (s s' : WMem) (op : WOp) : WReachable s → WMayDo s op → wstep s op = some s' → WReachable s'

theorem winv_reachable {s : WMem} (h : WReachable s) : WInv s := by
  induction h with
  | empty => exact ⟨by simp [WMem.empty], by simp [WMem.empty], by simp [WMem.empty], by simp [WMem.empty]⟩
  | step s s' op _ hop hs ih =>
    obtain ⟨s'', h1, h2, -⟩ := good_step s op ih hop
    rw [hs] at h1
    exact Option.some.inj h1 ▸ h2

/-- C14: in every reachable state each heap block belongs to exactly one object (no
leak, no sharing) and no object refers to a freed block. -/
theorem C14_ownership (s : WMem) (h : WReachable s) :
    (∀ b, (s.blks b).isSome ↔ ∃ a A, s.objs a = some A ∧ A.extra = some b) ∧
    ∀ (a a' : Nat) (A A' : WObj) (b : Nat), s.objs a = some A → A.extra = some b →
      s.objs a' = some A' → A'.extra = some b → a = a' := by
  have hi := winv_reachable h
  exact ⟨fun b => ⟨hi.leak b, fun ⟨a, A, hA, hb⟩ => hi.own a A b hA hb⟩, hi.excl⟩

/-- C14: every permitted operation is defined: nothing is freed twice, and no
null, dangling or out-of-range pointer is used. -/
theorem C14_memory_safe (s : WMem) (h : WReachable s) (op : WOp) (hop : WMayDo s op) :
    (wstep s op).isSome := by
  obtain ⟨s', h1, -⟩ := good_step s op (winv_reachable h) hop
  simp [h1]

/-- C14: the words of an object that is not moved from, as its index operator
reads them. -/
def HasWords (s : WMem) (a : Nat) (l : List W) : Prop :=
  ∃ A, s.objs a = some A ∧ A.moved = false ∧ A.extraSize + 1 = l.length ∧
    ∀ i, i < l.length → wread s a i = l[i]?

/-- The words of every object, as its index operator reads them. -/
def IsWords (s : WMem) (f : Nat → Option (List W)) : Prop :=
  ∀ a, (∀ l, f a = some l → HasWords s a l) ∧
    (f a = none → ∀ A, s.objs a = some A → A.moved = true)

theorem isWords_abs {s : WMem} (hi : WInv s) : IsWords s (wabs s) := by
  intro a
  refine ⟨fun l hl => ?_, fun hn A hA => ?_⟩
  · unfold wabs at hl
    split at hl
    · simp at hl
    · rename_i A hA
      split at hl
      · simp at hl
      · rename_i hm
        simp only [Bool.not_eq_true] at hm
        obtain ⟨w1, w2, w3, w4⟩ := hi.words hA hm
        simp only [Option.some.injEq] at hl
        subst hl
        have hlen : ((blkWords s A.extra).take A.extraSize).length = A.extraSize := by
          rw [List.length_take]; omega
        refine ⟨A, hA, hm, by rw [List.length_cons, hlen], fun i hi' => ?_⟩
        rw [List.length_cons, hlen] at hi'
        simp only [wread, hA]
        rw [if_neg (by omega)]
        cases i with
        | zero => simp
        | succ i =>
          rw [if_neg (by omega), List.getElem?_cons_succ, List.getElem?_take_of_lt (by omega)]
          cases hb : A.extra with
          | none => have := w4 hb; omega
          | some d =>
            have := w3 d hb
            simp only [load, this, Nat.add_sub_cancel, hb]
  · unfold wabs at hn
    rw [hA] at hn
    simp only at hn
    split at hn
    · assumption
    · simp at hn

/-- C14: along every history the objects behave as independent sequences of words:
an operation changes the words of the objects it names as specified by `WSpec` and
leaves those of all others alone. -/
theorem C14_refines (s : WMem) (h : WReachable s) (op : WOp) (hop : WMayDo s op) :
    ∃ s' f f', wstep s op = some s' ∧ IsWords s f ∧ IsWords s' f' ∧ WSpec f op f' := by
  have hi := winv_reachable h
  obtain ⟨s', h1, h2, h3⟩ := good_step s op hi hop
  exact ⟨s', wabs s, wabs s', h1, isWords_abs hi, isWords_abs h2, h3⟩

/-- A run of operations. -/
def wrun : WMem → List WOp → Option WMem
  | s, [] => some s
  | s, op :: ops => (wstep s op).bind fun s => wrun s ops

/-- Growth past the capacity, a copy, and a move: object 3 has the words, object 2
does not see the later write, object 1 is moved from. -/
example : (wrun .empty [.new 1, .pushBack 1 5 100, .pushBack 1 6 101, .copyUsed 2 1 3 102,
    .moveCtor 3 1, .write 3 2 9]).map (fun s => ([0, 1, 2].map (wread s 3), [0, 1, 2].map (wread s 2),
      (s.objs 1).map WObj.moved, (s.blks 100).isSome)) =
    some ([some (some 0), some (some 5), some (some 9)], [some (some 0), some (some 5), some (some 6)],
      some true, false) := by decide

/-- `resize(used_words, init)` does not shrink: the documentation of the container
suggests `size() == used_words` afterwards. -/
theorem C14_resize_init_shrink_false :
    (wrun .empty [.newSize 1 3 100, .resizeInit 1 1 0 101]).map (fun s => (s.objs 1).map WObj.extraSize) =
      some (some 2) := by decide

/-- An object that was moved from must not be read: its size is unchanged but its
words are gone. -/
theorem C14_moved_from_unsafe :
    (wrun .empty [.newSize 1 3 100, .moveCtor 2 1]).map (fun s => (s.objs 1).map WObj.extraSize) =
      some (some 2) ∧
    (wrun .empty [.newSize 1 3 100, .moveCtor 2 1]).map (fun s => wread s 1 1) = some none := by decide

end Walnut.Props
