/- Invariants of the storage of `BigIntWords`. -/
import Verif.Util.Storage
import Mathlib.Tactic.Common
import Mathlib.Data.List.Basic

namespace Walnut.Util
open WMem

/-- Ownership and capacity. -/
structure WInv (s : WMem) : Prop where
  own : ∀ (a : Nat) (A : WObj) (b : Nat), s.objs a = some A → A.extra = some b → (s.blks b).isSome
  excl : ∀ (a a' : Nat) (A A' : WObj) (b : Nat), s.objs a = some A → A.extra = some b →
    s.objs a' = some A' → A'.extra = some b → a = a'
  leak : ∀ b, (s.blks b).isSome → ∃ a A, s.objs a = some A ∧ A.extra = some b
  cap : ∀ (a : Nat) (A : WObj), s.objs a = some A → A.moved = false →
    ∃ c, s.capacity A.extra = some c ∧ A.extraSize ≤ c

/-- The words of a block, or none. -/
def blkWords (s : WMem) (p : Option Nat) : List W :=
  match p with
  | none => []
  | some b => (s.blks b).getD []

/-- The words of the objects that are not moved from. -/
def wabs (s : WMem) (a : Nat) : Option (List W) :=
  match s.objs a with
  | none => none
  | some A => if A.moved then none else some (A.first :: (blkWords s A.extra).take A.extraSize)

/-- The common form of the operations that change one object. -/
structure PutSpec (s s' : WMem) (a : Nat) (v : Option WObj) (wd : List W) : Prop where
  objs : ∀ x, s'.objs x = if x = a then v else s.objs x
  blks : ∀ y, s'.blks y = if v.bind WObj.extra = some y then some wd
    else if (s.objs a).bind WObj.extra = some y then none else s.blks y
  fresh : ∀ y, v.bind WObj.extra = some y → (s.objs a).bind WObj.extra = some y ∨ s.blks y = none
  cap : ∀ O, v = some O → O.moved = false → O.extraSize ≤ if O.extra.isSome then wd.length else 0

theorem PutSpec.inv {s s' : WMem} {a : Nat} {v : Option WObj} {wd : List W}
    (hp : PutSpec s s' a v wd) (hi : WInv s) : WInv s' := by
  obtain ⟨h1, h2, h3, h4⟩ := hp
  obtain ⟨i1, i2, i3, i4⟩ := hi
  -- the block of another object is untouched
  have other : ∀ (x : Nat) (X : WObj) (b : Nat), x ≠ a → s.objs x = some X → X.extra = some b →
      v.bind WObj.extra ≠ some b ∧ (s.objs a).bind WObj.extra ≠ some b ∧ s'.blks b = s.blks b := by
    intro x X b hx hX hb
    have n1 : (s.objs a).bind WObj.extra ≠ some b := by
      intro h
      rw [Option.bind_eq_some_iff] at h
      obtain ⟨A, hA, hAb⟩ := h
      exact hx (i2 x a X A b hX hb hA hAb)
    have n2 : v.bind WObj.extra ≠ some b := by
      intro h
      rcases h3 b h with h | h
      · exact n1 h
      · have := i1 x X b hX hb
        rw [h] at this
        simp at this
    exact ⟨n2, n1, by rw [h2, if_neg n2, if_neg n1]⟩
  refine ⟨?_, ?_, ?_, ?_⟩
  · intro x X b hX hb
    rw [h1] at hX
    split at hX
    · rw [h2, if_pos (by rw [hX]; exact hb)]; rfl
    · rename_i hx
      rw [(other x X b hx hX hb).2.2]
      exact i1 x X b hX hb
  · intro x x' X X' b hX hb hX' hb'
    rw [h1] at hX hX'
    split at hX
    · split at hX'
      · subst_vars; rfl
      · rename_i hx'
        exact absurd (by rw [hX]; exact hb) (other x' X' b hx' hX' hb').1
    · rename_i hx
      split at hX'
      · exact absurd (by rw [hX']; exact hb') (other x X b hx hX hb).1
      · exact i2 x x' X X' b hX hb hX' hb'
  · intro b hb
    rw [h2] at hb
    split at hb
    · rename_i hv
      rw [Option.bind_eq_some_iff] at hv
      obtain ⟨O, hO, hOb⟩ := hv
      exact ⟨a, O, by rw [h1, if_pos rfl, hO], hOb⟩
    · split at hb
      · simp at hb
      · rename_i n1 n2
        obtain ⟨x, X, hX, hXb⟩ := i3 b hb
        have hx : x ≠ a := by
          rintro rfl
          exact n2 (by rw [hX]; exact hXb)
        exact ⟨x, X, by rw [h1, if_neg hx, hX], hXb⟩
  · intro x X hX hm
    rw [h1] at hX
    split at hX
    · have := h4 X hX hm
      cases hXe : X.extra with
      | none => rw [hXe] at this; exact ⟨0, rfl, by simpa using this⟩
      | some b =>
        rw [hXe] at this
        refine ⟨wd.length, ?_, by simpa using this⟩
        simp only [capacity]
        rw [h2, if_pos (by rw [hX]; exact hXe)]
        rfl
    · rename_i hx
      obtain ⟨c, hc, hle⟩ := i4 x X hX hm
      refine ⟨c, ?_, hle⟩
      cases hXe : X.extra with
      | none => rw [hXe] at hc; exact hc
      | some b =>
        rw [hXe] at hc
        simp only [capacity] at hc ⊢
        rw [(other x X b hx hX hXe).2.2]
        exact hc

theorem PutSpec.abs {s s' : WMem} {a : Nat} {v : Option WObj} {wd : List W}
    (hp : PutSpec s s' a v wd) (hi : WInv s) (x : Nat) :
    wabs s' x = if x = a then (v.bind fun O => if O.moved then none else
      some (O.first :: ((if O.extra.isSome then wd else []).take O.extraSize))) else wabs s x := by
  obtain ⟨h1, h2, h3, h4⟩ := hp
  obtain ⟨i1, i2, i3, i4⟩ := hi
  by_cases hx : x = a
  · subst hx
    rw [if_pos rfl]
    unfold wabs
    rw [h1, if_pos rfl]
    cases v with
    | none => rfl
    | some O =>
      simp only [Option.bind_some]
      split
      · rfl
      · congr 3
        cases hO : O.extra with
        | none => rfl
        | some b =>
          simp only [blkWords, Option.isSome_some, if_true]
          rw [h2, if_pos (by simp [hO])]
          rfl
  · rw [if_neg hx]
    unfold wabs
    rw [h1, if_neg hx]
    cases hX : s.objs x with
    | none => rfl
    | some X =>
      simp only
      split
      · rfl
      · congr 3
        cases hb : X.extra with
        | none => rfl
        | some b =>
          simp only [blkWords]
          have n1 : (s.objs a).bind WObj.extra ≠ some b := by
            intro h
            rw [Option.bind_eq_some_iff] at h
            obtain ⟨A, hA, hAb⟩ := h
            exact hx (i2 x a X A b hX hb hA hAb)
          have n2 : v.bind WObj.extra ≠ some b := by
            intro h
            rcases h3 b h with h | h
            · exact n1 h
            · have := i1 x X b hX hb
              rw [h] at this
              simp at this
          rw [h2, if_neg n2, if_neg n1]

theorem setBlk_setBlk (s : WMem) (b : Nat) (v w : Option (List W)) :
    (s.setBlk b v).setBlk b w = s.setBlk b w := by
  simp only [setBlk, WMem.mk.injEq, and_true]
  funext x
  split <;> rfl

theorem setBlk_self (s : WMem) (b : Nat) (v : Option (List W)) (h : s.blks b = v) :
    s.setBlk b v = s := by
  cases s
  simp only [setBlk, WMem.mk.injEq, and_true]
  funext x
  split
  · subst_vars; rfl
  · rfl

theorem copyLoop_spec (n : Nat) : ∀ (s : WMem) (d c i : Nat) (D C : List W), s.blks d = some D →
    s.blks c = some C → i + n ≤ D.length → i + n ≤ C.length →
    ∃ D', s.copyLoop (some d) (some c) i n = some (s.setBlk d (some D')) ∧ D'.length = D.length ∧
      ∀ j : Nat, D'[j]? = if i ≤ j ∧ j < i + n then C[j]? else D[j]? := by
  induction n with
  | zero =>
    intro s d c i D C hD hC h1 h2
    refine ⟨D, by rw [setBlk_self s d _ hD]; rfl, rfl, fun j => ?_⟩
    rw [if_neg (by omega)]
  | succ n ih =>
    intro s d c i D C hD hC h1 h2
    have hiC : i < C.length := by omega
    have hiD : i < D.length := by omega
    simp only [copyLoop, load, hC, List.getElem?_eq_getElem hiC, store, hD, if_pos hiD]
    obtain ⟨D', e1, e2, e3⟩ := ih (s.setBlk d (some (D.set i C[i]))) d c (i + 1) (D.set i C[i]) C
      (by simp [setBlk]) (by
        simp only [setBlk]
        split
        · subst_vars
          rw [hD] at hC
          obtain rfl := Option.some.inj hC
          simp
        · exact hC) (by simp; omega) (by omega)
    refine ⟨D', by rw [e1, setBlk_setBlk], by simpa using e2, fun j => ?_⟩
    rw [e3]
    by_cases hj : i = j
    · subst hj
      rw [if_neg (by omega), if_pos (by omega), List.getElem?_set_self hiD,
        List.getElem?_eq_getElem hiC]
    · by_cases hj2 : i + 1 ≤ j ∧ j < i + 1 + n
      · rw [if_pos hj2, if_pos (by omega)]
      · rw [if_neg hj2, if_neg (by omega), List.getElem?_set_ne hj]

theorem fillLoop_spec (n : Nat) : ∀ (s : WMem) (d i : Nat) (w : W) (D : List W), s.blks d = some D →
    i + n ≤ D.length →
    ∃ D', s.fillLoop (some d) w i n = some (s.setBlk d (some D')) ∧ D'.length = D.length ∧
      ∀ j : Nat, D'[j]? = if i ≤ j ∧ j < i + n then some w else D[j]? := by
  induction n with
  | zero =>
    intro s d i w D hD h1
    refine ⟨D, by rw [setBlk_self s d _ hD]; rfl, rfl, fun j => ?_⟩
    rw [if_neg (by omega)]
  | succ n ih =>
    intro s d i w D hD h1
    have hiD : i < D.length := by omega
    simp only [fillLoop, store, hD, if_pos hiD]
    obtain ⟨D', e1, e2, e3⟩ := ih (s.setBlk d (some (D.set i w))) d (i + 1) w (D.set i w)
      (by simp [setBlk]) (by simp; omega)
    refine ⟨D', by rw [e1, setBlk_setBlk], by simpa using e2, fun j => ?_⟩
    rw [e3]
    by_cases hj : i = j
    · subst hj
      rw [if_neg (by omega), if_pos (by omega), List.getElem?_set_self hiD]
    · by_cases hj2 : i + 1 ≤ j ∧ j < i + 1 + n
      · rw [if_pos hj2, if_pos (by omega)]
      · rw [if_neg hj2, if_neg (by omega), List.getElem?_set_ne hj]

/-- What an object that is not moved from provides. -/
theorem WInv.words {s : WMem} (hi : WInv s) {a : Nat} {A : WObj} (hA : s.objs a = some A)
    (hm : A.moved = false) :
    wabs s a = some (A.first :: (blkWords s A.extra).take A.extraSize) ∧
    A.extraSize ≤ (blkWords s A.extra).length ∧
    (∀ b, A.extra = some b → s.blks b = some (blkWords s A.extra)) ∧
    (A.extra = none → A.extraSize = 0) := by
  obtain ⟨c, hc, hle⟩ := hi.cap a A hA hm
  refine ⟨by simp [wabs, hA, hm], ?_, ?_, ?_⟩
  · cases hb : A.extra with
    | none => rw [hb] at hc; simp [capacity] at hc; simp [blkWords]; omega
    | some b =>
      rw [hb] at hc
      simp only [capacity, Option.map_eq_some_iff] at hc
      obtain ⟨l, hl, rfl⟩ := hc
      simp [blkWords, hl, hle]
  · intro b hb
    have := hi.own a A b hA hb
    obtain ⟨l, hl⟩ := Option.isSome_iff_exists.1 this
    simp [blkWords, hb, hl]
  · intro hb
    rw [hb] at hc; simp [capacity] at hc; omega

end Walnut.Util
