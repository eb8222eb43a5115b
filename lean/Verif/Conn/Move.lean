/-
Model of moving half-edges in memory (connected_polygon.h 28-36 and 183-198), and of the moves that `std::vector` makes when an
edge is inserted by `SplitEdge` (convex_polygon.h 598-599) or erased after merging (convex_polygon.h 729).

Objects are at addresses, which are numbers.
-/
import Mathlib.Logic.Function.Basic
import Mathlib.Data.List.Basic

namespace Walnut.Conn

/-- The memory: which half-edge is at an address (`none`: none, or one that was moved from), and `partner_`.  Uninitialised memory
has no partner; the model never reads it (`partner_` is at connected_polygon.h 240). -/
structure Mem where
  label : Nat → Option Nat
  ptr : Nat → Option Nat

namespace Mem

/-- The parts of the half-edge other than `partner_` are moved (connected_polygon.h 30-31 and 186-190). -/
def moveLabel (M : Mem) (dst src : Nat) : Nat → Option Nat := Function.update (Function.update M.label src none) dst (M.label src)

/-- The move constructor (connected_polygon.h 28-36). -/
def construct (M : Mem) (dst src : Nat) : Mem where
  label := M.moveLabel dst src
  ptr :=
    match M.ptr src with
    | none => Function.update M.ptr dst none
    | some p =>
      Function.update (Function.update (Function.update M.ptr dst (some p)) p (some dst)) src none

/-- Move assignment (connected_polygon.h 183-198). -/
def assign (M : Mem) (dst src : Nat) : Mem where
  label := M.moveLabel dst src
  ptr :=
    let m := Function.update (Function.update M.ptr dst (M.ptr src)) src (M.ptr dst)
    let m := match m dst with
      | none => m
      | some p => Function.update m p (some dst)
    match m src with
    | none => m
    | some q => Function.update m q (some src)

/-- The assignments of `move_backward`: the `n` objects from `base` move up by one, the last one first.  The standard
library, for the insertion at convex_polygon.h 598. -/
def shiftUp (base : Nat) : Nat → Mem → Mem
  | 0, M => M
  | n + 1, M => shiftUp base n (M.assign (base + n + 1) (base + n))

/-- The assignments of `move`: the `n` objects after `base` move down by one, the first one first.  The standard library,
for the erasure at convex_polygon.h 729. -/
def shiftDown : Nat → Nat → Mem → Mem
  | _, 0, M => M
  | base, n + 1, M => shiftDown (base + 1) n (M.assign base (base + 1))

/-- The constructions of `uninitialized_move`: `n` objects from `src` on are moved to `dst` and after.  The standard
library, for the insertion at convex_polygon.h 598. -/
def moveRange : Nat → Nat → Nat → Mem → Mem
  | _, _, 0, M => M
  | dst, src, n + 1, M => moveRange (dst + 1) (src + 1) n (M.construct dst src)

/-- `vector::insert` of the temporary object `tmp` at the position `i` when there is capacity for it: the last object is
constructed after the end, the others are assigned.  At the end the object is constructed there (convex_polygon.h 598). -/
def insertInPlace (base len i tmp : Nat) (M : Mem) : Mem :=
  if i = len then M.construct (base + len) tmp
  else (shiftUp (base + i) (len - 1 - i) (M.construct (base + len) (base + len - 1))).assign (base + i) tmp

/-- `vector::insert` when there is no capacity for the object: it is constructed in new storage at `base'`, and then the
others (convex_polygon.h 598). -/
def insertGrow (base base' len i tmp : Nat) (M : Mem) : Mem :=
  moveRange (base' + i + 1) (base + i) (len - i) (moveRange base' base i (M.construct (base' + i) tmp))

/-- `vector::erase` at the position `i`; the last object is destroyed (convex_polygon.h 729). -/
def eraseAt (base len i : Nat) (M : Mem) : Mem :=
  let M := shiftDown (base + i) (len - 1 - i) M
  { M with label := Function.update M.label (base + len - 1) none }

/-! ## Specification -/

/-- `partner().partner()` is the half-edge itself, a half-edge is not its own partner, and partners are half-edges.  About
`partner_`, connected_polygon.h 240. -/
structure Ok (M : Mem) : Prop where
  sym : ∀ a b, M.ptr a = some b → M.ptr b = some a
  irrefl : ∀ a, M.ptr a ≠ some a
  live : ∀ a, M.ptr a ≠ none → M.label a ≠ none
  inj : ∀ a b e, M.label a = some e → M.label b = some e → a = b

/-- The half-edges `e` and `f` are partners.  About `partner_`, connected_polygon.h 240. -/
def Partners (M : Mem) (e f : Nat) : Prop := ∃ a b, M.label a = some e ∧ M.label b = some f ∧ M.ptr a = some b

/-- The half-edges in the list are at `base` and after.  About the vector changed at convex_polygon.h 598 and 729. -/
def Holds (M : Mem) (base : Nat) (l : List Nat) : Prop := ∀ i < l.length, M.label (base + i) = l[i]?

end Mem

/-! ## Moves to places without a partner -/

/-- What a move to an object without a partner does.  Specification of connected_polygon.h 28-36 and 183-198. -/
structure Moved (M M' : Mem) (dst src : Nat) : Prop where
  label : M'.label = M.moveLabel dst src
  ptr : ∀ a, M'.ptr a = if a = dst then M.ptr src else if a = src then none else if M.ptr a = some src then some dst else M.ptr a

theorem moveLabel_apply (M : Mem) (dst src a : Nat) : M.moveLabel dst src a = if a = dst then M.label src else if a = src then none else M.label a := by
  simp [Mem.moveLabel, Function.update_apply]

theorem construct_moved {M : Mem} (h : M.Ok) {dst src : Nat} (hne : dst ≠ src) (hd : M.ptr dst = none) : Moved M (M.construct dst src) dst src := by
  refine ⟨rfl, fun a => ?_⟩
  unfold Mem.construct
  cases hs : M.ptr src with
  | none =>
    simp only [Function.update_apply]
    split
    · rfl
    · split
      · rename_i h1; subst h1; exact hs
      · rw [if_neg]
        intro hc
        rw [h.sym _ _ hc] at hs; cases hs
  | some p =>
    have hp := h.sym _ _ hs
    have p1 : p ≠ src := by rintro rfl; exact h.irrefl _ hs
    have p2 : p ≠ dst := by rintro rfl; rw [hd] at hp; cases hp
    simp only [Function.update_apply]
    by_cases a1 : a = src
    · subst a1; simp [Ne.symm hne]
    · by_cases a2 : a = dst
      · subst a2; simp [a1, Ne.symm p2]
      · by_cases a3 : a = p
        · subst a3; simp [a1, a2, hp]
        · have : M.ptr a ≠ some src := by
            intro hc
            have := h.sym _ _ hc
            rw [hs] at this
            exact a3 (Option.some.inj this).symm
          simp [a1, a2, a3, this]

theorem assign_moved {M : Mem} (h : M.Ok) {dst src : Nat} (hne : dst ≠ src) (hd : M.ptr dst = none) : Moved M (M.assign dst src) dst src := by
  refine ⟨rfl, fun a => ?_⟩
  unfold Mem.assign
  cases hs : M.ptr src with
  | none =>
    have : M.ptr a ≠ some src := by
      intro hc
      rw [h.sym _ _ hc] at hs; cases hs
    by_cases a1 : a = src
    · subst a1; simp [Function.update_apply, hd, hne, Ne.symm hne]
    · by_cases a2 : a = dst
      · subst a2; simp [Function.update_apply, hd, a1]
      · simp [Function.update_apply, hd, hne, a1, a2, this]
  | some p =>
    have hp := h.sym _ _ hs
    have p1 : p ≠ src := by rintro rfl; exact h.irrefl _ hs
    have p2 : p ≠ dst := by rintro rfl; rw [hd] at hp; cases hp
    simp only [Function.update_apply, if_neg hne, hs, hd, if_true, if_neg (Ne.symm p1)]
    by_cases a1 : a = src
    · subst a1; simp [Ne.symm hne, Ne.symm p1]
    · by_cases a2 : a = dst
      · subst a2; simp [a1, Ne.symm p2]
      · by_cases a3 : a = p
        · subst a3; simp [a1, a2, hp]
        · have : M.ptr a ≠ some src := by
            intro hc
            have := h.sym _ _ hc
            rw [hs] at this
            exact a3 (Option.some.inj this).symm
          simp [a1, a2, a3, this]

section
variable {M M' : Mem} {dst src : Nat}

theorem Moved.back (m : Moved M M' dst src) (h : M.Ok) (hne : dst ≠ src) (hd : M.ptr dst = none) {a b : Nat} (hab : M'.ptr a = some b) :
    ∃ a0 b0, M.ptr a0 = some b0 ∧ M'.label a = M.label a0 ∧ M'.label b = M.label b0 ∧ a = (if a0 = src then dst else a0) ∧
      b = (if b0 = src then dst else b0) := by
  rw [m.label]
  simp only [moveLabel_apply]
  rw [m.ptr] at hab
  split at hab
  · rename_i a1
    subst a1
    have hb := h.sym _ _ hab
    have b1 : b ≠ src := by rintro rfl; exact h.irrefl _ hab
    have b2 : b ≠ a := by rintro rfl; rw [hd] at hb; cases hb
    exact ⟨src, b, hab, by simp, by simp [b1, b2], by simp, by simp [b1]⟩
  · rename_i a1
    split at hab
    · cases hab
    · rename_i a2
      split at hab
      · rename_i a3
        have := Option.some.inj hab
        subst this
        exact ⟨a, src, a3, by simp [a1, a2], by simp, by simp [a2], by simp⟩
      · rename_i a3
        have hb := h.sym _ _ hab
        have b1 : b ≠ src := by rintro rfl; exact a3 hab
        have b2 : b ≠ dst := by rintro rfl; rw [hd] at hb; cases hb
        exact ⟨a, b, hab, by simp [a1, a2], by simp [b1, b2], by simp [a2], by simp [b1]⟩

theorem Moved.forth (m : Moved M M' dst src) (h : M.Ok) (hd : M.ptr dst = none) {a b : Nat} (hab : M.ptr a = some b) :
    M'.ptr (if a = src then dst else a) = some (if b = src then dst else b) ∧ M'.label (if a = src then dst else a) = M.label a := by
  have hb := h.sym _ _ hab
  have a1 : a ≠ dst := by rintro rfl; rw [hd] at hab; cases hab
  rw [m.label, moveLabel_apply, m.ptr]
  by_cases a2 : a = src
  · subst a2
    have b1 : b ≠ a := by rintro rfl; exact h.irrefl _ hab
    simp [b1, hab]
  · by_cases b2 : b = src
    · subst b2
      simp [a1, a2, hab]
    · simp [a1, a2, b2, hab]

theorem Moved.ok (m : Moved M M' dst src) (h : M.Ok) (hne : dst ≠ src) (hd : M.ptr dst = none) : M'.Ok := by
  refine ⟨?_, ?_, ?_, ?_⟩
  · intro a b hab
    obtain ⟨a0, b0, h0, _, _, rfl, rfl⟩ := m.back h hne hd hab
    exact (m.forth h hd (h.sym _ _ h0)).1
  · intro a hab
    obtain ⟨a0, b0, h0, _, _, e1, e2⟩ := m.back h hne hd hab
    have := e1.symm.trans e2
    have n0 : a0 ≠ b0 := by rintro rfl; exact h.irrefl _ h0
    have d1 : a0 ≠ dst := by rintro rfl; rw [hd] at h0; cases h0
    have d2 : b0 ≠ dst := by rintro rfl; have := h.sym _ _ h0; rw [hd] at this; cases this
    split at this <;> split at this
    · rename_i u v; exact n0 (u.trans v.symm)
    · exact d2 this.symm
    · exact d1 this
    · exact n0 this
  · intro a ha
    obtain ⟨b, hb⟩ := Option.ne_none_iff_exists'.1 ha
    obtain ⟨a0, b0, h0, l0, _⟩ := m.back h hne hd hb
    rw [l0]
    exact h.live a0 (by simp [h0])
  · intro a b e ha hb
    rw [m.label, moveLabel_apply] at ha hb
    split at ha <;> split at hb
    · rename_i u v; exact u.trans v.symm
    · split at hb
      · cases hb
      · rename_i v; exact absurd (h.inj _ _ _ hb ha) v
    · split at ha
      · cases ha
      · rename_i v; exact absurd (h.inj _ _ _ ha hb) v
    · split at ha
      · cases ha
      · split at hb
        · cases hb
        · exact h.inj _ _ _ ha hb

theorem Moved.partners (m : Moved M M' dst src) (h : M.Ok) (hne : dst ≠ src) (hd : M.ptr dst = none) (e f : Nat) :
    M'.Partners e f ↔ M.Partners e f := by
  constructor
  · rintro ⟨a, b, ha, hb, hab⟩
    obtain ⟨a0, b0, h0, l1, l2, _⟩ := m.back h hne hd hab
    exact ⟨a0, b0, l1 ▸ ha, l2 ▸ hb, h0⟩
  · rintro ⟨a, b, ha, hb, hab⟩
    have h1 := m.forth h hd hab
    have h2 := m.forth h hd (h.sym _ _ hab)
    exact ⟨_, _, h1.2.trans ha, h2.2.trans hb, h1.1⟩

theorem Moved.none (m : Moved M M' dst src) (hne : dst ≠ src) : M'.ptr src = none ∧ M'.label src = none := by
  rw [m.ptr, m.label, moveLabel_apply]
  simp [Ne.symm hne]

/-- A place without a partner still has none. -/
theorem Moved.keep (m : Moved M M' dst src) {a : Nat} (ha : a ≠ dst) (h : M.ptr a = .none) : M'.ptr a = .none := by
  rw [m.ptr, if_neg ha, h]
  simp

theorem Moved.at (m : Moved M M' dst src) (a : Nat) : M'.label a = if a = dst then M.label src else if a = src then .none else M.label a := by
  rw [m.label, moveLabel_apply]

end

/-- The memory is sound, and the same half-edges are partners.  Specification of convex_polygon.h 598 and 729. -/
structure Same (M M' : Mem) : Prop where
  ok : M'.Ok
  partners : ∀ e f, M'.Partners e f ↔ M.Partners e f

theorem Same.trans {M1 M2 M3 : Mem} (h : Same M1 M2) (h' : Same M2 M3) : Same M1 M3 :=
  ⟨h'.ok, fun e f => (h'.partners e f).trans (h.partners e f)⟩

theorem Moved.same {M M' : Mem} {dst src : Nat} (m : Moved M M' dst src) (h : M.Ok) (hne : dst ≠ src) (hd : M.ptr dst = .none) : Same M M' :=
  ⟨m.ok h hne hd, m.partners h hne hd⟩

theorem shiftUp_spec (base : Nat) : ∀ (n : Nat) (M : Mem), M.Ok → M.ptr (base + n) = none → Same M (M.shiftUp base n) ∧
    (∀ a, (M.shiftUp base n).label a = if n = 0 then M.label a else if a = base then none else if base < a ∧ a ≤ base + n then M.label (a - 1) else M.label a) ∧
    (M.shiftUp base n).ptr base = none ∧ ∀ a, a < base ∨ base + n < a → M.ptr a = none → (M.shiftUp base n).ptr a = none := by
  intro n
  induction n with
  | zero => intro M h h0; exact ⟨⟨h, fun _ _ => Iff.rfl⟩, fun a => rfl, h0, fun a _ h => h⟩
  | succ n ih =>
    intro M h h0
    have hne : base + n + 1 ≠ base + n := by omega
    have m := assign_moved h hne h0
    obtain ⟨i1, i2, i3, i4⟩ := ih _ (m.ok h hne h0) (m.none hne).1
    refine ⟨(m.same h hne h0).trans i1, ?_, i3, ?_⟩
    · intro a
      change (Mem.shiftUp base n (M.assign (base + n + 1) (base + n))).label a = _
      rw [i2]
      by_cases n0 : n = 0
      · subst n0
        rw [if_pos rfl, if_neg (Nat.succ_ne_zero 0), m.at]
        by_cases a1 : a = base
        · rw [if_neg (by omega), if_pos (by omega), if_pos a1]
        · by_cases a2 : a = base + 1
          · subst a2; rw [if_pos (by omega), if_neg a1, if_pos (by omega)]; rfl
          · rw [if_neg (by omega), if_neg (by omega), if_neg a1, if_neg (by omega)]
      · rw [if_neg n0, if_neg (Nat.succ_ne_zero n)]
        by_cases a1 : a = base
        · rw [if_pos a1, if_pos a1]
        · rw [if_neg a1, if_neg a1]
          by_cases a2 : base < a ∧ a ≤ base + n
          · rw [if_pos a2, if_pos (by omega), m.at, if_neg (by omega), if_neg (by omega)]
          · rw [if_neg a2, m.at]
            by_cases a3 : a = base + n + 1
            · rw [if_pos a3, if_pos (by omega)]
              congr 1; omega
            · rw [if_neg a3, if_neg (by omega), if_neg (by omega)]
    · intro a ha hp
      exact i4 a (by omega) (m.keep (by omega) hp)

theorem shiftDown_spec : ∀ (n base : Nat) (M : Mem), M.Ok → M.ptr base = none → Same M (M.shiftDown base n) ∧
    (∀ a, (M.shiftDown base n).label a = if n = 0 then M.label a else if a = base + n then none else if base ≤ a ∧ a < base + n then M.label (a + 1) else M.label a) ∧
    (M.shiftDown base n).ptr (base + n) = none ∧ ∀ a, a < base ∨ base + n < a → M.ptr a = none → (M.shiftDown base n).ptr a = none := by
  intro n
  induction n with
  | zero => intro base M h h0; exact ⟨⟨h, fun _ _ => Iff.rfl⟩, fun a => rfl, h0, fun a _ h => h⟩
  | succ n ih =>
    intro base M h h0
    have hne : base ≠ base + 1 := by omega
    have m := assign_moved h hne h0
    obtain ⟨i1, i2, i3, i4⟩ := ih (base + 1) _ (m.ok h hne h0) (m.none hne).1
    refine ⟨(m.same h hne h0).trans i1, ?_, ?_, ?_⟩
    · intro a
      change (Mem.shiftDown (base + 1) n (M.assign base (base + 1))).label a = _
      rw [i2]
      by_cases n0 : n = 0
      · subst n0
        rw [if_pos rfl, if_neg (Nat.succ_ne_zero 0), m.at]
        by_cases a1 : a = base
        · subst a1; rw [if_pos rfl, if_neg (by omega), if_pos (by omega)]
        · by_cases a2 : a = base + 1
          · rw [if_neg a1, if_pos a2, if_pos (by omega)]
          · rw [if_neg a1, if_neg a2, if_neg (by omega), if_neg (by omega)]
      · rw [if_neg n0, if_neg (Nat.succ_ne_zero n)]
        by_cases a1 : a = base + 1 + n
        · rw [if_pos a1, if_pos (by omega)]
        · rw [if_neg a1, if_neg (show ¬ a = base + (n + 1) by omega)]
          by_cases a2 : base + 1 ≤ a ∧ a < base + 1 + n
          · rw [if_pos a2, if_pos (by omega), m.at, if_neg (by omega), if_neg (by omega)]
          · rw [if_neg a2, m.at]
            by_cases a3 : a = base
            · subst a3; rw [if_pos rfl, if_pos (by omega)]
            · rw [if_neg a3, if_neg (by omega), if_neg (by omega)]
    · have := i3
      rw [show base + 1 + n = base + (n + 1) by omega] at this
      exact this
    · intro a ha hp
      exact i4 a (by omega) (m.keep (by omega) hp)

theorem moveRange_spec : ∀ (n dst src : Nat) (M : Mem), M.Ok → dst + n ≤ src ∨ src + n ≤ dst → (∀ i < n, M.ptr (dst + i) = none) →
    Same M (M.moveRange dst src n) ∧
    (∀ a, (M.moveRange dst src n).label a = if dst ≤ a ∧ a < dst + n then M.label (src + (a - dst)) else if src ≤ a ∧ a < src + n then none else M.label a) ∧
    (∀ a, ¬ (dst ≤ a ∧ a < dst + n) → M.ptr a = none → (M.moveRange dst src n).ptr a = none) := by
  intro n
  induction n with
  | zero =>
    intro dst src M h _ _
    refine ⟨⟨h, fun _ _ => Iff.rfl⟩, fun a => ?_, fun a _ h => h⟩
    rw [if_neg (by omega), if_neg (by omega)]; rfl
  | succ n ih =>
    intro dst src M h hdis h0
    have hne : dst ≠ src := by omega
    have hd : M.ptr dst = none := h0 0 (by omega)
    have m := construct_moved h hne hd
    obtain ⟨i1, i2, i3⟩ := ih (dst + 1) (src + 1) _ (m.ok h hne hd) (by omega) (by
      intro i hi
      have := h0 (i + 1) (by omega)
      rw [show dst + (i + 1) = dst + 1 + i by omega] at this
      exact m.keep (by omega) this)
    refine ⟨(m.same h hne hd).trans i1, ?_, ?_⟩
    · intro a
      change (Mem.moveRange (dst + 1) (src + 1) n (M.construct dst src)).label a = _
      rw [i2]
      by_cases a1 : dst + 1 ≤ a ∧ a < dst + 1 + n
      · rw [if_pos a1, if_pos (by omega), m.at, if_neg (by omega), if_neg (by omega)]
        congr 1; omega
      · rw [if_neg a1]
        by_cases a0 : a = dst
        · subst a0
          rw [if_neg (by omega), if_pos (by omega), m.at, if_pos rfl]
          congr 1; omega
        · rw [if_neg (show ¬ (dst ≤ a ∧ a < dst + (n + 1)) by omega)]
          by_cases a2 : src + 1 ≤ a ∧ a < src + 1 + n
          · rw [if_pos a2, if_pos (by omega)]
          · rw [if_neg a2, m.at, if_neg a0]
            by_cases a3 : a = src
            · rw [if_pos a3, if_pos (by omega)]
            · rw [if_neg a3, if_neg (by omega)]
    · intro a ha hp
      exact i3 a (by omega) (m.keep (by omega) hp)

end Walnut.Conn
