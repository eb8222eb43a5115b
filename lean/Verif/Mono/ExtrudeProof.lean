/-
Lemmas about `Extrude`: sums over the sides.
-/
import Verif.Mono.Extrude
import Verif.Mono.DetectProof

namespace Walnut.Mono
open Walnut.Geom

variable {α : Type}

theorem pSum_zip (g : α → α → ℚ) : ∀ (a : α) (r : List α) (z : α),
    pSum g (a :: r ++ [z]) = (List.zipWith g (a :: r) (r ++ [z])).sum := by
  intro a r
  induction r generalizing a with
  | nil => intro z; simp [pSum]
  | cons b r ih => intro z; simp only [List.cons_append, pSum, List.zipWith_cons_cons, List.sum_cons]; rw [← ih b z]; rfl

theorem pSum_neg (g : α → α → ℚ) (l : List α) : pSum (fun x y => -g x y) l = -pSum g l := by
  induction l with
  | nil => simp [pSum]
  | cons a r ih =>
    cases r with
    | nil => simp [pSum]
    | cons b r => simp only [pSum] at ih ⊢; rw [ih]; ring

theorem cSum_neg (g : α → α → ℚ) (l : List α) : cSum (fun x y => -g x y) l = -cSum g l := by
  cases l with
  | nil => simp [cSum]
  | cons a r => exact pSum_neg g _

theorem pSum_map {β : Type} (g : β → β → ℚ) (h : α → β) (l : List α) :
    pSum g (l.map h) = pSum (fun x y => g (h x) (h y)) l := by
  induction l with
  | nil => rfl
  | cons a r ih =>
    cases r with
    | nil => rfl
    | cons b r => simp only [List.map_cons, pSum] at ih ⊢; rw [ih]

theorem cSum_map {β : Type} (g : β → β → ℚ) (h : α → β) (l : List α) :
    cSum g (l.map h) = cSum (fun x y => g (h x) (h y)) l := by
  cases l with
  | nil => rfl
  | cons a r =>
    show pSum g (h a :: r.map h ++ [h a]) = _
    have := pSum_map g h (a :: r ++ [a])
    simpa [cSum] using this

theorem cSum_range (g : α → α → ℚ) (l : List α) (G : Nat → ℚ)
    (hG : ∀ i a b, l[i]? = some a → l[(i + 1) % l.length]? = some b → G i = g a b) :
    ((List.range l.length).map G).sum = cSum g l := by
  cases l with
  | nil => rfl
  | cons a r =>
    show _ = pSum g (a :: r ++ [a])
    rw [pSum_zip]
    congr 1
    apply List.ext_getElem
    · simp
    · intro i h1 h2
      simp at h1
      rw [List.getElem_map, List.getElem_range, List.getElem_zipWith]
      apply hG
      · rw [List.getElem?_eq_getElem (by simp; omega)]
      · by_cases hl : i = r.length
        · subst hl
          simp
        · rw [show (i + 1) % (a :: r).length = i + 1 from Nat.mod_eq_of_lt (by simp; omega)]
          rw [List.getElem?_cons_succ, List.getElem_append_left (by omega), List.getElem?_eq_getElem]

theorem mapM_range {β : Type} (F : Nat → Option β) (G : Nat → β) (l : List Nat) (h : ∀ i ∈ l, F i = some (G i)) :
    l.mapM F = some (l.map G) := by
  induction l with
  | nil => rfl
  | cons a r ih =>
    rw [List.mapM_cons, h a (by simp), ih (fun i hi => h i (by simp [hi]))]; rfl

theorem buildEach_append {A B : List (List HP3)} {out : List OutPoly} (h : BuildEach (A ++ B) out) :
    ∃ o1 o2, out = o1 ++ o2 ∧ BuildEach A o1 ∧ BuildEach B o2 := by
  induction A generalizing out with
  | nil => exact ⟨[], out, rfl, .nil, h⟩
  | cons v A ih =>
    cases h with
    | cons h hr =>
      obtain ⟨o1, o2, rfl, h1, h2⟩ := ih hr
      exact ⟨_, o2, by rw [List.append_assoc], .cons h h1, h2⟩

theorem buildEach_one {v : List HP3} {out : List OutPoly} (h : BuildEach [v] out) : FactoryBuild v out := by
  cases h with
  | cons h hr => cases hr; simpa using h

end Walnut.Mono
