/-
Sums of an antisymmetric quantity over polylines.
-/
import Verif.Mono.Triangulate
import Verif.Mono.Spec

namespace Walnut.Mono
open Walnut.Geom

variable {α : Type}

/-- `pathSum` for any type of vertices. -/
def pSum (g : α → α → ℚ) : List α → ℚ
  | a :: b :: r => g a b + pSum g (b :: r)
  | _ => 0

/-- `loopSum` for any type of vertices. -/
def cSum (g : α → α → ℚ) : List α → ℚ
  | [] => 0
  | a :: r => pSum g (a :: r ++ [a])

theorem pathSum_map (f : Q3 → Q3 → ℚ) (h : α → Q3) (l : List α) :
    pathSum f (l.map h) = pSum (fun a b => f (h a) (h b)) l := by
  induction l with
  | nil => rfl
  | cons a r ih =>
    cases r with
    | nil => rfl
    | cons b r => simp only [List.map_cons, pathSum, pSum] at *; rw [ih]

theorem loopSum_map (f : Q3 → Q3 → ℚ) (h : α → Q3) (l : List α) :
    loopSum f (l.map h) = cSum (fun a b => f (h a) (h b)) l := by
  cases l with
  | nil => rfl
  | cons a r =>
    simp only [List.map_cons, loopSum, cSum]
    rw [← pathSum_map]; simp

theorem pSum_append (g : α → α → ℚ) (A B : List α) (x : α) :
    pSum g (A ++ x :: B) = pSum g (A ++ [x]) + pSum g (x :: B) := by
  induction A with
  | nil => simp [pSum]
  | cons a r ih =>
    cases r with
    | nil => simp [pSum]
    | cons b r => simp only [List.cons_append, pSum] at *; rw [ih]; ring

/-- Replacing a part of a polyline with the same ends. -/
theorem pSum_replace (g : α → α → ℚ) {M M' : List α} {c : ℚ} {x y : α}
    (h : pSum g M = c + pSum g M') (hx : M.head? = some x) (hx' : M'.head? = some x)
    (hy : M.getLast? = some y) (hy' : M'.getLast? = some y) (A B : List α) :
    pSum g (A ++ M ++ B) = c + pSum g (A ++ M' ++ B) := by
  obtain ⟨m, rfl⟩ : ∃ m, M = x :: m := by
    cases M with
    | nil => simp at hx
    | cons a m => simp at hx; subst hx; exact ⟨m, rfl⟩
  obtain ⟨m', rfl⟩ : ∃ m, M' = x :: m := by
    cases M' with
    | nil => simp at hx'
    | cons a m => simp at hx'; subst hx'; exact ⟨m, rfl⟩
  have key : ∀ N : List α, N.getLast? = some y → pSum g (N ++ B) = pSum g N + pSum g (y :: B) := by
    intro N hN
    obtain ⟨N', rfl⟩ := List.getLast?_eq_some_iff.1 hN
    rw [List.append_assoc]
    exact pSum_append g N' B y
  rw [List.append_assoc, List.append_assoc, List.cons_append, List.cons_append, pSum_append,
    pSum_append g A (m' ++ B), ← List.cons_append, ← List.cons_append, key _ hy, key _ hy', h]
  ring

theorem cSum_replace (g : α → α → ℚ) {M M' : List α} {c : ℚ} {x y : α}
    (h : pSum g M = c + pSum g M') (hx : M.head? = some x) (hx' : M'.head? = some x)
    (hy : M.getLast? = some y) (hy' : M'.getLast? = some y) (A B : List α) :
    cSum g (A ++ M ++ B) = c + cSum g (A ++ M' ++ B) := by
  cases A with
  | nil =>
    obtain ⟨m, rfl⟩ : ∃ m, M = x :: m := by
      cases M with
      | nil => simp at hx
      | cons a m => simp at hx; subst hx; exact ⟨m, rfl⟩
    obtain ⟨m', rfl⟩ : ∃ m, M' = x :: m := by
      cases M' with
      | nil => simp at hx'
      | cons a m => simp at hx'; subst hx'; exact ⟨m, rfl⟩
    have := pSum_replace g h hx hx' hy hy' [] (B ++ [x])
    simpa [cSum] using this
  | cons a A =>
    have := pSum_replace g h hx hx' hy hy' (a :: A) (B ++ [a])
    simpa [cSum] using this

theorem cSum_rotate (g : α → α → ℚ) (l : List α) (v : α) : cSum g (l ++ [v]) = cSum g (v :: l) := by
  cases l with
  | nil => rfl
  | cons a r =>
    simp only [List.cons_append, cSum]
    have h1 : a :: (r ++ [v] ++ [a]) = (a :: r) ++ v :: [a] := by simp
    have h2 : v :: a :: (r ++ [v]) = [v] ++ a :: (r ++ [v]) := by simp
    rw [h1, h2, pSum_append, pSum_append g [v]]
    simp [pSum]; ring

/-- The sum over the boundary of a triangle. -/
def Tri.sum (g : HP3 → HP3 → ℚ) (t : Tri) : ℚ := g t.p1 t.p2 + g t.p2 t.p3 + g t.p3 t.p1

/-- The sum over the boundaries of a list of triangles. -/
def triSum (g : HP3 → HP3 → ℚ) (l : List Tri) : ℚ := (l.map (Tri.sum g)).sum

@[simp] theorem triSum_nil (g : HP3 → HP3 → ℚ) : triSum g [] = 0 := rfl
@[simp] theorem triSum_cons (g : HP3 → HP3 → ℚ) (t : Tri) (l : List Tri) :
    triSum g (t :: l) = t.sum g + triSum g l := rfl
@[simp] theorem triSum_append (g : HP3 → HP3 → ℚ) (l m : List Tri) :
    triSum g (l ++ m) = triSum g l + triSum g m := by simp [triSum]

end Walnut.Mono
