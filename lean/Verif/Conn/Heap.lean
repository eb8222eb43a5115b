/- Functions that meet the requirements of `pop_heap` and `push_heap`. -/
import Verif.Conn.Spec

namespace Walnut.Conn

/-- Insertion into a list that is sorted from the greatest to the least element. -/
def insBy (less : Nat → Nat → Bool) (a : Nat) : List Nat → List Nat
  | [] => [a]
  | b :: l => if less b a then a :: b :: l else b :: insBy less a l

def sortBy (less : Nat → Nat → Bool) : List Nat → List Nat
  | [] => []
  | a :: l => insBy less a (sortBy less l)

/-- Heaps that are sorted lists. -/
def sortHeap : HeapFns where
  pop less l := match l with
    | [] => []
    | x :: l => sortBy less l ++ [x]
  push less l := sortBy less l

theorem insBy_perm (less : Nat → Nat → Bool) (a : Nat) (l : List Nat) : (insBy less a l).Perm (a :: l) := by
  induction l with
  | nil => exact List.Perm.refl _
  | cons b l ih =>
    unfold insBy
    split
    · exact List.Perm.refl _
    · exact (ih.cons b).trans (List.Perm.swap a b l)

theorem sortBy_perm (less : Nat → Nat → Bool) (l : List Nat) : (sortBy less l).Perm l := by
  induction l with
  | nil => exact List.Perm.refl _
  | cons a l ih => exact (insBy_perm less a _).trans (ih.cons a)

theorem ByKey.mono {less : Nat → Nat → Bool} {l l' : List Nat} (h : ByKey less l) (hl : ∀ a ∈ l', a ∈ l) : ByKey less l' := by
  obtain ⟨key, hk⟩ := h
  exact ⟨key, fun a ha b hb => hk a (hl a ha) b (hl b hb)⟩

theorem insBy_sorted {less : Nat → Nat → Bool} {a : Nat} {l : List Nat} (hk : ByKey less (a :: l)) (h : l.Pairwise fun a b => less a b = false) :
    (insBy less a l).Pairwise fun a b => less a b = false := by
  induction l with
  | nil => simp [insBy]
  | cons b l ih =>
    rw [List.pairwise_cons] at h
    unfold insBy
    obtain ⟨key, hk'⟩ := id hk
    have no : ∀ c ∈ a :: b :: l, ∀ d ∈ a :: b :: l, (less c d = false ↔ key d ≤ key c) := by
      intro c hc d hd
      rw [← not_lt, ← hk' c hc d hd]
      simp
    split
    · rename_i hba
      rw [List.pairwise_cons, List.pairwise_cons]
      refine ⟨?_, h⟩
      have h1 := (hk' b (by simp) a (by simp)).1 hba
      intro c hc
      rw [no a (by simp) c (List.mem_cons_of_mem _ hc)]
      rcases List.mem_cons.1 hc with rfl | hc'
      · exact h1.le
      · exact ((no b (by simp) c (by simp [hc'])).1 (h.1 c hc')).trans h1.le
    · rename_i hba
      rw [List.pairwise_cons]
      refine ⟨?_, ih (hk.mono (by intro c hc; simp only [List.mem_cons] at hc ⊢; tauto)) h.2⟩
      intro c hc
      rcases List.mem_cons.1 ((insBy_perm less a l).mem_iff.1 hc) with rfl | hc
      · simpa using hba
      · exact h.1 c hc

theorem sortBy_sorted {less : Nat → Nat → Bool} {l : List Nat} (hk : ByKey less l) : (sortBy less l).Pairwise fun a b => less a b = false := by
  induction l with
  | nil => simp [sortBy]
  | cons a l ih =>
    refine insBy_sorted (hk.mono ?_) (ih (hk.mono fun b hb => List.mem_cons_of_mem _ hb))
    intro b hb
    rcases List.mem_cons.1 hb with rfl | hb
    · exact List.mem_cons_self
    · exact List.mem_cons_of_mem _ ((sortBy_perm less l).mem_iff.1 hb)

theorem isHeap_of_sorted {less : Nat → Nat → Bool} {l : List Nat} (h : l.Pairwise fun a b => less a b = false) : IsHeap less l := by
  intro i a b ha hb
  obtain ⟨h1, rfl⟩ := List.getElem?_eq_some_iff.1 ha
  obtain ⟨h2, rfl⟩ := List.getElem?_eq_some_iff.1 hb
  exact List.pairwise_iff_getElem.1 h _ _ h1 h2 (by omega)

theorem sortHeap_ok : HeapOk sortHeap := by
  refine ⟨?_, ?_⟩
  · intro less x l hk _
    exact ⟨sortBy less l, rfl, sortBy_perm less l, isHeap_of_sorted (sortBy_sorted (hk.mono fun a ha => List.mem_cons_of_mem _ ha))⟩
  · intro less q x hk _
    exact ⟨sortBy_perm less _, isHeap_of_sorted (sortBy_sorted hk)⟩

end Walnut.Conn
