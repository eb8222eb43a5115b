/- Heap functions that keep the range sorted: an instance of the contract that the standard states for `make_heap`,
`pop_heap` and `push_heap`. -/
import Verif.Bsp.EventsSpec
import Mathlib.Data.List.Perm.Basic

namespace Walnut.Bsp

variable {α : Type}

def insDesc (less : α → α → Bool) (x : α) : List α → List α
  | [] => [x]
  | y :: l => if less x y then y :: insDesc less x l else x :: y :: l

def sortDesc (less : α → α → Bool) : List α → List α
  | [] => []
  | x :: l => insDesc less x (sortDesc less l)

/-- The heap functions. -/
def sortHeap : HeapOps where
  make := sortDesc
  pop less l := match l with
    | [] => []
    | x :: l => sortDesc less l ++ [x]
  push := sortDesc

theorem insDesc_perm (less : α → α → Bool) (x : α) (l : List α) : (insDesc less x l).Perm (x :: l) := by
  induction l with
  | nil => exact .refl _
  | cons y l ih =>
    unfold insDesc
    split
    · exact (ih.cons y).trans (.swap x y l)
    · exact .refl _

theorem sortDesc_perm (less : α → α → Bool) (l : List α) : (sortDesc less l).Perm l := by
  induction l with
  | nil => exact .refl _
  | cons y l ih => exact (insDesc_perm less y _).trans (ih.cons y)

theorem insDesc_sorted {less : α → α → Bool} {key : α → ℚ ×ₗ Bool} {x : α} {l : List α}
    (h : ∀ a ∈ x :: l, ∀ b ∈ x :: l, (less a b = true ↔ key a < key b)) (hl : l.Pairwise fun a b => key b ≤ key a) :
    (insDesc less x l).Pairwise fun a b => key b ≤ key a := by
  induction l with
  | nil => simp [insDesc]
  | cons y l ih =>
    unfold insDesc
    have hxy := h x (by simp) y (by simp)
    have hl' := List.pairwise_cons.1 hl
    split
    · rename_i hlt
      refine List.pairwise_cons.2 ⟨?_, ih (fun a ha b hb => h a (by simp at ha ⊢; tauto) b (by simp at hb ⊢; tauto)) hl'.2⟩
      intro z hz
      rcases List.mem_cons.1 ((insDesc_perm less x l).mem_iff.1 hz) with rfl | hz
      · exact (hxy.1 hlt).le
      · exact hl'.1 z hz
    · rename_i hlt
      have hle : key y ≤ key x := not_lt.1 fun hh => hlt (hxy.2 hh)
      refine List.pairwise_cons.2 ⟨?_, hl⟩
      intro z hz
      rcases List.mem_cons.1 hz with rfl | hz
      · exact hle
      · exact (hl'.1 z hz).trans hle

theorem sortDesc_heap {less : α → α → Bool} {l : List α} (h : ByKey less l) : IsHeap less (sortDesc less l) := by
  obtain ⟨key, h⟩ := h
  have hs : (sortDesc less l).Pairwise fun a b => key b ≤ key a := by
    induction l with
    | nil => simp [sortDesc]
    | cons x l ih =>
      refine insDesc_sorted (fun a ha b hb => h a ?_ b ?_) (ih fun a ha b hb => h a (by simp [ha]) b (by simp [hb]))
      · rcases List.mem_cons.1 ha with rfl | ha
        · simp
        · simp [(sortDesc_perm less l).mem_iff.1 ha]
      · rcases List.mem_cons.1 hb with rfl | hb
        · simp
        · simp [(sortDesc_perm less l).mem_iff.1 hb]
  intro i a b ha hb
  have hkey := h a ((sortDesc_perm less l).mem_iff.1 (List.mem_of_getElem? ha)) b ((sortDesc_perm less l).mem_iff.1 (List.mem_of_getElem? hb))
  obtain ⟨l1, rfl⟩ := List.getElem?_eq_some_iff.1 ha
  obtain ⟨l2, rfl⟩ := List.getElem?_eq_some_iff.1 hb
  have := (List.pairwise_iff_getElem.1 hs) (i / 2) (i + 1) l1 l2 (by omega)
  rw [← Bool.not_eq_true, hkey]
  exact not_lt.2 this

theorem sortHeap_ok : HeapOk sortHeap where
  make less l h := ⟨sortDesc_perm less l, sortDesc_heap h⟩
  pop less x l h _ := by
    obtain ⟨key, h⟩ := h
    exact ⟨sortDesc less l, rfl, sortDesc_perm less l, sortDesc_heap ⟨key, fun a ha b hb => h a (by simp [ha]) b (by simp [hb])⟩⟩
  push less q x h _ := ⟨sortDesc_perm less _, sortDesc_heap h⟩

end Walnut.Bsp
