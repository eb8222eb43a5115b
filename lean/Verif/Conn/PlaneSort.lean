/- Sorting the deeds of a plane. -/
import Verif.Conn.PlaneClosed

namespace Walnut.Conn
open Walnut.Geom Walnut.Props

/-! ## A function that meets the requirements of `sort` -/

def insDeed {α : Type} (less : α → α → Bool) (a : α) : List α → List α
  | [] => [a]
  | b :: l => if less b a then b :: insDeed less a l else a :: b :: l

def sortDeeds {α : Type} (less : α → α → Bool) : List α → List α
  | [] => []
  | a :: l => insDeed less a (sortDeeds less l)

/-- Insertion sort. -/
def insertionSort : SortFn where
  sort := sortDeeds

theorem insDeed_perm {α : Type} (less : α → α → Bool) (a : α) (l : List α) : (insDeed less a l).Perm (a :: l) := by
  induction l with
  | nil => exact List.Perm.refl _
  | cons b l ih =>
    unfold insDeed
    split
    · exact (ih.cons b).trans (List.Perm.swap a b l)
    · exact List.Perm.refl _

theorem StrictWeak.mono {α : Type} {less : α → α → Bool} {l l' : List α} (h : StrictWeak less l) (hl : ∀ a ∈ l', a ∈ l) : StrictWeak less l' :=
  ⟨fun a ha => h.irrefl a (hl a ha), fun a ha b hb c hc => h.trans a (hl a ha) b (hl b hb) c (hl c hc),
    fun a ha b hb c hc => h.incomp a (hl a ha) b (hl b hb) c (hl c hc)⟩

theorem StrictWeak.neg_trans {α : Type} {less : α → α → Bool} {l : List α} (h : StrictWeak less l) {a b c : α} (ha : a ∈ l) (hb : b ∈ l)
    (hc : c ∈ l) (h1 : less a b = false) (h2 : less b c = false) : less a c = false := by
  cases hac : less a c with
  | false => rfl
  | true =>
    cases hba : less b a with
    | true =>
      have := h.trans b hb a ha c hc hba hac
      rw [h2] at this; cases this
    | false =>
      cases hcb : less c b with
      | true =>
        have := h.trans a ha c hc b hb hac hcb
        rw [h1] at this; cases this
      | false =>
        have := (h.incomp a ha b hb c hc h1 hba h2 hcb).1
        rw [hac] at this; cases this

theorem insDeed_sorted {α : Type} {less : α → α → Bool} {a : α} {l : List α} (hk : StrictWeak less (a :: l))
    (h : l.Pairwise fun a b => less b a = false) : (insDeed less a l).Pairwise fun a b => less b a = false := by
  induction l with
  | nil => simp [insDeed]
  | cons b l ih =>
    rw [List.pairwise_cons] at h
    unfold insDeed
    split
    · rename_i hba
      rw [List.pairwise_cons]
      refine ⟨?_, ih (hk.mono (by intro x hx; simp only [List.mem_cons] at hx ⊢; tauto)) h.2⟩
      intro c hc
      rcases List.mem_cons.1 ((insDeed_perm less a l).mem_iff.1 hc) with rfl | hc'
      · cases hcb : less c b with
        | false => rfl
        | true =>
          have := hk.trans b (by simp) c (by simp) b (by simp) hba hcb
          rw [hk.irrefl b (by simp)] at this; cases this
      · exact h.1 c hc'
    · rename_i hba
      rw [Bool.not_eq_true] at hba
      rw [List.pairwise_cons, List.pairwise_cons]
      refine ⟨?_, h⟩
      intro c hc
      rcases List.mem_cons.1 hc with rfl | hc'
      · exact hba
      · exact hk.neg_trans (by simp [hc']) (by simp) (by simp) (h.1 c hc') hba

theorem sortDeeds_perm {α : Type} (less : α → α → Bool) (l : List α) : (sortDeeds less l).Perm l := by
  induction l with
  | nil => exact List.Perm.refl _
  | cons a l ih => exact (insDeed_perm less a _).trans (ih.cons a)

theorem sortDeeds_ok {α : Type} {less : α → α → Bool} {l : List α} (h : StrictWeak less l) :
    (sortDeeds less l).Perm l ∧ (sortDeeds less l).Pairwise fun a b => less b a = false := by
  refine ⟨sortDeeds_perm less l, ?_⟩
  induction l with
  | nil => exact List.Pairwise.nil
  | cons a l ih =>
    refine insDeed_sorted (h.mono ?_) (ih (h.mono fun x hx => List.mem_cons_of_mem _ hx))
    intro x hx
    rcases List.mem_cons.1 hx with rfl | hx
    · simp
    · exact List.mem_cons_of_mem _ ((sortDeeds_perm less l).mem_iff.1 hx)

theorem insertionSort_ok : SortOk insertionSort := fun _ _ h => sortDeeds_ok h

/-! ## From sorted deeds to sorted edges -/

theorem mapM_somes {l : List (Option Nat)} (h : ∀ a ∈ l, a ≠ none) : l.mapM id = some (l.filterMap id) := by
  induction l with
  | nil => rfl
  | cons a l ih =>
    cases a with
    | none => exact absurd rfl (h none (by simp))
    | some a =>
      rw [List.mapM_cons, ih fun b hb => h b (List.mem_cons_of_mem _ hb)]
      rfl

theorem sorted_deeds {less : Option Nat → Option Nat → Bool} {s : List (Option Nat)} (h : s.Pairwise fun a b => less b a = false)
    (hl : ∀ e, less none (some e) = true) : (s.dropWhile Option.isNone).mapM id = some (s.filterMap id) := by
  induction s with
  | nil => rfl
  | cons a s ih =>
    rw [List.pairwise_cons] at h
    cases a with
    | none =>
      rw [List.dropWhile_cons]
      simp only [Option.isNone_none, if_true]
      rw [ih h.2]
      rfl
    | some a =>
      rw [List.dropWhile_cons]
      simp only [Option.isNone_some, Bool.false_eq_true, if_false]
      apply mapM_somes
      intro b hb
      rcases List.mem_cons.1 hb with rfl | hb
      · simp
      · intro hc
        have := h.1 b hb
        rw [hc, hl] at this
        cases this

section
variable {n : V3} {c : ℚ} {drop : Fin 3} {N : Net}

theorem connectUnsorted_eq {S : SortFn} {o : HeapFns} (hS : SortOk S) {range : List (Option Nat)} (hi : PlaneInput drop N range)
    (hn : n.comp drop ≠ 0) (hp : ∀ e, some e ∈ range → EdgeIn N n c e) :
    ∃ l, LinesInput n c drop N l ∧ (∀ e, e ∈ l ↔ some e ∈ range) ∧ connectUnsorted S o drop N range = connectLines o drop l.length N l := by
  obtain ⟨h1, h2⟩ := deedLess_strictWeak hi.ok hn hp
  obtain ⟨s1, s2⟩ := hS _ range h2
  have run : connectUnsorted S o drop N range =
      connectLines o drop ((S.sort (fun a b => (deedLess N drop a b).getD false) range).filterMap id).length N
        ((S.sort (fun a b => (deedLess N drop a b).getD false) range).filterMap id) := by
    unfold connectUnsorted sortEdges
    rw [if_pos h1]
    simp only
    unfold connectSorted
    rw [sorted_deeds s2 (fun e => by rfl)]
  have mem : ∀ e, e ∈ (S.sort (fun a b => (deedLess N drop a b).getD false) range).filterMap id ↔ some e ∈ range := by
    intro e
    rw [List.mem_filterMap]
    constructor
    · rintro ⟨a, ha, rfl⟩
      exact s1.mem_iff.1 ha
    · intro h
      exact ⟨some e, s1.mem_iff.2 h, rfl⟩
  refine ⟨_, ⟨hi.ok, ?_, ?_, ?_, ?_⟩, mem, run⟩
  · exact (s1.filterMap id).nodup_iff.2 hi.nodup
  · intro e he; exact hi.free e ((mem e).1 he)
  · intro e he; exact hp e ((mem e).1 he)
  · have sub : ∀ a ∈ S.sort (fun a b => (deedLess N drop a b).getD false) range, a ∈ range := fun a ha => s1.mem_iff.1 ha
    generalize S.sort (fun a b => (deedLess N drop a b).getD false) range = s at s2 sub
    rw [List.pairwise_filterMap]
    refine s2.imp_of_mem ?_
    rintro a b ha hb hab e rfl f rfl
    obtain ⟨x, x1, x2⟩ := edgeLess_iff hi.ok (hp f (sub _ hb)) (hp e (sub _ ha)) hn
    change (deedLess N drop (some f) (some e)).getD false = false at hab
    simp only [deedLess, x1, Option.getD_some] at hab
    rw [← x2, hab]
    simp

end

end Walnut.Conn
