/- Lemmas about lists that are read as cycles. -/
import Verif.Conn.Model
import Mathlib.Data.List.Perm.Basic
import Mathlib.Data.List.Nodup
import Mathlib.Data.List.Sort

namespace Walnut.Conn

theorem succIn_split {p q : List Nat} {f : Nat} (hf : f ∉ p) : succIn (p ++ f :: q) f = (q ++ p ++ [f]).head? := by
  have hi : (p ++ f :: q).idxOf f = p.length := by simp [List.idxOf_append, hf]
  unfold succIn
  rw [if_pos (by simp), hi]
  cases q with
  | nil =>
    cases p with
    | nil => simp
    | cons a p => simp
  | cons b q =>
    rw [Nat.mod_eq_of_lt (by simp), List.getElem?_append_right (by omega)]
    simp

theorem exists_split {l : List Nat} {e : Nat} (h : e ∈ l) : ∃ p q, l = p ++ e :: q ∧ e ∉ p := by
  induction l with
  | nil => simp at h
  | cons a l ih =>
    by_cases ha : a = e
    · exact ⟨[], l, by simp [ha], by simp⟩
    · obtain ⟨p, q, h1, h2⟩ := ih ((List.mem_cons.1 h).resolve_left (Ne.symm ha))
      exact ⟨a :: p, q, by simp [h1], by simp [h2, Ne.symm ha]⟩

theorem succIn_some {l : List Nat} {e : Nat} (h : e ∈ l) : ∃ f, succIn l e = some f ∧ f ∈ l := by
  obtain ⟨p, q, rfl, hp⟩ := exists_split h
  rw [succIn_split hp]
  cases q with
  | nil =>
    cases p with
    | nil => exact ⟨e, by simp, by simp⟩
    | cons a p => exact ⟨a, by simp, by simp⟩
  | cons b q => exact ⟨b, by simp, by simp⟩

theorem succIn_mem {l : List Nat} {e f : Nat} (h : succIn l e = some f) : e ∈ l ∧ f ∈ l := by
  have he : e ∈ l := by
    by_contra hn
    simp [succIn, hn] at h
  obtain ⟨g, hg, hm⟩ := succIn_some he
  rw [h] at hg
  cases hg
  exact ⟨he, hm⟩

/-- The list with `n` inserted behind `e`. -/
theorem insert_split {p q : List Nat} {e n : Nat} (hp : e ∉ p) :
    (p ++ e :: q).insertIdx ((p ++ e :: q).idxOf e + 1) n = p ++ e :: n :: q := by
  have hi : (p ++ e :: q).idxOf e = p.length := by simp [List.idxOf_append, hp]
  rw [hi]
  induction p with
  | nil => simp
  | cons a p ih =>
    simp only [List.mem_cons, not_or] at hp
    have := ih hp.2 (by simp [List.idxOf_append, hp.2])
    simpa [List.insertIdx_succ_cons] using this

theorem succIn_insert {l : List Nat} {e n : Nat} (he : e ∈ l) (hn : n ∉ l) (hd : l.Nodup) :
    succIn (l.insertIdx (l.idxOf e + 1) n) e = some n ∧
    succIn (l.insertIdx (l.idxOf e + 1) n) n = succIn l e ∧
    (∀ f ∈ l, f ≠ e → succIn (l.insertIdx (l.idxOf e + 1) n) f = succIn l f) ∧
    (l.insertIdx (l.idxOf e + 1) n).Perm (n :: l) ∧ l.Sublist (l.insertIdx (l.idxOf e + 1) n) := by
  obtain ⟨p, q, rfl, hp⟩ := exists_split he
  rw [insert_split hp]
  simp only [List.mem_append, List.mem_cons, not_or] at hn
  refine ⟨?_, ?_, ?_, ?_, ?_⟩
  · rw [succIn_split hp]; simp
  · have h1 : n ∉ p ++ [e] := by simp [hn]
    have := succIn_split (q := q) h1
    rw [show p ++ e :: n :: q = (p ++ [e]) ++ n :: q by simp, this, succIn_split hp]
    cases q with
    | nil =>
      cases p with
      | nil => simp
      | cons a p => simp
    | cons b q => simp
  · intro f hf hfe
    rcases List.mem_append.1 hf with hf | hf
    · obtain ⟨p1, p2, rfl, h1⟩ := exists_split hf
      rw [show p1 ++ f :: p2 ++ e :: n :: q = p1 ++ f :: (p2 ++ e :: n :: q) by simp,
        show p1 ++ f :: p2 ++ e :: q = p1 ++ f :: (p2 ++ e :: q) by simp, succIn_split h1, succIn_split h1]
      cases p2 <;> simp
    · have hf : f ∈ q := (List.mem_cons.1 hf).resolve_left hfe
      obtain ⟨q1, q2, rfl, h1⟩ := exists_split hf
      have hfp : f ∉ p := by
        intro hfp
        exact (List.nodup_append.1 hd).2.2 f hfp f (by simp) rfl
      have hn' : f ≠ n := by
        rintro rfl
        exact hn.2.2 (by simp)
      rw [show p ++ e :: n :: (q1 ++ f :: q2) = (p ++ e :: n :: q1) ++ f :: q2 by simp,
        show p ++ e :: (q1 ++ f :: q2) = (p ++ e :: q1) ++ f :: q2 by simp, succIn_split (by simp [hfp, hfe, hn', h1]),
        succIn_split (by simp [hfp, hfe, h1])]
      cases q2 with
      | nil => cases p <;> simp
      | cons b q2 => simp
  · rw [List.perm_iff_count]
    intro a
    simp only [List.count_append, List.count_cons]
    omega
  · exact List.Sublist.append_left ((List.sublist_cons_self n q).cons_cons e) p

theorem succIn_filter {l : List Nat} {p : Nat → Bool} {h k : Nat} (hs : succIn l h = some k)
    (hh : p h = true) (hk : p k = true) : succIn (l.filter p) h = some k := by
  obtain ⟨a, b, rfl, ha⟩ := exists_split (succIn_mem hs).1
  rw [succIn_split ha] at hs
  rw [List.filter_append, List.filter_cons_of_pos hh, succIn_split (by simp [ha])]
  obtain ⟨t, ht⟩ : ∃ t, b ++ a ++ [h] = k :: t := by
    cases hl : b ++ a ++ [h] with
    | nil => simp at hl
    | cons x t =>
      rw [hl] at hs
      cases hs
      exact ⟨t, rfl⟩
  have : b.filter p ++ a.filter p ++ [h] = (b ++ a ++ [h]).filter p := by simp [hh]
  rw [this, ht, List.filter_cons_of_pos hk]
  rfl

theorem succIn_reverse_of {l : List Nat} {a b : Nat} (hd : l.Nodup) (hs : succIn l a = some b) :
    succIn l.reverse b = some a := by
  obtain ⟨p, q, rfl, hp⟩ := exists_split (succIn_mem hs).1
  rw [succIn_split hp] at hs
  have hd' := List.nodup_append.1 hd
  cases q with
  | cons c q =>
    simp at hs
    subst hs
    have : c ∉ q.reverse := by
      have := hd'.2.1
      simp at this
      simp [this.2.1]
    rw [show (p ++ a :: c :: q).reverse = q.reverse ++ c :: (a :: p.reverse) by simp, succIn_split this]
    simp
  | nil =>
    cases p with
    | nil =>
      simp at hs
      subst hs
      simp [succIn]
    | cons c p =>
      simp at hs
      subst hs
      have : c ∉ a :: p.reverse := by
        have h1 := hd'.1
        simp at h1 hp
        simp [h1.1, Ne.symm hp.1]
      rw [show (c :: p ++ [a]).reverse = (a :: p.reverse) ++ c :: [] by simp, succIn_split this]
      simp

theorem succIn_reverse_iff {l : List Nat} {a b : Nat} (hd : l.Nodup) :
    succIn l a = some b ↔ succIn l.reverse b = some a := by
  refine ⟨succIn_reverse_of hd, fun h => ?_⟩
  have := succIn_reverse_of (List.nodup_reverse.2 hd) h
  rwa [List.reverse_reverse] at this

/-- Neighbours of different polarity are each other's neighbours. -/
theorem neighbour_symm {l : List Nat} (hd : l.Nodup) {b : Bool} {h p : Nat} (hn : neighbour l b h = some p) :
    neighbour l (!b) p = some h := by
  cases b with
  | false => exact (succIn_reverse_iff hd).1 hn
  | true => exact (succIn_reverse_iff hd).2 hn

theorem neighbour_some {l : List Nat} {b : Bool} {h : Nat} (hh : h ∈ l) : ∃ p, neighbour l b h = some p ∧ p ∈ l := by
  cases b with
  | false => exact succIn_some hh
  | true =>
    obtain ⟨p, h1, h2⟩ := succIn_some (List.mem_reverse.2 hh)
    exact ⟨p, h1, List.mem_reverse.1 h2⟩

theorem neighbour_mem {l : List Nat} {b : Bool} {h p : Nat} (hn : neighbour l b h = some p) : h ∈ l ∧ p ∈ l := by
  cases b with
  | false => exact succIn_mem hn
  | true => exact ⟨List.mem_reverse.1 (succIn_mem hn).1, List.mem_reverse.1 (succIn_mem hn).2⟩

theorem neighbour_filter {l : List Nat} {p : Nat → Bool} {b : Bool} {h k : Nat} (hs : neighbour l b h = some k)
    (hh : p h = true) (hk : p k = true) : neighbour (l.filter p) b h = some k := by
  cases b with
  | false => exact succIn_filter hs hh hk
  | true =>
    unfold neighbour at hs ⊢
    simp only [if_true] at hs ⊢
    rw [← List.filter_reverse]
    exact succIn_filter hs hh hk

end Walnut.Conn
