/- Proofs about `MakeEventPoints`. -/
import Verif.Bsp.EventsSpec
import Verif.Props.Rational

namespace Walnut.Bsp
open Walnut.Geom Walnut.Props

/-! The events in the order in which they leave the heap are called `D`; the array has `N` entries, so the `k`-th of them is at
position `N - 1 - k`. -/

/-- The entry at a position of the finished part. -/
def partnerOf (N : Nat) (D : List EP) (i : Nat) : Option EP := if i < N then D[N - 1 - i]? else none

/-- The polygon of an event. -/
def polyOf (N : Nat) (polys : List EPoly) (D : List EP) (e : EP) : Option EPoly :=
  if e.start then (partnerOf N D e.index).bind fun p => if p.start then none else polys[p.index]?
  else polys[e.index]?

/-- The vertex of an event. -/
def EPoly.at (p : EPoly) (start : Bool) : HP3 := if start then p.lo else p.hi

theorem partnerOf_append {N : Nat} {D : List EP} {i : Nat} {p : EP} (m : EP) (h : partnerOf N D i = some p) :
    partnerOf N (D ++ [m]) i = some p := by
  unfold partnerOf at *
  split at h
  · rename_i hi
    rw [if_pos hi, List.getElem?_append_left (List.getElem?_eq_some_iff.1 h).1, h]
  · simp at h

theorem polyOf_append {N : Nat} {polys : List EPoly} {D : List EP} {e : EP} {p : EPoly} (m : EP) (h : polyOf N polys D e = some p) :
    polyOf N polys (D ++ [m]) e = some p := by
  unfold polyOf at *
  split at h
  · rename_i hs
    rw [if_pos hs]
    obtain ⟨x, hx, h⟩ := Option.bind_eq_some_iff.1 h
    rw [partnerOf_append m hx]
    exact h
  · rename_i hs
    rw [if_neg hs, h]

theorem mem_get {N : Nat} {X D : List EP} {i : Nat} {p : EP} (hN : X.length + D.length = N) (h : partnerOf N D i = some p) :
    (X ++ D.reverse)[i]? = some p := by
  unfold partnerOf at h
  split at h
  · rename_i hi
    have hk := (List.getElem?_eq_some_iff.1 h).1
    rw [List.getElem?_append_right (by omega), List.getElem?_reverse (by omega), ← h]
    congr 1; omega
  · simp at h

theorem location_eq {N : Nat} {polys : List EPoly} {X D : List EP} {e : EP} {p : EPoly} (hN : X.length + D.length = N)
    (h : polyOf N polys D e = some p) : e.location polys (X ++ D.reverse) = some (p.at e.start) := by
  unfold polyOf at h
  unfold EP.location
  split at h
  · rename_i hs
    obtain ⟨x, hx, h⟩ := Option.bind_eq_some_iff.1 h
    rw [if_pos hs, mem_get hN hx]
    split at h
    · simp at h
    · rename_i hx
      simp [hx, h, EPoly.at, hs]
  · rename_i hs
    simp [hs, h, EPoly.at]

section
variable (N : Nat) (dim : Fin 3) (polys : List EPoly)

/-- The location of an event. -/
def posOf (D : List EP) (e : EP) : ℚ :=
  match polyOf N polys D e with
  | some p => (p.at e.start).pt dim
  | none => 0

/-- The key the heap is ordered by. -/
def keyOf (D : List EP) (e : EP) : ℚ ×ₗ Bool := toLex (posOf N dim polys D e, e.start)

/-- The polygon of the event is flat. -/
def FlatEv (D : List EP) (e : EP) : Prop := ∃ p, polyOf N polys D e = some p ∧ p.lo.pt dim = p.hi.pt dim

/-- The event `x` may leave the heap after `e`. -/
def After (D : List EP) (x e : EP) : Prop :=
  posOf N dim polys D x ≤ posOf N dim polys D e ∧
    (x.start = true → e.start = false → ¬ FlatEv N dim polys D x → posOf N dim polys D x < posOf N dim polys D e)

/-- The events with a polygon. -/
def Known (D : List EP) (e : EP) : Prop := ∃ p, polyOf N polys D e = some p

end

variable {N : Nat} {dim : Fin 3} {polys : List EPoly}

theorem Known.append {D : List EP} {e : EP} (m : EP) (h : Known N polys D e) : Known N polys (D ++ [m]) e :=
  h.imp fun _ hp => polyOf_append m hp

theorem posOf_append {D : List EP} {e : EP} (m : EP) (h : Known N polys D e) : posOf N dim polys (D ++ [m]) e = posOf N dim polys D e := by
  obtain ⟨p, hp⟩ := h
  unfold posOf
  rw [hp, polyOf_append m hp]

theorem keyOf_append {D : List EP} {e : EP} (m : EP) (h : Known N polys D e) : keyOf N dim polys (D ++ [m]) e = keyOf N dim polys D e := by
  unfold keyOf; rw [posOf_append m h]

theorem flat_append {D : List EP} {e : EP} (m : EP) (h : Known N polys D e) : FlatEv N dim polys (D ++ [m]) e ↔ FlatEv N dim polys D e := by
  obtain ⟨p, hp⟩ := h
  unfold FlatEv
  rw [hp, polyOf_append m hp]

theorem After.append {D : List EP} {x e : EP} (m : EP) (hx : Known N polys D x) (he : Known N polys D e) (h : After N dim polys D x e) :
    After N dim polys (D ++ [m]) x e := by
  unfold After at *
  rw [posOf_append m hx, posOf_append m he, flat_append m hx]
  exact h

theorem key_lt {D : List EP} {a b : EP} : keyOf N dim polys D a < keyOf N dim polys D b ↔
    posOf N dim polys D a < posOf N dim polys D b ∨ posOf N dim polys D a = posOf N dim polys D b ∧ a.start = false ∧ b.start = true := by
  unfold keyOf
  rw [Prod.Lex.toLex_lt_toLex]
  simp only
  rw [Bool.lt_iff]

theorem posOf_eq {D : List EP} {e : EP} {p : EPoly} (h : polyOf N polys D e = some p) : posOf N dim polys D e = (p.at e.start).pt dim := by
  unfold posOf; rw [h]

theorem polyOf_mem {D : List EP} {e : EP} {p : EPoly} (h : polyOf N polys D e = some p) : p ∈ polys := by
  unfold polyOf at h
  split at h
  · obtain ⟨x, -, h⟩ := Option.bind_eq_some_iff.1 h
    split at h
    · simp at h
    · exact List.mem_of_getElem? h
  · exact List.mem_of_getElem? h

theorem at_w (hx : Extents dim polys) {p : EPoly} (hp : p ∈ polys) (b : Bool) : (p.at b).w ≠ 0 := by
  unfold EPoly.at
  split
  · exact (hx p hp).1
  · exact (hx p hp).2.1

/-- The comparison of events compares the keys. -/
theorem eventLess_key (hx : Extents dim polys) {X D : List EP} (hN : X.length + D.length = N) {a b : EP} (ha : Known N polys D a)
    (hb : Known N polys D b) : eventLess dim polys (X ++ D.reverse) a b = true ↔ keyOf N dim polys D a < keyOf N dim polys D b := by
  obtain ⟨p, hp⟩ := ha
  obtain ⟨q, hq⟩ := hb
  rw [key_lt, posOf_eq hp, posOf_eq hq]
  unfold eventLess
  rw [location_eq hN hp, location_eq hN hq]
  obtain ⟨c1, c2, c3, -⟩ := C16_compare_component (p.at a.start) (q.at b.start) dim (at_w hx (polyOf_mem hp) _) (at_w hx (polyOf_mem hq) _)
  simp only
  split
  · rename_i h
    rw [c2] at h
    simp [h]
  · rename_i h
    rw [c2] at h
    simp [c1, h]

/-! ### Heaps -/

/-- A heap, by keys. -/
def KHeap {K : Type} [LT K] (key : EP → K) (l : List EP) : Prop :=
  ∀ (i : Nat) (a b : EP), l[i / 2]? = some a → l[i + 1]? = some b → ¬ key a < key b

theorem heap_iff {K : Type} [LT K] {less : EP → EP → Bool} {key : EP → K} {l : List EP} (h : ∀ a ∈ l, ∀ b ∈ l, (less a b = true ↔ key a < key b)) :
    IsHeap less l ↔ KHeap key l := by
  unfold IsHeap KHeap
  refine forall_congr' fun i => forall_congr' fun a => forall_congr' fun b => ?_
  constructor
  · intro h1 ha hb
    rw [← h a (List.mem_of_getElem? ha) b (List.mem_of_getElem? hb), h1 ha hb]; simp
  · intro h1 ha hb
    have := h1 ha hb
    rw [← h a (List.mem_of_getElem? ha) b (List.mem_of_getElem? hb)] at this
    simpa using this

theorem KHeap.congr {K : Type} [LT K] {key key' : EP → K} {l : List EP} (h : KHeap key l) (he : ∀ a ∈ l, key' a = key a) : KHeap key' l := by
  intro i a b ha hb
  rw [he a (List.mem_of_getElem? ha), he b (List.mem_of_getElem? hb)]
  exact h i a b ha hb

/-- The first element of a heap is not less than the others. -/
theorem KHeap.max {K : Type} [LinearOrder K] {key : EP → K} {x : EP} {l : List EP} (h : KHeap key (x :: l)) : ∀ b ∈ l, key b ≤ key x := by
  have : ∀ (j : Nat) (b : EP), (x :: l)[j]? = some b → key b ≤ key x := by
    intro j
    induction j using Nat.strong_induction_on with
    | _ j ih =>
      intro b hb
      cases j with
      | zero => simp at hb; subst hb; exact le_rfl
      | succ i =>
        have hlt := (List.getElem?_eq_some_iff.1 hb).1
        have h2 : i / 2 < (x :: l).length := by omega
        have := h i _ b (List.getElem?_eq_getElem h2) hb
        exact le_trans (not_lt.1 this) (ih (i / 2) (by omega) _ (List.getElem?_eq_getElem h2))
  intro b hb
  obtain ⟨j, hj⟩ := List.mem_iff_getElem?.1 hb
  exact this (j + 1) b (by simpa using hj)

/-! ### The invariant -/

/-- The events in the heap and those that have left it. -/
structure EvInv (N : Nat) (dim : Fin 3) (polys : List EPoly) (H D : List EP) : Prop where
  known : ∀ e ∈ H ++ D, Known N polys D e
  ends : (((H ++ D).filter fun e => !e.start).map EP.index).Perm (List.range polys.length)
  starts : (((H ++ D).filter fun e => e.start).map EP.index).Perm ((D.zipIdx.filter fun x => !x.1.start).map fun x => N - 1 - x.2)
  later : ∀ k e, D[k]? = some e → e.start = true → N - 1 - k < e.index
  order : D.Pairwise fun e x => After N dim polys D x e
  cross : ∀ x ∈ H, ∀ e ∈ D, After N dim polys D x e
  flatDone : ∀ k e, D[k]? = some e → e.start = false → FlatEv N dim polys D e → k + 1 < D.length → ∃ b, D[k + 1]? = some ⟨b, true, N - 1 - k⟩
  flatLast : ∀ k e, D[k]? = some e → e.start = false → FlatEv N dim polys D e → k + 1 = D.length →
    ∃ b r, H.Perm (⟨b, true, N - 1 - k⟩ :: r) ∧ ∀ x ∈ r, keyOf N dim polys D x < keyOf N dim polys D ⟨b, true, N - 1 - k⟩

theorem EvInv.perm {H H' D : List EP} (h : EvInv N dim polys H D) (hp : H'.Perm H) : EvInv N dim polys H' D where
  known e he := h.known e ((hp.append_right D).mem_iff.1 he)
  ends := (((hp.append_right D).filter _).map _).trans h.ends
  starts := (((hp.append_right D).filter _).map _).trans h.starts
  later := h.later
  order := h.order
  cross x hx := h.cross x (hp.mem_iff.1 hx)
  flatDone := h.flatDone
  flatLast k e h1 h2 h3 h4 := by
    obtain ⟨b, r, p, q⟩ := h.flatLast k e h1 h2 h3 h4
    exact ⟨b, r, hp.trans p, q⟩

theorem countP_zipIdx (p : EP → Bool) : ∀ (D : List EP) (k : Nat), ((D.zipIdx k).filter fun x => p x.1).length = D.countP p := by
  intro D
  induction D with
  | nil => simp
  | cons a D ih =>
    intro k
    simp only [List.zipIdx_cons, List.countP_cons, List.filter_cons]
    split <;> simp [ih, *]

/-- The number of events. -/
theorem EvInv.count {H D : List EP} (h : EvInv N dim polys H D) :
    D.length + 2 * H.countP (fun e => !e.start) + H.countP (fun e => e.start) = 2 * polys.length := by
  have h1 := h.ends.length_eq
  have h2 := h.starts.length_eq
  simp only [List.length_map, List.length_range, ← List.countP_eq_length_filter, List.countP_append] at h1 h2
  rw [show (D.zipIdx.countP fun x => !x.1.start) = D.countP fun e => !e.start by
    rw [List.countP_eq_length_filter]; exact countP_zipIdx (fun e => !e.start) D 0] at h2
  have h3 := List.length_eq_countP_add_countP (fun e : EP => e.start) (l := D)
  have h4 : (D.countP fun a => decide ¬a.start = true) = D.countP fun e => !e.start := by
    congr 1; funext a; cases a.start <;> rfl
  rw [h4] at h3
  omega

theorem length_count (H : List EP) : H.length = H.countP (fun e => !e.start) + H.countP (fun e => e.start) := by
  have h3 := List.length_eq_countP_add_countP (fun e : EP => e.start) (l := H)
  have h4 : (H.countP fun a => decide ¬a.start = true) = H.countP fun e => !e.start := by
    congr 1; funext a; cases a.start <;> rfl
  omega

/-- What holds for the events that stay in the heap and the one that leaves it. -/
theorem EvInv.base {H D q : List EP} {m : EP} (h : EvInv N dim polys H D) (hp : H.Perm (m :: q))
    (hm : ∀ b ∈ q, keyOf N dim polys D b ≤ keyOf N dim polys D m) (hN : D.length < N) :
    (∀ e ∈ q ++ (D ++ [m]), Known N polys (D ++ [m]) e) ∧
    (∀ k e, (D ++ [m])[k]? = some e → e.start = true → N - 1 - k < e.index) ∧
    (D ++ [m]).Pairwise (fun e x => After N dim polys (D ++ [m]) x e) ∧
    (∀ x ∈ q, ∀ e ∈ D ++ [m], After N dim polys (D ++ [m]) x e) ∧
    (∀ k e, (D ++ [m])[k]? = some e → e.start = false → FlatEv N dim polys (D ++ [m]) e → k + 1 < (D ++ [m]).length →
      ∃ b, (D ++ [m])[k + 1]? = some ⟨b, true, N - 1 - k⟩) := by
  have h := h.perm hp.symm
  have kn : ∀ e ∈ m :: q, Known N polys D e := fun e he => h.known e (by simp at he ⊢; tauto)
  have kd : ∀ e ∈ D, Known N polys D e := fun e he => h.known e (by simp [he])
  have km := kn m (by simp)
  refine ⟨?_, ?_, ?_, ?_, ?_⟩
  · intro e he
    refine (h.known e ?_).append m
    simp at he ⊢; tauto
  · intro k e hk hs
    by_cases hkd : k < D.length
    · rw [List.getElem?_append_left hkd] at hk
      exact h.later k e hk hs
    · have hkl := (List.getElem?_eq_some_iff.1 hk).1
      simp only [List.length_append, List.length_singleton] at hkl
      have hk' : k = D.length := by omega
      subst hk'
      rw [List.getElem?_append_right (by omega)] at hk
      simp at hk; subst hk
      obtain ⟨p, hp'⟩ := km
      unfold polyOf at hp'
      rw [if_pos hs] at hp'
      obtain ⟨x, hx, -⟩ := Option.bind_eq_some_iff.1 hp'
      unfold partnerOf at hx
      split at hx
      · have := (List.getElem?_eq_some_iff.1 hx).1
        omega
      · simp at hx
  · rw [List.pairwise_append]
    refine ⟨?_, by simp, ?_⟩
    · refine h.order.imp_of_mem ?_
      intro a b ha hb hab
      exact hab.append m (kd b hb) (kd a ha)
    · intro e he x hx
      simp at hx; subst hx
      exact (h.cross x (by simp) e he).append x km (kd e he)
  · intro x hx e he
    have kx := kn x (by simp [hx])
    rcases List.mem_append.1 he with he | he
    · exact (h.cross x (by simp [hx]) e he).append m kx (kd e he)
    · simp at he; subst he
      refine After.append e kx km ?_
      have hk := hm x hx
      rw [← not_lt, key_lt] at hk
      push Not at hk
      refine ⟨hk.1, ?_⟩
      intro hs he _
      refine lt_of_le_of_ne hk.1 fun heq => ?_
      have := hk.2 heq.symm he
      exact this hs
  · intro k e hk hs hf hlt
    simp only [List.length_append, List.length_singleton] at hlt
    have hkd : k < D.length := by omega
    rw [List.getElem?_append_left hkd] at hk
    have ke := kd e (List.mem_of_getElem? hk)
    rw [flat_append m ke] at hf
    by_cases hl : k + 1 = D.length
    · obtain ⟨b, r, hr, hrk⟩ := h.flatLast k e hk hs hf hl
      refine ⟨b, ?_⟩
      rw [List.getElem?_append_right (by omega), hl]
      simp only [Nat.sub_self, List.getElem?_cons_zero, Option.some.injEq]
      by_contra hne
      have hmr : m ∈ r := by
        have := hr.mem_iff.1 (List.mem_cons_self (a := m) (l := q))
        rcases List.mem_cons.1 this with h | h
        · exact absurd h hne
        · exact h
      have hsq : (⟨b, true, N - 1 - k⟩ : EP) ∈ q := by
        have := hr.mem_iff.2 (List.mem_cons_self (l := r))
        rcases List.mem_cons.1 this with h | h
        · exact absurd h.symm hne
        · exact h
      exact absurd (hrk m hmr) (not_lt.2 (hm _ hsq))
    · obtain ⟨b, hb⟩ := h.flatDone k e hk hs hf (by omega)
      exact ⟨b, by rw [List.getElem?_append_left (by omega), hb]⟩

/-- A start event leaves the heap. -/
theorem EvInv.popStart {H D q : List EP} {m : EP} (h : EvInv N dim polys H D) (hp : H.Perm (m :: q))
    (hm : ∀ b ∈ q, keyOf N dim polys D b ≤ keyOf N dim polys D m) (hs : m.start = true) (hN : D.length < N) :
    EvInv N dim polys q (D ++ [m]) := by
  obtain ⟨h1, h0, h2, h3, h4⟩ := h.base hp hm hN
  have hperm : (q ++ (D ++ [m])).Perm (H ++ D) := by
    refine List.Perm.trans ?_ (hp.append_right D).symm
    rw [← List.append_assoc]
    exact (List.perm_append_comm (l₂ := [m])).trans (by simp)
  refine ⟨h1, ((hperm.filter _).map _).trans h.ends, ?_, h0, h2, h3, h4, ?_⟩
  · refine ((hperm.filter _).map _).trans (h.starts.trans ?_)
    rw [List.zipIdx_append]
    simp [hs]
  · intro k e hk he
    intro _ hl
    simp only [List.length_append, List.length_singleton] at hl
    rw [List.getElem?_append_right (by omega)] at hk
    have : k - D.length = 0 := by omega
    rw [this] at hk; simp at hk; subst hk
    rw [hs] at he; simp at he

/-- An end event leaves the heap and its start event enters it. -/
theorem EvInv.popEnd (hx : Extents dim polys) {H D q : List EP} {m : EP} (h : EvInv N dim polys H D) (hp : H.Perm (m :: q))
    (hm : ∀ b ∈ q, keyOf N dim polys D b ≤ keyOf N dim polys D m) (hs : m.start = false) (hN : D.length < N) (b : Bool) :
    EvInv N dim polys (q ++ [⟨b, true, N - 1 - D.length⟩]) (D ++ [m]) := by
  obtain ⟨h1, h0, h2, h3, h4⟩ := h.base hp hm hN
  set s : EP := ⟨b, true, N - 1 - D.length⟩ with hsdef
  have kn : ∀ e ∈ m :: q, Known N polys D e := fun e he => h.known e (by
    rcases List.mem_append.1 ((hp.append_right D).mem_iff.2 (List.mem_append_left D he)) with h | h
    · simp [h]
    · simp [h])
  have km := kn m (by simp)
  obtain ⟨pm, hpm⟩ := km
  have hpm' : polys[m.index]? = some pm := by
    unfold polyOf at hpm; rw [if_neg (by simp [hs])] at hpm; exact hpm
  have hps : polyOf N polys (D ++ [m]) s = some pm := by
    unfold polyOf
    rw [if_pos (by simp [hsdef])]
    have : partnerOf N (D ++ [m]) s.index = some m := by
      unfold partnerOf
      rw [if_pos (by simp [hsdef]; omega), List.getElem?_append_right (by simp [hsdef]; omega)]
      have : N - 1 - s.index - D.length = 0 := by simp [hsdef]; omega
      rw [this]; rfl
    rw [this]
    simp [hs, hpm']
  have posm : posOf N dim polys (D ++ [m]) m = pm.hi.pt dim := by
    rw [posOf_eq (polyOf_append m hpm)]; simp [EPoly.at, hs]
  have poss : posOf N dim polys (D ++ [m]) s = pm.lo.pt dim := by
    rw [posOf_eq hps]; simp [EPoly.at, hsdef]
  have hle := (hx pm (polyOf_mem hpm)).2.2
  have hperm : (q ++ [s] ++ (D ++ [m])).Perm (s :: (H ++ D)) := by
    rw [List.perm_iff_count]
    intro a
    have := hp.count_eq a
    simp only [List.count_append, List.count_cons, List.count_nil] at this ⊢
    omega
  have aft : ∀ e ∈ D ++ [m], After N dim polys (D ++ [m]) s e := by
    intro e he
    have hme : posOf N dim polys (D ++ [m]) m ≤ posOf N dim polys (D ++ [m]) e := by
      rcases List.mem_append.1 he with he | he
      · have := (List.pairwise_append.1 h2).2.2 e he m (by simp)
        exact this.1
      · simp at he; subst he; exact le_rfl
    rw [posm] at hme
    unfold After
    rw [poss]
    refine ⟨hle.trans hme, ?_⟩
    intro _ _ hf
    refine lt_of_lt_of_le (lt_of_le_of_ne hle fun heq => hf ⟨pm, hps, heq⟩) hme
  refine ⟨?_, ?_, ?_, h0, h2, ?_, h4, ?_⟩
  · intro e he
    rcases List.mem_append.1 he with he | he
    · rcases List.mem_append.1 he with he | he
      · exact h1 e (by simp [he])
      · simp at he; subst he; exact ⟨pm, hps⟩
    · exact h1 e (List.mem_append_right _ he)
  · refine ((hperm.filter _).map _).trans ?_
    simpa [hsdef] using h.ends
  · refine ((hperm.filter _).map _).trans ?_
    rw [List.zipIdx_append, List.filter_append, List.map_append]
    have h5 : (List.filter (fun e : EP => e.start) (s :: (H ++ D))).map EP.index =
        (N - 1 - D.length) :: ((H ++ D).filter fun e => e.start).map EP.index := by
      simp [hsdef]
    rw [h5]
    refine (h.starts.cons _).trans ?_
    simp only [List.zipIdx_cons, List.zipIdx_nil, List.filter_cons, hs, Bool.not_false, if_true, List.filter_nil, List.map_cons,
      List.map_nil, Nat.zero_add]
    exact (List.perm_append_comm (l₁ := [_]))
  · intro x hxq e he
    rcases List.mem_append.1 hxq with hxq | hxq
    · exact h3 x hxq e he
    · simp at hxq; subst hxq; exact aft e he
  · intro k e hk _ hf hl
    simp only [List.length_append, List.length_singleton] at hl
    have hkD : k = D.length := by omega
    subst hkD
    rw [List.getElem?_append_right (by omega)] at hk
    simp at hk; subst hk
    refine ⟨b, q, (List.perm_append_comm).trans (by simp [hsdef]), ?_⟩
    obtain ⟨p, hp', hfl⟩ := hf
    rw [polyOf_append m hpm] at hp'
    simp only [Option.some.injEq] at hp'; subst hp'
    intro x hxq
    have hk := hm x hxq
    have kx := kn x (by simp [hxq])
    rw [← keyOf_append m kx, ← keyOf_append m ⟨pm, hpm⟩] at hk
    refine lt_of_le_of_lt hk ?_
    rw [key_lt, posm, poss]
    right
    exact ⟨hfl.symm, hs, by simp⟩

/-! ### The loop -/

/-- The invariant with the heap in memory. -/
theorem makeLoop_spec {o : HeapOps} (ho : HeapOk o) (hx : Extents dim polys) : ∀ (f : Nat) (H gap D : List EP),
    H.length + gap.length = f → f + D.length = N → N = 2 * polys.length → EvInv N dim polys H D → KHeap (keyOf N dim polys D) H →
    ∃ D', makeLoop o dim polys f (H ++ gap ++ D.reverse) H.length = some D'.reverse ∧ EvInv N dim polys [] D' ∧ D'.length = N := by
  intro f
  induction f with
  | zero =>
    intro H gap D h1 h2 hN hi _
    obtain rfl : H = [] := List.eq_nil_of_length_eq_zero (by omega)
    obtain rfl : gap = [] := List.eq_nil_of_length_eq_zero (by simpa using h1)
    exact ⟨D, by simp [makeLoop], hi, by omega⟩
  | succ f ih =>
    intro H gap D h1 h2 hN hi hk
    have hc := hi.count
    have hl := length_count H
    cases H with
    | nil => simp at hc; simp at h1; omega
    | cons x l =>
    have hmemN : (x :: l ++ gap).length + D.length = N := by simp only [List.length_append]; omega
    have hkn : ∀ e ∈ x :: l, Known N polys D e := fun e he => hi.known e (List.mem_append_left _ he)
    have hless : ∀ a ∈ x :: l, ∀ b ∈ x :: l, (eventLess dim polys (x :: l ++ gap ++ D.reverse) a b = true ↔
        keyOf N dim polys D a < keyOf N dim polys D b) := fun a ha b hb => eventLess_key hx hmemN (hkn a ha) (hkn b hb)
    obtain ⟨q, hq1, hq2, hq3⟩ := ho.pop _ x l ⟨_, hless⟩ ((heap_iff hless).2 hk)
    have hmax := hk.max
    have hperm : (x :: l).Perm (x :: q) := (hq2.symm.cons x)
    have hmaxq : ∀ b ∈ q, keyOf N dim polys D b ≤ keyOf N dim polys D x := fun b hb => hmax b (hq2.mem_iff.1 hb)
    have hkq : KHeap (keyOf N dim polys D) q :=
      (heap_iff fun a ha b hb => hless a (by simp [hq2.mem_iff.1 ha]) b (by simp [hq2.mem_iff.1 hb])).1 hq3
    have hql := hq2.length_eq
    have htake : (x :: l ++ gap ++ D.reverse).take (x :: l).length = x :: l := by
      rw [List.append_assoc, List.take_left]
    have hdrop : (x :: l ++ gap ++ D.reverse).drop (x :: l).length = gap ++ D.reverse := by
      rw [List.append_assoc, List.drop_left]
    have hall : (x :: l).all (fun e => (e.location polys (x :: l ++ gap ++ D.reverse)).isSome) = true := by
      rw [List.all_eq_true]
      intro e he
      obtain ⟨p, hp⟩ := hkn e he
      rw [location_eq hmemN hp]; rfl
    unfold makeLoop
    rw [if_neg (by simp)]
    simp only [htake, hdrop, hall, hq1, Bool.not_true, Bool.false_eq_true, if_false]
    have hh : (x :: l).length - 1 = q.length := by simp [hql]
    simp only [hh]
    have hget : (q ++ [x] ++ (gap ++ D.reverse))[q.length]? = some x := by simp
    simp only [hget]
    have hlen1 : (x :: l).length = q.length + 1 := by simp [hql]
    rw [hlen1] at h1
    cases hs : x.start with
    | true =>
      simp only [Bool.not_true, Bool.false_eq_true, if_false]
      have hi' := hi.popStart hperm hmaxq hs (by omega)
      have hkn' : ∀ e ∈ q, Known N polys D e := fun e he => hkn e (by simp [hq2.mem_iff.1 he])
      have hk' : KHeap (keyOf N dim polys (D ++ [x])) q := hkq.congr fun a ha => keyOf_append x (hkn' a ha)
      obtain ⟨gap', hg1, hg2⟩ : ∃ gap', (q ++ [x] ++ (gap ++ D.reverse)).set f x = q ++ gap' ++ (D ++ [x]).reverse ∧
          q.length + gap'.length = f := by
        rcases List.eq_nil_or_concat' gap with rfl | ⟨g, y, rfl⟩
        · refine ⟨[], ?_, ?_⟩
          · have : f = q.length := by simp at h1; omega
            subst this
            simp
          · simp at h1; simp; omega
        · refine ⟨x :: g, ?_, ?_⟩
          · have : f = (q ++ [x] ++ g).length := by simp at h1 ⊢; omega
            rw [show q ++ [x] ++ (g ++ [y] ++ D.reverse) = (q ++ [x] ++ g) ++ y :: D.reverse by simp, this,
              List.set_append_right _ _ (Nat.le_refl _)]
            simp
          · simp at h1 ⊢; omega
      rw [hg1]
      exact ih q gap' (D ++ [x]) hg2 (by simp; omega) hN hi' hk'
    | false =>
      simp only [Bool.not_false, if_true]
      have hcx : (x :: l).countP (fun e => !e.start) = l.countP (fun e => !e.start) + 1 := by simp [hs]
      have hgap : gap ≠ [] := by
        intro hg; subst hg
        simp only [List.length_nil] at h1
        omega
      obtain ⟨g, y, rfl⟩ := (List.eq_nil_or_concat' gap).resolve_left hgap
      have hf : f = (q ++ [x] ++ g).length := by simp at h1 ⊢; omega
      have hset : (q ++ [x] ++ (g ++ [y] ++ D.reverse)).set f x = q ++ [x] ++ g ++ x :: D.reverse := by
        rw [show q ++ [x] ++ (g ++ [y] ++ D.reverse) = (q ++ [x] ++ g) ++ y :: D.reverse by simp, hf,
          List.set_append_right _ _ (Nat.le_refl _)]
        simp
      set s : EP := { x with start := true, index := f } with hsd
      have hset2 : (q ++ [x] ++ g ++ x :: D.reverse).set q.length s = q ++ [s] ++ (g ++ (D ++ [x]).reverse) := by
        rw [show q ++ [x] ++ g ++ x :: D.reverse = q ++ (x :: (g ++ x :: D.reverse)) by simp, List.set_append_right _ _ (Nat.le_refl _)]
        simp
      have hDN : D.length < N := by omega
      have hidx : f = N - 1 - D.length := by omega
      have hi' := hi.popEnd hx hperm hmaxq hs hDN x.newLoc
      rw [← hidx] at hi'
      have hsd' : (⟨x.newLoc, true, f⟩ : EP) = s := rfl
      rw [hsd'] at hi'
      have hkn' : ∀ e ∈ q ++ [s], Known N polys (D ++ [x]) e := fun e he => hi'.known e (List.mem_append_left _ he)
      have hNs : (q ++ [s] ++ g).length + (D ++ [x]).length = N := by simp at hf ⊢; omega
      have hless' : ∀ a ∈ q ++ [s], ∀ b ∈ q ++ [s], (eventLess dim polys (q ++ [s] ++ (g ++ (D ++ [x]).reverse)) a b = true ↔
          keyOf N dim polys (D ++ [x]) a < keyOf N dim polys (D ++ [x]) b) := by
        intro a ha b hb
        have := eventLess_key hx hNs (hkn' a ha) (hkn' b hb)
        rwa [List.append_assoc] at this
      have hkn0 : ∀ e ∈ q, Known N polys D e := fun e he => hkn e (by simp [hq2.mem_iff.1 he])
      have hkq' : KHeap (keyOf N dim polys (D ++ [x])) q := hkq.congr fun a ha => keyOf_append x (hkn0 a ha)
      obtain ⟨hp1, hp2⟩ := ho.push (eventLess dim polys (q ++ [s] ++ (g ++ (D ++ [x]).reverse))) q s ⟨_, hless'⟩
        ((heap_iff fun a ha b hb => hless' a (by simp [ha]) b (by simp [hb])).2 hkq')
      rw [hset, hset2]
      have ht2 : (q ++ [s] ++ (g ++ (D ++ [x]).reverse)).take (q.length + 1) = q ++ [s] := by
        rw [show q.length + 1 = (q ++ [s]).length by simp, List.take_left]
      have hd2 : (q ++ [s] ++ (g ++ (D ++ [x]).reverse)).drop (q.length + 1) = g ++ (D ++ [x]).reverse := by
        rw [show q.length + 1 = (q ++ [s]).length by simp, List.drop_left]
      rw [ht2, hd2]
      have hkp : KHeap (keyOf N dim polys (D ++ [x])) (o.push (eventLess dim polys (q ++ [s] ++ (g ++ (D ++ [x]).reverse))) (q ++ [s])) :=
        (heap_iff fun a ha b hb => hless' a (hp1.mem_iff.1 ha) b (hp1.mem_iff.1 hb)).1 hp2
      have hlp := hp1.length_eq
      have := ih _ g (D ++ [x]) (by rw [hlp]; simp at hf ⊢; omega) (by simp; omega) hN (hi'.perm hp1) hkp
      rw [hlp, List.append_assoc] at this
      simpa using this

end Walnut.Bsp
