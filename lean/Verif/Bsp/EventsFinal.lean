/- From the events in the order in which they leave the heap to the array of event points. -/
import Verif.Bsp.EventsProof

namespace Walnut.Bsp
open Walnut.Geom Walnut.Props

variable {N : Nat} {dim : Fin 3} {polys : List EPoly}

theorem nodup_filter_map {D : List EP} {p : EP → Bool} {k1 k2 : Nat} {a b : EP} (h : ((D.filter p).map EP.index).Nodup)
    (h1 : D[k1]? = some a) (h2 : D[k2]? = some b) (ha : p a = true) (hb : p b = true) (hab : a.index = b.index) : k1 = k2 := by
  rw [List.Nodup, List.pairwise_map, List.pairwise_filter, List.pairwise_iff_getElem] at h
  obtain ⟨l1, rfl⟩ := List.getElem?_eq_some_iff.1 h1
  obtain ⟨l2, rfl⟩ := List.getElem?_eq_some_iff.1 h2
  rcases Nat.lt_trichotomy k1 k2 with hlt | heq | hgt
  · exact absurd hab (h k1 k2 l1 l2 hlt ha hb)
  · exact heq
  · exact absurd hab.symm (h k2 k1 l2 l1 hgt hb ha)

theorem positions_nodup (D : List EP) (hN : D.length ≤ N) (p : EP × Nat → Bool) :
    ((D.zipIdx.filter p).map fun x => N - 1 - x.2).Nodup := by
  rw [List.Nodup, List.pairwise_map]
  refine List.Pairwise.filter _ ?_
  rw [List.pairwise_iff_getElem]
  intro i j hi hj hij
  rw [List.length_zipIdx] at hi hj
  simp only [List.getElem_zipIdx]
  omega

/-- The events when the heap is empty. -/
theorem EvInv.final {D : List EP} (h : EvInv N dim polys [] D) (hD : D.length = N) (hN : N = 2 * polys.length) {ev : List EP}
    (hlen : ev.length = N)
    (hev : ∀ k e, D.reverse[k]? = some e → ∃ b, ev[k]? = some { e with newLoc := b } ∧
      (b = true ↔ k = 0 ∨ ∃ e', D.reverse[k - 1]? = some e' ∧ posOf N dim polys D e' < posOf N dim polys D e)) :
    ∃ s t loc, EventsOk dim polys ev s t loc := by
  have hends := h.ends
  have hstarts := h.starts
  simp only [List.nil_append] at hends hstarts
  have nd1 : ((D.filter fun e => !e.start).map EP.index).Nodup := hends.nodup_iff.2 List.nodup_range
  have nd2 : ((D.filter fun e => e.start).map EP.index).Nodup := hstarts.nodup_iff.2 (positions_nodup D (le_of_eq hD) _)
  have known : ∀ e ∈ D, Known N polys D e := fun e he => h.known e (by simpa using he)
  -- the ends
  have hT : ∀ i, i < polys.length → ∃ (k : Nat) (e : EP), D[k]? = some e ∧ e.start = false ∧ e.index = i := by
    intro i hi
    have : i ∈ (D.filter fun e => !e.start).map EP.index := hends.mem_iff.2 (by simpa using hi)
    obtain ⟨e, he, hei⟩ := List.mem_map.1 this
    obtain ⟨he, hs⟩ := List.mem_filter.1 he
    obtain ⟨k, hk⟩ := List.mem_iff_getElem?.1 he
    exact ⟨k, e, hk, by simpa using hs, hei⟩
  -- the starts
  have hS : ∀ (k : Nat) (e : EP), D[k]? = some e → e.start = false → ∃ (k' : Nat) (e' : EP), D[k']? = some e' ∧ e'.start = true ∧ e'.index = N - 1 - k := by
    intro k e hk hs
    have : N - 1 - k ∈ (D.filter fun e => e.start).map EP.index := by
      refine hstarts.mem_iff.2 (List.mem_map.2 ⟨(e, k), List.mem_filter.2 ⟨?_, by simp [hs]⟩, rfl⟩)
      rw [List.mem_zipIdx_iff_getElem?]; exact hk
    obtain ⟨e', he, hei⟩ := List.mem_map.1 this
    obtain ⟨he, hs'⟩ := List.mem_filter.1 he
    obtain ⟨k', hk'⟩ := List.mem_iff_getElem?.1 he
    exact ⟨k', e', hk', by simpa using hs', hei⟩
  have hT' : ∀ i, ∃ k : Nat, i < polys.length → ∃ e : EP, D[k]? = some e ∧ e.start = false ∧ e.index = i := by
    intro i
    by_cases hi : i < polys.length
    · obtain ⟨k, e, h⟩ := hT i hi
      exact ⟨k, fun _ => ⟨e, h⟩⟩
    · exact ⟨0, fun h => absurd h hi⟩
  choose kt hkt using hT'
  have hS' : ∀ i, ∃ k : Nat, i < polys.length → ∃ e : EP, D[k]? = some e ∧ e.start = true ∧ e.index = N - 1 - kt i := by
    intro i
    by_cases hi : i < polys.length
    · obtain ⟨e, h1, h2, -⟩ := hkt i hi
      obtain ⟨k', e', h⟩ := hS _ e h1 h2
      exact ⟨k', fun _ => ⟨e', h⟩⟩
    · exact ⟨0, fun h => absurd h hi⟩
  choose ks hks using hS'
  -- the positions in the array
  have rev : ∀ (k : Nat) (e : EP), D[k]? = some e → D.reverse[N - 1 - k]? = some e := by
    intro k e hk
    have := (List.getElem?_eq_some_iff.1 hk).1
    rw [List.getElem?_reverse (by omega), ← hk]
    congr 1; omega
  have unrev : ∀ k < N, ∃ e : EP, D[N - 1 - k]? = some e ∧ D.reverse[k]? = some e := by
    intro k hk
    refine ⟨D[N - 1 - k], List.getElem?_eq_getElem _, ?_⟩
    rw [List.getElem?_reverse (by omega), List.getElem?_eq_getElem (by omega)]
    congr 2; omega
  set loc : Nat → ℚ := fun k => match D.reverse[k]? with | some e => posOf N dim polys D e | none => 0 with hloc
  have loc_eq : ∀ (k : Nat) (e : EP), D.reverse[k]? = some e → loc k = posOf N dim polys D e := by
    intro k e hk; simp only [hloc]; rw [hk]
  have pos_end : ∀ (i : Nat) (p : EPoly), polys[i]? = some p → loc (N - 1 - kt i) = p.hi.pt dim := by
    intro i p hp
    obtain ⟨e, h1, h2, h3⟩ := hkt i (List.getElem?_eq_some_iff.1 hp).1
    rw [loc_eq _ e (rev _ e h1), posOf_eq (p := p)]
    · simp [EPoly.at, h2]
    · unfold polyOf; rw [if_neg (by simp [h2]), h3, hp]
  have pos_start : ∀ (i : Nat) (p : EPoly), polys[i]? = some p → loc (N - 1 - ks i) = p.lo.pt dim := by
    intro i p hp
    have hi := (List.getElem?_eq_some_iff.1 hp).1
    obtain ⟨e, h1, h2, h3⟩ := hks i hi
    obtain ⟨e', g1, g2, g3⟩ := hkt i hi
    have hlt := (List.getElem?_eq_some_iff.1 g1).1
    rw [loc_eq _ e (rev _ e h1), posOf_eq (p := p)]
    · simp [EPoly.at, h2]
    · unfold polyOf; rw [if_pos h2, h3]
      have : partnerOf N D (N - 1 - kt i) = some e' := by
        unfold partnerOf
        rw [if_pos (by omega), ← g1]; congr 1; omega
      rw [this]
      simp [g2, g3, hp]
  have before : ∀ i < polys.length, N - 1 - ks i < N - 1 - kt i := by
    intro i hi
    obtain ⟨e, h1, h2, h3⟩ := hks i hi
    have := h.later _ e h1 h2
    rwa [h3] at this
  have polyex : ∀ i : Nat, i < polys.length → ∃ p, polys[i]? = some p := fun i hi => ⟨_, List.getElem?_eq_getElem hi⟩
  refine ⟨fun i => N - 1 - ks i, fun i => N - 1 - kt i, loc, ⟨by omega, ?_, ?_, ?_, before, ?_, ?_, ?_, ?_⟩⟩
  · intro i p hp
    obtain ⟨e, h1, h2, h3⟩ := hks i (List.getElem?_eq_some_iff.1 hp).1
    obtain ⟨b, hb, -⟩ := hev _ e (rev _ e h1)
    refine ⟨b, ?_, pos_start i p hp⟩
    rw [hb, ← h2, ← h3]
  · intro i p hp
    obtain ⟨e, h1, h2, h3⟩ := hkt i (List.getElem?_eq_some_iff.1 hp).1
    obtain ⟨b, hb, -⟩ := hev _ e (rev _ e h1)
    refine ⟨b, ?_, pos_end i p hp⟩
    rw [hb, ← h2]
    simp [h3]
  · intro k hk
    obtain ⟨e, he, -⟩ := unrev k (by omega)
    cases hs : e.start with
    | false =>
      obtain ⟨p, hp⟩ := known e (List.mem_of_getElem? he)
      unfold polyOf at hp
      rw [if_neg (by simp [hs])] at hp
      have hi := (List.getElem?_eq_some_iff.1 hp).1
      obtain ⟨e', g1, g2, g3⟩ := hkt e.index hi
      have := nodup_filter_map nd1 he g1 (by simp [hs]) (by simp [g2]) g3.symm
      exact ⟨e.index, hi, Or.inr (by omega)⟩
    | true =>
      obtain ⟨p, hp⟩ := known e (List.mem_of_getElem? he)
      unfold polyOf at hp
      rw [if_pos hs] at hp
      obtain ⟨x, hx, hp⟩ := Option.bind_eq_some_iff.1 hp
      split at hp
      · simp at hp
      · rename_i hxs
        simp only [Bool.not_eq_true] at hxs
        have hi := (List.getElem?_eq_some_iff.1 hp).1
        obtain ⟨e', g1, g2, g3⟩ := hkt x.index hi
        obtain ⟨e2, g4, g5, g6⟩ := hks x.index hi
        unfold partnerOf at hx
        split at hx
        · rename_i hlt
          have := nodup_filter_map nd1 hx g1 (by simp [hxs]) (by simp [g2]) g3.symm
          have := nodup_filter_map nd2 he g4 hs g5 (by rw [g6]; omega)
          exact ⟨x.index, hi, Or.inl (by omega)⟩
        · simp at hx
  · intro j k hjk hk
    rcases Nat.eq_or_lt_of_le hjk with rfl | hlt
    · exact le_rfl
    obtain ⟨e, h1, h2⟩ := unrev j (by omega)
    obtain ⟨e', h3, h4⟩ := unrev k (by omega)
    rw [loc_eq j e h2, loc_eq k e' h4]
    obtain ⟨l1, rfl⟩ := List.getElem?_eq_some_iff.1 h1
    obtain ⟨l2, rfl⟩ := List.getElem?_eq_some_iff.1 h3
    exact ((List.pairwise_iff_getElem.1 h.order) (N - 1 - k) (N - 1 - j) l2 l1 (by omega)).1
  · intro i hi j hj heq hlt
    obtain ⟨e, h1, h2, h3⟩ := hks i hi
    obtain ⟨e', g1, g2, g3⟩ := hkt j hj
    have le := loc_eq _ e (rev _ e h1)
    have le' := loc_eq _ e' (rev _ e' g1)
    obtain ⟨l1, hl1⟩ := List.getElem?_eq_some_iff.1 h1
    obtain ⟨l2, hl2⟩ := List.getElem?_eq_some_iff.1 g1
    have ha := (List.pairwise_iff_getElem.1 h.order) (kt j) (ks i) l2 l1 (by omega)
    rw [hl1, hl2] at ha
    by_contra hne
    have hnf : ¬ FlatEv N dim polys D e := by
      rintro ⟨p, hp, hfl⟩
      -- the polygon of the event is polygon `i`
      obtain ⟨p', hp'⟩ := polyex i hi
      have hpp : p = p' := by
        obtain ⟨e2, k1, k2, k3⟩ := hkt i hi
        have hlt' := (List.getElem?_eq_some_iff.1 k1).1
        unfold polyOf at hp
        rw [if_pos h2, h3] at hp
        have : partnerOf N D (N - 1 - kt i) = some e2 := by
          unfold partnerOf
          rw [if_pos (by omega), ← k1]; congr 1; omega
        rw [this] at hp
        simp [k2, k3, hp'] at hp
        exact hp.symm
      subst hpp
      exact hne (by rw [pos_start i p hp', pos_end i p hp', hfl])
    have := ha.2 h2 g2 hnf
    rw [← le, ← le'] at this
    exact absurd heq this.ne
  · intro i hi heq
    obtain ⟨p, hp⟩ := polyex i hi
    simp only [pos_start i p hp, pos_end i p hp] at heq
    obtain ⟨e, g1, g2, g3⟩ := hkt i hi
    obtain ⟨e', h1, h2, h3⟩ := hks i hi
    have hb := before i hi
    have l1 := (List.getElem?_eq_some_iff.1 g1).1
    have l2 := (List.getElem?_eq_some_iff.1 h1).1
    have hf : FlatEv N dim polys D e := ⟨p, by unfold polyOf; rw [if_neg (by simp [g2]), g3, hp], heq⟩
    obtain ⟨b, hb'⟩ := h.flatDone (kt i) e g1 g2 hf (by omega)
    have := nodup_filter_map nd2 hb' h1 rfl h2 (by rw [h3])
    show N - 1 - kt i = N - 1 - ks i + 1
    omega
  · intro k e hk
    have hlt := (List.getElem?_eq_some_iff.1 hk).1
    obtain ⟨d, -, hd⟩ := unrev k (by omega)
    obtain ⟨b, hb, hbi⟩ := hev k d hd
    rw [hk] at hb
    simp only [Option.some.injEq] at hb
    subst hb
    rw [show ({ d with newLoc := b } : EP).newLoc = b from rfl, hbi]
    by_cases h0 : k = 0
    · simp [h0]
    · obtain ⟨d', -, hd'⟩ := unrev (k - 1) (by omega)
      rw [loc_eq _ d hd, loc_eq _ d' hd', hd']
      simp

theorem mapM_some {α β : Type} (f : α → Option β) : ∀ (l : List α), (∀ a ∈ l, ∃ b, f a = some b) →
    ∃ r, l.mapM f = some r ∧ List.Forall₂ (fun a b => f a = some b) l r := by
  intro l
  induction l with
  | nil => intro _; exact ⟨[], by simp, .nil⟩
  | cons a l ih =>
    intro h
    obtain ⟨b, hb⟩ := h a (by simp)
    obtain ⟨r, hr, hf⟩ := ih fun a ha => h a (by simp [ha])
    exact ⟨b :: r, by simp [List.mapM_cons, hb, hr], .cons hb hf⟩

/-- The heap at the beginning. -/
theorem evInv_start {H : List EP} (hp : (H.map fun e => (e.start, e.index)).Perm
    ((List.range polys.length).map fun i => (false, i))) : EvInv N dim polys H [] := by
  have hmem : ∀ e ∈ H, e.start = false ∧ e.index < polys.length := by
    intro e he
    have := hp.mem_iff.1 (List.mem_map_of_mem (f := fun e : EP => (e.start, e.index)) he)
    obtain ⟨i, hi, h⟩ := List.mem_map.1 this
    simp at h hi
    exact ⟨h.1, by omega⟩
  refine ⟨?_, ?_, ?_, by simp, by simp, by simp, by simp, by simp⟩
  · intro e he
    obtain ⟨h1, h2⟩ := hmem e (by simpa using he)
    exact ⟨polys[e.index], by unfold polyOf; rw [if_neg (by simp [h1]), List.getElem?_eq_getElem h2]⟩
  · rw [List.append_nil, List.filter_eq_self.2 (fun e he => by simp [(hmem e he).1])]
    have := hp.map Prod.snd
    simpa [List.map_map, Function.comp_def] using this
  · rw [List.append_nil, List.filter_eq_nil_iff.2 (fun e he => by simp [(hmem e he).1])]
    simp

/-- `MakeEventPoints`. -/
theorem makeEvents_spec {o : HeapOps} (ho : HeapOk o) (hx : Extents dim polys) {mem : List EP} (hm : mem.length = 2 * polys.length) :
    ∃ ev s t loc, makeEvents o dim polys mem = some ev ∧ EventsOk dim polys ev s t loc := by
  unfold makeEvents
  rw [if_neg (by simpa using hm)]
  set n := polys.length with hn
  set mem1 := fillEnds mem n with hmem1
  have hl1 : mem1.length = 2 * n := by simp [hmem1, fillEnds, hm]
  set E := mem1.take n with hE
  have hEl : E.length = n := by simp [hE, hl1]; omega
  have hEget : ∀ (i : Nat) (e : EP), E[i]? = some e → e.start = false ∧ e.index = i := by
    intro i e he
    have hlt := (List.getElem?_eq_some_iff.1 he).1
    rw [hE, List.getElem?_take_of_lt (by omega), hmem1, fillEnds, List.getElem?_mapIdx] at he
    obtain ⟨x, hx, rfl⟩ := Option.map_eq_some_iff.1 he
    rw [if_pos (by omega)]
    exact ⟨rfl, rfl⟩
  have hEmap : E.map (fun e => (e.start, e.index)) = (List.range n).map fun i => (false, i) := by
    apply List.ext_getElem?
    intro i
    rw [List.getElem?_map, List.getElem?_map]
    by_cases hi : i < n
    · rw [List.getElem?_eq_getElem (by omega : i < E.length), List.getElem?_range hi]
      obtain ⟨h1, h2⟩ := hEget i _ (List.getElem?_eq_getElem (by omega : i < E.length))
      simp [h1, h2]
    · rw [List.getElem?_eq_none (by omega), List.getElem?_eq_none (by simp; omega)]
      rfl
  have hinv0 : EvInv (2 * n) dim polys E [] := evInv_start (by rw [hEmap])
  have hEprop : ∀ e ∈ E, e.start = false ∧ ∃ p, polys[e.index]? = some p ∧ polyOf (2 * n) polys [] e = some p := by
    intro e he
    obtain ⟨i, hi⟩ := List.mem_iff_getElem?.1 he
    obtain ⟨h1, h2⟩ := hEget i e hi
    have hlt := (List.getElem?_eq_some_iff.1 hi).1
    obtain ⟨p, hp⟩ : ∃ p, polys[e.index]? = some p := ⟨_, List.getElem?_eq_getElem (by omega)⟩
    exact ⟨h1, p, hp, by unfold polyOf; rw [if_neg (by simp [h1]), hp]⟩
  have hkey : ∀ a ∈ E, ∀ b ∈ E, (endLess dim polys a b = true ↔ keyOf (2 * n) dim polys [] a < keyOf (2 * n) dim polys [] b) := by
    intro a ha b hb
    obtain ⟨sa, p, hp, hpa⟩ := hEprop a ha
    obtain ⟨sb, q, hq, hqb⟩ := hEprop b hb
    rw [key_lt, posOf_eq hpa, posOf_eq hqb]
    unfold endLess
    rw [hp, hq]
    have := (C16_compare_component p.hi q.hi dim (hx p (List.mem_of_getElem? hp)).2.1 (hx q (List.mem_of_getElem? hq)).2.1).2.2.2.1
    simp only [this, sa, sb, EPoly.at]
    simp
  obtain ⟨hp1, hp2⟩ := ho.make (endLess dim polys) E ⟨_, hkey⟩
  set H := o.make (endLess dim polys) E with hH
  have hinv : EvInv (2 * n) dim polys H [] := hinv0.perm hp1
  have hheap : KHeap (keyOf (2 * n) dim polys []) H :=
    (heap_iff fun a ha b hb => hkey a (hp1.mem_iff.1 ha) b (hp1.mem_iff.1 hb)).1 hp2
  have hHl : H.length = n := by rw [hp1.length_eq, hEl]
  obtain ⟨D, hD1, hD2, hD3⟩ := makeLoop_spec (N := 2 * n) ho hx (2 * n) H (mem1.drop n) [] (by simp only [hHl, List.length_drop, hl1]; omega) rfl rfl hinv hheap
  simp only [List.reverse_nil, List.append_nil, hHl] at hD1
  have known : ∀ e ∈ D, ∃ p, polyOf (2 * n) polys D e = some p := fun e he => hD2.known e (by simpa using he)
  have hloc : ∀ e p, polyOf (2 * n) polys D e = some p → e.location polys D.reverse = some (p.at e.start) := by
    intro e p hp
    have := location_eq (X := []) (by simpa using hD3) hp
    simpa using this
  have hmark : ∀ (k : Nat) (e : EP), D.reverse[k]? = some e → ∃ b, markNew dim polys D.reverse k = some { e with newLoc := b } ∧
      (b = true ↔ k = 0 ∨ ∃ e', D.reverse[k - 1]? = some e' ∧ posOf (2 * n) dim polys D e' < posOf (2 * n) dim polys D e) := by
    intro k e he
    unfold markNew
    rw [he]
    by_cases h0 : k = 0
    · subst h0
      exact ⟨true, by simp, by simp⟩
    · have hlt := (List.getElem?_eq_some_iff.1 he).1
      have hp' : D.reverse[k - 1]? = some D.reverse[k - 1] := List.getElem?_eq_getElem (by omega)
      obtain ⟨p, hp⟩ := known e (by have := List.mem_of_getElem? he; simpa using this)
      obtain ⟨q, hq⟩ := known D.reverse[k - 1] (by have := List.mem_of_getElem? hp'; simpa using this)
      refine ⟨_, by simp only [h0, if_false, hp', hloc _ p hp, hloc _ q hq]; rfl, ?_⟩
      rw [(C16_compare_component _ _ dim (at_w hx (polyOf_mem hq) _) (at_w hx (polyOf_mem hp) _)).2.2.2.1]
      rw [hp', posOf_eq hp]
      simp only [h0, false_or, Option.some.injEq, exists_eq_left']
      rw [posOf_eq hq]
  obtain ⟨ev, hev1, hev2⟩ := mapM_some (markNew dim polys D.reverse) (List.range (2 * n)) (by
    intro i hi
    have hlt : i < D.reverse.length := by simpa [hD3] using hi
    obtain ⟨b, hb, -⟩ := hmark i _ (List.getElem?_eq_getElem hlt)
    exact ⟨_, hb⟩)
  have hevl : ev.length = 2 * n := by rw [← hev2.length_eq]; simp
  obtain ⟨s, t, loc, hok⟩ := hD2.final hD3 rfl hevl (by
    intro k e he
    obtain ⟨b, hb, hbi⟩ := hmark k e he
    refine ⟨b, ?_, hbi⟩
    have hlt : k < 2 * n := by
      have := (List.getElem?_eq_some_iff.1 he).1
      simpa [hD3] using this
    have := (List.forall₂_iff_get.1 hev2).2 k (by simpa using hlt) (by omega)
    simp only [List.get_eq_getElem, List.getElem_range] at this
    rw [List.getElem?_eq_getElem (by omega), ← this, hb])
  refine ⟨ev, s, t, loc, ?_, hok⟩
  show (match makeLoop o dim polys (2 * n) (H ++ mem1.drop n) n with
    | none => none
    | some mem => (List.range (2 * n)).mapM (markNew dim polys mem)) = some ev
  rw [hD1]
  exact hev1

end Walnut.Bsp
