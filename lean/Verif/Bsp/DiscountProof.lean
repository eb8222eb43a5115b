/- The numbers of polygons on each side of the split, and on it. -/
import Verif.Bsp.CostProof
import Verif.Props.Reduce

namespace Walnut.Bsp
open Walnut.Geom Walnut.Props

variable {dim : Fin 3} {polys : List EPoly} {ev : List EP} {s t : Nat → Nat} {loc : Nat → ℚ} {excl : Option Nat}

theorem cnt_lt (h : EventsOk dim polys ev s t loc) {k : Nat} {e : EP} (he : ev[k]? = some e) :
    (cnt polys.length fun j => s j < k + 1) = (cnt polys.length fun j => s j < k) + (if e.start then 1 else 0) := by
  obtain ⟨a, ha, ⟨h1, rfl, h3⟩ | ⟨h1, rfl, h3⟩⟩ := h.event he
  · have := cnt_start h ha (fun _ => True) trivial
    simp only [and_true] at this
    rw [this, if_pos h1]
  · have := cnt_start_not h (k := t a) (fun _ => True) fun j hj _ => h.s_ne_t hj ha
    simp only [and_true] at this
    rw [this, if_neg (by simp [h1])]; rfl

theorem cnt_ge (h : EventsOk dim polys ev s t loc) {k : Nat} {e : EP} (he : ev[k]? = some e) :
    (cnt polys.length fun j => k ≤ t j) = (cnt polys.length fun j => k + 1 ≤ t j) + (if e.start then 0 else 1) := by
  obtain ⟨a, ha, ⟨h1, rfl, h3⟩ | ⟨h1, rfl, h3⟩⟩ := h.event he
  · have := cnt_end_not (t := t) (polys := polys) (k := s a) (fun _ => True) fun j hj _ => (h.s_ne_t ha hj).symm
    simp only [and_true] at this
    rw [this, if_pos h1]; rfl
  · have := cnt_end h ha (fun _ => True) trivial
    simp only [and_true] at this
    rw [this, if_neg (by simp [h1])]

theorem discountBack_spec (h : EventsOk dim polys ev s t loc) {k : Nat} : ∀ b, b ≤ k → k < 2 * polys.length → loc b = loc k →
    ∀ neg border, neg = (cnt polys.length fun j => s j < b) → border = (cnt polys.length fun j => b ≤ s j ∧ s j < k) →
    ∃ b', discountBack ev b neg border = some (b', (cnt polys.length fun j => s j < b'), cnt polys.length fun j => b' ≤ s j ∧ s j < k) ∧
      b' ≤ k ∧ loc b' = loc k ∧ (b' = 0 ∨ loc (b' - 1) < loc k) := by
  intro b
  induction b with
  | zero =>
    intro hb hk hl neg border hneg hbor
    obtain ⟨e, he⟩ : ∃ e, ev[0]? = some e := ⟨_, List.getElem?_eq_getElem (by rw [h.length]; omega)⟩
    have hnew : e.newLoc = true := (h.newLoc 0 e he).2 (Or.inl rfl)
    refine ⟨0, ?_, hb, hl, Or.inl rfl⟩
    unfold discountBack
    simp only [he, hnew, if_true, hneg, hbor]
  | succ b ih =>
    intro hb hk hl neg border hneg hbor
    obtain ⟨e, he⟩ : ∃ e, ev[b + 1]? = some e := ⟨_, List.getElem?_eq_getElem (by rw [h.length]; omega)⟩
    obtain ⟨p, hp⟩ : ∃ p, ev[b]? = some p := ⟨_, List.getElem?_eq_getElem (by rw [h.length]; omega)⟩
    have hnew := h.newLoc (b + 1) e he
    simp only [Nat.add_sub_cancel, Nat.succ_ne_zero, false_or] at hnew
    have hle := h.sorted b (b + 1) (by omega) (by rw [h.length]; omega)
    unfold discountBack
    simp only [he]
    by_cases hn : e.newLoc = true
    · rw [if_pos hn]
      refine ⟨b + 1, by rw [hneg, hbor], hb, hl, Or.inr ?_⟩
      rw [← hl]
      exact hnew.1 hn
    · rw [if_neg hn]
      simp only [hp]
      have hlb : loc b = loc k := by
        rw [← hl]
        exact le_antisymm hle (not_lt.1 fun hh => hn (hnew.2 hh))
      have c1 := cnt_lt h hp
      have c2 : (cnt polys.length fun j => b ≤ s j ∧ s j < k) = (cnt polys.length fun j => b + 1 ≤ s j ∧ s j < k) + (if p.start then 1 else 0) := by
        obtain ⟨a, ha, ⟨h1, h2, -⟩ | ⟨h1, h2, -⟩⟩ := h.event hp
        · rw [if_pos h1, cnt_add (P := fun j => b + 1 ≤ s j ∧ s j < k) (Q := fun j => j = a), cnt_one ha fun j _ => Iff.rfl]
          · intro j hj
            constructor
            · rintro ⟨g1, g2⟩
              rcases Nat.lt_or_eq_of_le g1 with g3 | g3
              · exact Or.inl ⟨g3, g2⟩
              · exact Or.inr (h.s_inj hj ha (by omega))
            · rintro (⟨g1, g2⟩ | rfl)
              · exact ⟨by omega, g2⟩
              · exact ⟨by omega, by omega⟩
          · rintro j _ ⟨g1, _⟩ rfl
            omega
        · rw [if_neg (by simp [h1]), Nat.add_zero]
          refine cnt_congr fun j hj => ⟨fun ⟨g1, g2⟩ => ⟨?_, g2⟩, fun ⟨g1, g2⟩ => ⟨by omega, g2⟩⟩
          have := h.s_ne_t hj ha
          omega
      cases hs : p.start with
      | true =>
        rw [hs] at c1 c2
        simp only [if_true] at c1 c2 ⊢
        rw [if_neg (by omega)]
        exact ih (by omega) hk hlb _ _ (by omega) (by omega)
      | false =>
        rw [hs] at c1 c2
        simp only [Bool.false_eq_true, if_false, Nat.add_zero] at c1 c2 ⊢
        exact ih (by omega) hk hlb _ _ (by omega) (by omega)

theorem discountFwd_spec (h : EventsOk dim polys ev s t loc) {k : Nat} : ∀ r e, e + r = 2 * polys.length → k < e → loc (e - 1) = loc k →
    ∀ pos, pos = (cnt polys.length fun j => e ≤ t j) →
    ∃ e', discountFwd ev r e pos = some (e', cnt polys.length fun j => e' ≤ t j) ∧ k < e' ∧ e' ≤ 2 * polys.length ∧ loc (e' - 1) = loc k ∧
      (e' = 2 * polys.length ∨ loc k < loc e') := by
  intro r
  induction r with
  | zero =>
    intro e he hk hl pos hpos
    exact ⟨e, by unfold discountFwd; rw [hpos], hk, by omega, hl, Or.inl (by omega)⟩
  | succ r ih =>
    intro e he hk hl pos hpos
    obtain ⟨p, hp⟩ : ∃ p, ev[e]? = some p := ⟨_, List.getElem?_eq_getElem (by rw [h.length]; omega)⟩
    have hnew := h.newLoc e p hp
    have hle := h.sorted (e - 1) e (by omega) (by rw [h.length]; omega)
    unfold discountFwd
    simp only [hp]
    by_cases hn : p.newLoc = true
    · rw [if_pos hn]
      refine ⟨e, by rw [hpos], hk, by omega, hl, Or.inr ?_⟩
      rcases hnew.1 hn with h1 | h1
      · omega
      · rwa [← hl]
    · rw [if_neg hn]
      have hle' : loc (e + 1 - 1) = loc k := by
        rw [← hl]
        exact le_antisymm (not_lt.1 fun hh => hn (hnew.2 (Or.inr hh))) hle
      have c := cnt_ge h hp
      cases hs : p.start with
      | true =>
        rw [hs] at c
        simp only [if_true, Nat.add_zero] at c
        simp only [Bool.not_true, Bool.false_eq_true, if_false]
        exact ih (e + 1) (by omega) (by omega) hle' _ (by omega)
      | false =>
        rw [hs] at c
        simp only [Bool.false_eq_true, if_false] at c
        simp only [Bool.not_false, if_true]
        rw [if_neg (by omega)]
        exact ih (e + 1) (by omega) (by omega) hle' _ (by omega)

/-- The flat polygons whose start is behind the split event. -/
theorem extra_spec (h : EventsOk dim polys ev s t loc) {k e : Nat} (he : e ≤ 2 * polys.length) :
    ((List.range e).countP fun i => decide (k ≤ i) && startsBorder ev e i) = cnt polys.length fun j => k ≤ s j ∧ s j < e ∧ t j < e := by
  classical
  have e1 : ((List.range e).countP fun i => decide (k ≤ i) && startsBorder ev e i) = ((Finset.range e).filter fun i => (decide (k ≤ i) && startsBorder ev e i) = true).card := by
    rw [Finset.card_def, Finset.filter_val, Finset.range_val, Multiset.range, Multiset.filter_coe, Multiset.coe_card, List.countP_eq_length_filter]
    simp
  rw [e1]
  unfold cnt
  symm
  refine Finset.card_bij (fun j _ => s j) ?_ ?_ ?_
  · intro j hj
    simp only [Finset.mem_filter, Finset.mem_range] at hj ⊢
    obtain ⟨p, hp⟩ := EventsOk.poly hj.1
    obtain ⟨b, hb, -⟩ := h.starts j p hp
    refine ⟨hj.2.2.1, ?_⟩
    simp [startsBorder, hb, hj.2.1, hj.2.2.2]
  · intro i hi j hj hij
    simp only [Finset.mem_filter, Finset.mem_range] at hi hj
    exact h.s_inj hi.1 hj.1 hij
  · intro i hi
    simp only [Finset.mem_filter, Finset.mem_range, Bool.and_eq_true, decide_eq_true_eq] at hi
    obtain ⟨x, hx⟩ : ∃ x, ev[i]? = some x := ⟨_, List.getElem?_eq_getElem (by rw [h.length]; omega)⟩
    obtain ⟨h1, h2, h3⟩ := hi
    rw [startsBorder, hx] at h3
    simp only [Bool.and_eq_true, decide_eq_true_eq] at h3
    obtain ⟨a, ha, ⟨g1, g2, g3⟩ | ⟨g1, -⟩⟩ := h.event hx
    · refine ⟨a, ?_, g2.symm⟩
      simp only [Finset.mem_filter, Finset.mem_range]
      exact ⟨ha, by omega, by omega, by omega⟩
    · rw [g1] at h3; simp at h3

theorem discountBorder_spec (h : EventsOk dim polys ev s t loc) {r : EPart} (hc : Candidate ev r.split.toNat)
    (hneg : r.neg = cnt polys.length fun i => s i ≤ r.split.toNat) (hpos : r.pos = cnt polys.length fun i => r.split.toNat < t i)
    (hbor : r.border = 0) :
    ∃ r', discountBorder ev polys.length r = some r' ∧ DiscountOk dim polys loc (loc r.split.toNat) r' ∧
      r' = { r with neg := r'.neg, pos := r'.pos, border := r'.border, locBegin := r'.locBegin, locEnd := r'.locEnd } := by
  set k := r.split.toNat with hk
  obtain ⟨ek, hek, heks, -⟩ := hc
  have hklt : k < 2 * polys.length := by
    have := (List.getElem?_eq_some_iff.1 hek).1
    rwa [h.length] at this
  obtain ⟨a, ha, ⟨g1, -⟩ | ⟨-, g2, -⟩⟩ := h.event hek
  · rw [heks] at g1; simp at g1
  obtain ⟨b, hb1, hb2, hb3, hb4⟩ := discountBack_spec h k le_rfl hklt rfl r.neg r.border (by
    rw [hneg]
    refine cnt_congr fun j hj => ?_
    have := h.s_ne_t hj ha
    omega) (by rw [hbor, cnt_zero]; intro i _; omega)
  obtain ⟨e, he1, he2, he3, he4, he5⟩ := discountFwd_spec h (k := k) (2 * polys.length - (k + 1)) (k + 1) (by omega) (by omega) (by simp) r.pos (by rw [hpos]; rfl)
  have hlow : ∀ j < 2 * polys.length, (j < b ↔ loc j < loc k) := by
    intro j hj
    constructor
    · intro hjb
      rcases hb4 with h0 | h0
      · omega
      · exact lt_of_le_of_lt (h.sorted j (b - 1) (by omega) (by rw [h.length]; omega)) h0
    · intro hlt
      by_contra hge
      have := h.sorted b j (by omega) (by rw [h.length]; omega)
      rw [hb3] at this
      exact absurd hlt (not_lt.2 this)
  have hhigh : ∀ j < 2 * polys.length, (e ≤ j ↔ loc k < loc j) := by
    intro j hj
    constructor
    · intro hej
      rcases he5 with h0 | h0
      · omega
      · exact lt_of_lt_of_le h0 (h.sorted e j hej (by rw [h.length]; omega))
    · intro hlt
      by_contra hge
      have := h.sorted j (e - 1) (by omega) (by rw [h.length]; omega)
      rw [he4] at this
      exact absurd hlt (not_lt.2 this)
  unfold discountBorder
  simp only [← hk, hb1, he1]
  refine ⟨_, rfl, ⟨?_, ?_, ?_, ?_, ?_⟩, rfl⟩
  · simp only
    rw [countP_cnt]
    refine cnt_congr fun j hj => ?_
    obtain ⟨p, hp⟩ := EventsOk.poly hj
    obtain ⟨_, -, hl⟩ := h.starts j p hp
    rw [hlow _ (h.s_lt hj), hp, hl]
    simp
  · simp only
    rw [countP_cnt]
    refine cnt_congr fun j hj => ?_
    obtain ⟨p, hp⟩ := EventsOk.poly hj
    obtain ⟨_, -, hl⟩ := h.ends j p hp
    rw [hhigh _ (h.t_lt hj), hp, hl]
    simp
  · simp only
    rw [extra_spec h he3, countP_cnt]
    symm
    apply cnt_add
    · intro j hj
      obtain ⟨p, hp⟩ := EventsOk.poly hj
      obtain ⟨_, -, hl1⟩ := h.starts j p hp
      obtain ⟨_, -, hl2⟩ := h.ends j p hp
      have sl := hlow _ (h.s_lt hj)
      have tl := hlow _ (h.t_lt hj)
      have sh := hhigh _ (h.s_lt hj)
      have th := hhigh _ (h.t_lt hj)
      have hlt := h.before j hj
      have hle := h.sorted (s j) (t j) hlt.le (by rw [h.length]; exact h.t_lt hj)
      rw [hp]
      simp only [Option.some.injEq, exists_eq_left', decide_eq_true_eq, ← hl1, ← hl2]
      constructor
      · rintro ⟨g3, g4⟩
        have n1 : ¬ s j < b := by rw [sl, g3]; exact lt_irrefl _
        have n2 : ¬ e ≤ t j := by rw [th, g4]; exact lt_irrefl _
        rcases Nat.lt_or_ge (s j) k with g5 | g5
        · exact Or.inl ⟨by omega, g5⟩
        · exact Or.inr ⟨g5, by omega, by omega⟩
      · rintro (⟨g3, g4⟩ | ⟨g3, g4, g5⟩)
        · have s1 : loc (s j) = loc k := by
            refine le_antisymm ?_ (not_lt.1 fun hh => ?_)
            · exact h.sorted _ _ g4.le (by rw [h.length]; exact hklt)
            · have := sl.2 hh; omega
          refine ⟨s1, ?_⟩
          rw [← h.ties j hj a ha (by rw [s1, g2]) (by omega), s1]
        · have t1 : loc (t j) ≤ loc k := not_lt.1 fun hh => by have := th.2 hh; omega
          have s1 : loc k ≤ loc (s j) := h.sorted _ _ g3 (by rw [h.length]; exact h.s_lt hj)
          exact ⟨le_antisymm (hle.trans t1) s1, le_antisymm t1 (s1.trans hle)⟩
    · rintro j hj ⟨g1, g2⟩ ⟨g3, -⟩
      omega
  · intro j hj
    simp only
    have sl := hlow _ hj
    have sh := hhigh _ hj
    constructor
    · rintro ⟨g1, g2⟩
      refine le_antisymm (not_lt.1 fun hh => ?_) (not_lt.1 fun hh => ?_)
      · have := sh.2 hh; omega
      · have := sl.2 hh; omega
    · intro g
      have n1 : ¬ j < b := by rw [sl, g]; exact lt_irrefl _
      have n2 : ¬ e ≤ j := by rw [sh, g]; exact lt_irrefl _
      omega
  · exact ⟨by simp only; omega, he3⟩

theorem eventPlane_spec (h : EventsOk dim polys ev s t loc) (hx : Extents dim polys) {r : EPart} (hc : Candidate ev r.split.toNat) :
    ∃ H, eventPlane dim polys ev r = some H ∧ ∀ q : Q3, (H.side q = 0 ↔ q dim = loc r.split.toNat) ∧ (H.side q < 0 ↔ q dim < loc r.split.toNat) := by
  obtain ⟨e, he, hes, -⟩ := hc
  obtain ⟨a, ha, ⟨g1, -⟩ | ⟨-, g2, g3⟩⟩ := h.event he
  · rw [hes] at g1; simp at g1
  obtain ⟨p, hp⟩ := EventsOk.poly ha
  obtain ⟨_, -, hl⟩ := h.ends a p hp
  have hw := (hx p (List.mem_of_getElem? hp)).2.1
  have hpt : loc r.split.toNat = (p.hi.v.comp dim : ℚ) / p.hi.w := by rw [g2, hl]; rfl
  unfold eventPlane
  have hloc : e.location polys ev = some p.hi := by
    unfold EP.location; rw [if_neg (by simp [hes]), g3, hp]; rfl
  simp only [he, hes, Bool.false_eq_true, if_false, hloc]
  have key : ∀ (num den : Int), 0 < den → loc r.split.toNat = (num : ℚ) / den → ∀ q : Q3,
      ((HS3.axisAligned dim num den).side q = 0 ↔ q dim = loc r.split.toNat) ∧
      ((HS3.axisAligned dim num den).side q < 0 ↔ q dim < loc r.split.toNat) := by
    intro num den hd hlq q
    have hd' : (0 : ℚ) < den := by exact_mod_cast hd
    have e1 : (HS3.axisAligned dim num den).side q = den * q dim - num :=
      C62_axis_aligned dim num den q
    rw [e1, hlq, eq_div_iff hd'.ne', lt_div_iff₀ hd', sub_eq_zero, sub_neg, mul_comm]
    exact ⟨Iff.rfl, Iff.rfl⟩
  by_cases hneg : p.hi.w < 0
  · rw [if_pos hneg]
    exact ⟨_, rfl, key _ _ (by omega) (by rw [hpt]; push_cast; rw [neg_div_neg_eq])⟩
  · rw [if_neg hneg]
    exact ⟨_, rfl, key _ _ (by omega) hpt⟩

end Walnut.Bsp
