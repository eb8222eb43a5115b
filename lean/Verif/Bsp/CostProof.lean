/- The lowest cost split and the counts of its polygons. -/
import Verif.Bsp.CostSpec
import Verif.Props.Estimator
import Mathlib.Data.Finset.Image
import Mathlib.Data.Finset.Prod

namespace Walnut.Bsp
open Walnut.Geom Walnut.Props

variable {dim : Fin 3} {polys : List EPoly} {ev : List EP} {s t : Nat → Nat} {loc : Nat → ℚ} {excl : Option Nat}

theorem cnt_congr {n : Nat} {P Q : Nat → Prop} (h : ∀ i < n, (P i ↔ Q i)) : cnt n P = cnt n Q := by
  classical
  unfold cnt
  congr 1
  apply Finset.filter_congr
  intro i hi
  exact h i (by simpa using hi)

theorem cnt_le (n : Nat) (P : Nat → Prop) : cnt n P ≤ n := by
  classical
  unfold cnt
  exact (Finset.card_filter_le _ _).trans (by simp)

theorem cnt_mono {n : Nat} {P Q : Nat → Prop} (h : ∀ i < n, P i → Q i) : cnt n P ≤ cnt n Q := by
  classical
  unfold cnt
  apply Finset.card_le_card
  intro i hi
  simp only [Finset.mem_filter, Finset.mem_range] at hi ⊢
  exact ⟨hi.1, h i hi.1 hi.2⟩

theorem cnt_all {n : Nat} {P : Nat → Prop} (h : ∀ i < n, P i) : cnt n P = n := by
  classical
  unfold cnt
  rw [Finset.filter_true_of_mem (fun i hi => h i (by simpa using hi))]; simp

theorem cnt_zero {n : Nat} {P : Nat → Prop} (h : ∀ i < n, ¬ P i) : cnt n P = 0 := by
  classical
  unfold cnt
  rw [Finset.filter_false_of_mem (fun i hi => h i (by simpa using hi))]; simp

theorem cnt_add {n : Nat} {P Q R : Nat → Prop} (h : ∀ i < n, (R i ↔ P i ∨ Q i)) (hd : ∀ i < n, P i → ¬ Q i) :
    cnt n R = cnt n P + cnt n Q := by
  classical
  unfold cnt
  rw [← Finset.card_union_of_disjoint]
  · congr 1
    ext i
    simp only [Finset.mem_filter, Finset.mem_range, Finset.mem_union]
    constructor
    · rintro ⟨h1, h2⟩
      rcases (h i h1).1 h2 with h3 | h3
      · exact Or.inl ⟨h1, h3⟩
      · exact Or.inr ⟨h1, h3⟩
    · rintro (⟨h1, h2⟩ | ⟨h1, h2⟩)
      · exact ⟨h1, (h i h1).2 (Or.inl h2)⟩
      · exact ⟨h1, (h i h1).2 (Or.inr h2)⟩
  · rw [Finset.disjoint_left]
    intro i hi hi'
    simp only [Finset.mem_filter, Finset.mem_range] at hi hi'
    exact hd i hi.1 hi.2 hi'.2

theorem cnt_one {n a : Nat} {P : Nat → Prop} (ha : a < n) (h : ∀ i < n, (P i ↔ i = a)) : cnt n P = 1 := by
  classical
  unfold cnt
  rw [Finset.card_eq_one]
  refine ⟨a, ?_⟩
  ext i
  simp only [Finset.mem_filter, Finset.mem_range, Finset.mem_singleton]
  constructor
  · rintro ⟨h1, h2⟩; exact (h i h1).1 h2
  · rintro rfl; exact ⟨ha, (h i ha).2 rfl⟩

theorem countP_cnt {α : Type} (l : List α) (p : α → Bool) :
    l.countP p = cnt l.length fun i => ∃ x, l[i]? = some x ∧ p x = true := by
  induction l using List.reverseRecOn with
  | nil => symm; apply cnt_zero; intro i hi; simp at hi
  | append_singleton l x ih =>
    rw [List.countP_append, ih]
    have e : ∀ i < (l ++ [x]).length, ((∃ y, (l ++ [x])[i]? = some y ∧ p y = true) ↔
        ((i < l.length ∧ ∃ y, l[i]? = some y ∧ p y = true) ∨ (i = l.length ∧ p x = true))) := by
      intro i hi
      simp only [List.length_append, List.length_singleton] at hi
      by_cases h : i < l.length
      · rw [List.getElem?_append_left h]
        simp [h]; omega
      · obtain rfl : i = l.length := by omega
        simp
    rw [cnt_add e (by intro i _ h1 h2; omega)]
    congr 1
    · classical
      unfold cnt
      congr 1
      ext i
      simp only [Finset.mem_filter, Finset.mem_range, List.length_append, List.length_singleton]
      constructor
      · rintro ⟨h1, h2⟩; exact ⟨by omega, h1, h2⟩
      · rintro ⟨h1, h2, h3⟩; exact ⟨h2, h3⟩
    · cases hx : p x with
      | true =>
        rw [cnt_one (a := l.length) (by simp) (by intro i _; simp)]
        simp [hx]
      | false =>
        rw [cnt_zero (by intro i _; simp)]
        simp [hx]

namespace EventsOk

theorem poly (h : i < polys.length) : ∃ p, polys[i]? = some p := ⟨_, List.getElem?_eq_getElem h⟩

theorem s_inj (h : EventsOk dim polys ev s t loc) {i j : Nat} (hi : i < polys.length) (hj : j < polys.length) (e : s i = s j) : i = j := by
  obtain ⟨p, hp⟩ := poly hi
  obtain ⟨q, hq⟩ := poly hj
  obtain ⟨b, h1, -⟩ := h.starts i p hp
  obtain ⟨b', h2, -⟩ := h.starts j q hq
  rw [e, h2] at h1
  simp only [Option.some.injEq, EP.mk.injEq, true_and] at h1
  obtain ⟨c, h3, -⟩ := h.ends i p hp
  obtain ⟨c', h4, -⟩ := h.ends j q hq
  rw [← h1.2, h4] at h3
  simp only [Option.some.injEq, EP.mk.injEq, true_and] at h3
  exact h3.2.symm

theorem t_inj (h : EventsOk dim polys ev s t loc) {i j : Nat} (hi : i < polys.length) (hj : j < polys.length) (e : t i = t j) : i = j := by
  obtain ⟨p, hp⟩ := poly hi
  obtain ⟨q, hq⟩ := poly hj
  obtain ⟨c, h3, -⟩ := h.ends i p hp
  obtain ⟨c', h4, -⟩ := h.ends j q hq
  rw [e, h4] at h3
  simp only [Option.some.injEq, EP.mk.injEq, true_and] at h3
  exact h3.2.symm

theorem s_ne_t (h : EventsOk dim polys ev s t loc) {i j : Nat} (hi : i < polys.length) (hj : j < polys.length) : s i ≠ t j := by
  intro e
  obtain ⟨p, hp⟩ := poly hi
  obtain ⟨q, hq⟩ := poly hj
  obtain ⟨b, h1, -⟩ := h.starts i p hp
  obtain ⟨c', h4, -⟩ := h.ends j q hq
  rw [e, h4] at h1
  simp at h1

theorem t_lt (h : EventsOk dim polys ev s t loc) {i : Nat} (hi : i < polys.length) : t i < 2 * polys.length := by
  obtain ⟨p, hp⟩ := poly hi
  obtain ⟨b, h1, -⟩ := h.ends i p hp
  have := (List.getElem?_eq_some_iff.1 h1).1
  rwa [h.length] at this

theorem s_lt (h : EventsOk dim polys ev s t loc) {i : Nat} (hi : i < polys.length) : s i < 2 * polys.length :=
  (h.before i hi).trans (h.t_lt hi)

theorem event (h : EventsOk dim polys ev s t loc) {k : Nat} {e : EP} (he : ev[k]? = some e) :
    ∃ i < polys.length, (e.start = true ∧ k = s i ∧ e.index = t i) ∨ (e.start = false ∧ k = t i ∧ e.index = i) := by
  obtain ⟨i, hi, hk⟩ := h.all k (List.getElem?_eq_some_iff.1 he).1
  obtain ⟨p, hp⟩ := poly hi
  refine ⟨i, hi, ?_⟩
  rcases hk with rfl | rfl
  · obtain ⟨b, h1, -⟩ := h.starts i p hp
    rw [he] at h1
    cases h1
    exact Or.inl ⟨rfl, rfl, rfl⟩
  · obtain ⟨b, h1, -⟩ := h.ends i p hp
    rw [he] at h1
    cases h1
    exact Or.inr ⟨rfl, rfl, rfl⟩

end EventsOk

/-- The number after a start. -/
theorem cnt_start (h : EventsOk dim polys ev s t loc) {i : Nat} (hi : i < polys.length) (C : Nat → Prop) (hc : C i) :
    cnt polys.length (fun j => s j < s i + 1 ∧ C j) = cnt polys.length (fun j => s j < s i ∧ C j) + 1 := by
  rw [cnt_add (P := fun j => s j < s i ∧ C j) (Q := fun j => j = i), cnt_one hi fun j _ => Iff.rfl]
  · intro j hj
    constructor
    · rintro ⟨h1, h2⟩
      rcases Nat.lt_or_eq_of_le (Nat.le_of_lt_succ h1) with h3 | h3
      · exact Or.inl ⟨h3, h2⟩
      · exact Or.inr (h.s_inj hj hi h3)
    · rintro (⟨h1, h2⟩ | rfl)
      · exact ⟨by omega, h2⟩
      · exact ⟨by omega, hc⟩
  · rintro j _ ⟨h1, _⟩ rfl
    omega

theorem cnt_start_not (h : EventsOk dim polys ev s t loc) {k : Nat} (C : Nat → Prop) (hk : ∀ j < polys.length, C j → s j ≠ k) :
    cnt polys.length (fun j => s j < k + 1 ∧ C j) = cnt polys.length (fun j => s j < k ∧ C j) :=
  cnt_congr fun j hj => ⟨fun ⟨h1, h2⟩ => ⟨by have := hk j hj h2; omega, h2⟩, fun ⟨h1, h2⟩ => ⟨by omega, h2⟩⟩

theorem cnt_end (h : EventsOk dim polys ev s t loc) {i : Nat} (hi : i < polys.length) (C : Nat → Prop) (hc : C i) :
    cnt polys.length (fun j => t i ≤ t j ∧ C j) = cnt polys.length (fun j => t i + 1 ≤ t j ∧ C j) + 1 := by
  rw [cnt_add (P := fun j => t i + 1 ≤ t j ∧ C j) (Q := fun j => j = i), cnt_one hi fun j _ => Iff.rfl]
  · intro j hj
    constructor
    · rintro ⟨h1, h2⟩
      rcases Nat.lt_or_eq_of_le h1 with h3 | h3
      · exact Or.inl ⟨h3, h2⟩
      · exact Or.inr (h.t_inj hj hi h3.symm)
    · rintro (⟨h1, h2⟩ | rfl)
      · exact ⟨by omega, h2⟩
      · exact ⟨by omega, hc⟩
  · rintro j _ ⟨h1, _⟩ rfl
    omega

theorem cnt_end_not {k : Nat} (C : Nat → Prop) (hk : ∀ j < polys.length, C j → t j ≠ k) :
    cnt polys.length (fun j => k ≤ t j ∧ C j) = cnt polys.length (fun j => k + 1 ≤ t j ∧ C j) :=
  cnt_congr fun j hj => ⟨fun ⟨h1, h2⟩ => ⟨by have := hk j hj h2; omega, h2⟩, fun ⟨h1, h2⟩ => ⟨by omega, h2⟩⟩

/-! ### The estimates -/

theorem estCost_le {m n : Nat} (hn : n ≠ 0) (hn' : n < 2 ^ 57) : estCost m n ≤ 58 * m := by
  have h1 : n < 2 ^ (Nat.log2 n + 1) := Nat.lt_log2_self
  have h2 : Nat.log2 n < 57 := (Nat.log2_lt hn).2 hn'
  have h3 : m * n / 2 ^ Nat.log2 n ≤ 2 * m := by
    rw [Nat.div_le_iff_le_mul_add_pred (by positivity)]
    rw [pow_succ] at h1
    have : m * n ≤ m * (2 ^ Nat.log2 n * 2) := Nat.mul_le_mul_left _ h1.le
    nlinarith [Nat.zero_le (2 ^ Nat.log2 n - 1)]
  have h4 : m * Nat.log2 n ≤ m * 57 := Nat.mul_le_mul_left _ h2.le
  unfold estCost
  omega

theorem estimate_nat {e : Int} (he : 0 ≤ e ∧ e < 64) {m n : Nat} (hm : m < 2 ^ 57) (hn : n ≠ 0) (hn' : n < 2 ^ 57) :
    ∃ r e', estimate e (BitVec.ofNat 64 m) (BitVec.ofNat 64 n) = some (r, e') ∧ (0 ≤ e' ∧ e' < 64) ∧ r.toNat = estCost m n := by
  have tm : (BitVec.ofNat 64 m).toNat = m := by rw [BitVec.toNat_ofNat, Nat.mod_eq_of_lt (by omega)]
  have tn : (BitVec.ofNat 64 n).toNat = n := by rw [BitVec.toNat_ofNat, Nat.mod_eq_of_lt (by omega)]
  obtain ⟨r, h1, h2⟩ := estimate_closed e he (BitVec.ofNat 64 m) (BitVec.ofNat 64 n) (by
    intro h
    have := congrArg BitVec.toNat h
    rw [tn] at this
    simp at this
    exact hn this)
  rw [tn] at h1
  rw [tm, tn] at h2
  refine ⟨r, _, h1, ⟨by positivity, ?_⟩, h2 (by omega)⟩
  have : Nat.log2 n < 57 := (Nat.log2_lt hn).2 hn'
  omega

/-! ### The loop -/

/-- The state before event `i`. -/
structure ScanInv (excl : Option Nat) (polys : List EPoly) (ev : List EP) (s t : Nat → Nat) (i : Nat) (st : Scan) : Prop where
  neg : st.neg = cnt polys.length fun j => s j < i
  pos : st.pos = cnt polys.length fun j => i ≤ t j
  negLog : st.negLog = cnt polys.length (fun j => s j < i ∧ Other excl polys j) + 1
  posLog : st.posLog = cnt polys.length (fun j => i ≤ t j ∧ Other excl polys j) + 1
  negEst : 0 ≤ st.negEst ∧ st.negEst < 64
  posEst : 0 ≤ st.posEst ∧ st.posEst < 64
  lastEnd : st.lastEnd = true ↔ ∃ e, 0 < i ∧ ev[i - 1]? = some e ∧ e.start = false

/-- The best split before event `i`. -/
def BestInv (excl : Option Nat) (polys : List EPoly) (ev : List EP) (s t : Nat → Nat) (i : Nat) (r : EPart) : Prop :=
  (r = { split := BitVec.allOnes 64, cost := BitVec.allOnes 64, negCost := BitVec.allOnes 64, posCost := BitVec.allOnes 64 } ∧
    ∀ k, k + 1 < i → ¬ Candidate ev k) ∨
  (Candidate ev r.split.toNat ∧ r.split.toNat + 1 < i ∧
    r.neg = (cnt polys.length fun j => s j ≤ r.split.toNat) ∧ r.pos = (cnt polys.length fun j => r.split.toNat < t j) ∧ r.border = 0 ∧
    r.negCost.toNat = negCost excl polys s r.split.toNat ∧ r.posCost.toNat = posCost excl polys t r.split.toNat ∧
    r.cost.toNat = r.negCost.toNat + r.posCost.toNat ∧
    (∀ k, k + 1 < i → Candidate ev k → r.cost.toNat ≤ negCost excl polys s k + posCost excl polys t k) ∧
    (∀ k < r.split.toNat, Candidate ev k → r.cost.toNat < negCost excl polys s k + posCost excl polys t k))

theorem BestInv.skip {r : EPart} {i : Nat} (h : BestInv excl polys ev s t (i + 1) r) (hc : ¬ Candidate ev i) : BestInv excl polys ev s t (i + 2) r := by
  rcases h with ⟨h1, h2⟩ | ⟨h1, h2, h3, h4, h5, h6, h7, h8, h9, h10⟩
  · refine Or.inl ⟨h1, fun k hk hck => ?_⟩
    rcases Nat.lt_or_ge k i with h | h
    · exact h2 k (by omega) hck
    · obtain rfl : k = i := by omega
      exact hc hck
  · refine Or.inr ⟨h1, by omega, h3, h4, h5, h6, h7, h8, fun k hk hck => ?_, h10⟩
    rcases Nat.lt_or_ge k i with h | h
    · exact h9 k (by omega) hck
    · obtain rfl : k = i := by omega
      exact absurd hck hc

/-- Evaluation of a candidate. -/
theorem consider_spec (hn : polys.length < 2 ^ 56) {i : Nat} {st : Scan} (h : ScanInv excl polys ev s t (i + 1) st)
    (hb : BestInv excl polys ev s t (i + 1) st.best) (hc : Candidate ev i) (hi : i < 2 * polys.length) :
    ∃ st', st.consider (i + 1) = some st' ∧ ScanInv excl polys ev s t (i + 1) st' ∧ st'.lastEnd = st.lastEnd ∧
      BestInv excl polys ev s t (i + 2) st'.best := by
  have c1 := cnt_le polys.length fun j => s j < i + 1
  have c2 := cnt_le polys.length fun j => i + 1 ≤ t j
  have c3 := cnt_le polys.length (fun j => s j < i + 1 ∧ Other excl polys j)
  have c4 := cnt_le polys.length (fun j => i + 1 ≤ t j ∧ Other excl polys j)
  obtain ⟨nc, ne, e1, e2, e3⟩ := estimate_nat h.negEst (m := st.neg) (n := st.negLog) (by rw [h.neg]; omega) (by rw [h.negLog]; omega) (by rw [h.negLog]; omega)
  obtain ⟨pc, pe, f1, f2, f3⟩ := estimate_nat h.posEst (m := st.pos) (n := st.posLog) (by rw [h.pos]; omega) (by rw [h.posLog]; omega) (by rw [h.posLog]; omega)
  have nle : estCost st.neg st.negLog ≤ 58 * st.neg := estCost_le (by rw [h.negLog]; omega) (by rw [h.negLog]; omega)
  have ple : estCost st.pos st.posLog ≤ 58 * st.pos := estCost_le (by rw [h.posLog]; omega) (by rw [h.posLog]; omega)
  have hnc : nc.toNat = negCost excl polys s i := by
    rw [e3, h.neg, h.negLog]
    unfold negCost
    simp only [Nat.lt_succ_iff]
  have hpc : pc.toNat = posCost excl polys t i := by
    rw [f3, h.pos, h.posLog]
    rfl
  have hn1 : st.neg < 2 ^ 56 := by rw [h.neg]; omega
  have hn2 : st.pos < 2 ^ 56 := by rw [h.pos]; omega
  have hsum : (nc + pc).toNat = nc.toNat + pc.toNat := by
    rw [BitVec.toNat_add, Nat.mod_eq_of_lt]
    rw [e3, f3]; omega
  have hlt : (nc + pc).toNat < 2 ^ 64 - 1 := by rw [hsum, e3, f3]; omega
  have hsplit : (BitVec.ofNat 64 (i + 1) - 1#64).toNat = i := by
    rw [BitVec.toNat_sub]
    simp only [BitVec.toNat_ofNat]
    omega
  unfold Scan.consider
  simp only [e1, f1]
  refine ⟨_, rfl, ⟨h.neg, h.pos, h.negLog, h.posLog, e2, f2, h.lastEnd⟩, rfl, ?_⟩
  simp only
  by_cases hcost : (nc + pc).toNat < st.best.cost.toNat
  · rw [if_pos hcost]
    refine Or.inr ?_
    simp only [hsplit]
    refine ⟨hc, by omega, ?_, ?_, ?_, hnc, hpc, hsum, ?_, ?_⟩
    · rw [h.neg]; simp only [Nat.lt_succ_iff]
    · rw [h.pos]; rfl
    · rcases hb with ⟨h1, -⟩ | ⟨-, -, -, -, h5, -⟩
      · rw [h1]
      · exact h5
    · intro k hk hck
      rcases Nat.lt_or_ge k i with hlt' | hge
      · rcases hb with ⟨h1, h2⟩ | ⟨-, -, -, -, -, -, -, -, h9, -⟩
        · exact absurd hck (h2 k (by omega))
        · exact hcost.le.trans (h9 k (by omega) hck)
      · obtain rfl : k = i := by omega
        rw [hsum, hnc, hpc]
    · intro k hk hck
      rcases hb with ⟨h1, h2⟩ | ⟨-, -, -, -, -, -, -, -, h9, -⟩
      · exact absurd hck (h2 k (by omega))
      · exact lt_of_lt_of_le hcost (h9 k (by omega) hck)
  · rw [if_neg hcost]
    rcases hb with ⟨h1, -⟩ | ⟨h1, h2, h3, h4, h5, h6, h7, h8, h9, h10⟩
    · exfalso
      apply hcost
      rw [h1]
      simpa using hlt
    · refine Or.inr ⟨h1, by omega, h3, h4, h5, h6, h7, h8, fun k hk hck => ?_, h10⟩
      rcases Nat.lt_or_ge k i with hlt' | hge
      · exact h9 k (by omega) hck
      · obtain rfl : k = i := by omega
        rw [← hnc, ← hpc, ← hsum]; omega

theorem step_spec (h : EventsOk dim polys ev s t loc) (hn : polys.length < 2 ^ 56) {i : Nat} (hi : i < 2 * polys.length) {st : Scan}
    (hs : ScanInv excl polys ev s t i st) (hb : BestInv excl polys ev s t i st.best) :
    ∃ st', st.step excl polys ev i = some st' ∧ ScanInv excl polys ev s t (i + 1) st' ∧ BestInv excl polys ev s t (i + 1) st'.best := by
  obtain ⟨e, he⟩ : ∃ e, ev[i]? = some e := ⟨_, List.getElem?_eq_getElem (by rw [h.length]; exact hi)⟩
  obtain ⟨a, ha, hev⟩ := h.event he
  obtain ⟨q, hq⟩ := EventsOk.poly ha
  have hother : Other excl polys a ↔ some q.id ≠ excl := by
    unfold Other; rw [hq]; simp
  have hcand : ∀ k, k + 1 = i → e.start = false → ¬ Candidate ev k := by
    rintro k rfl hes ⟨x, -, -, hx⟩
    have := hx e he
    rw [hes] at this; simp at this
  unfold Scan.step
  simp only [he]
  rcases hev with ⟨h1, rfl, h3⟩ | ⟨h1, rfl, h3⟩
  · -- a start
    rw [if_pos h1]
    obtain ⟨st1, hst1, hs1, hb1⟩ : ∃ st1, (if st.lastEnd then (st.consider (s a)).map fun st => { st with lastEnd := false } else some st) = some st1 ∧
        (ScanInv excl polys ev s t (s a) { st1 with lastEnd := st.lastEnd } ∧ st1.lastEnd = false) ∧ BestInv excl polys ev s t (s a + 1) st1.best := by
      cases hl : st.lastEnd with
      | true =>
        rw [if_pos rfl]
        obtain ⟨x, hx0, hx1, hx2⟩ := hs.lastEnd.1 hl
        obtain ⟨k, hk⟩ : ∃ k, s a = k + 1 := ⟨s a - 1, by omega⟩
        rw [hk] at hs hb hx1 hi ⊢
        rw [hk] at he
        obtain ⟨st', g1, g2, g3, g4⟩ := consider_spec hn hs hb ⟨x, hx1, hx2, fun e' he' => by rw [he] at he'; cases he'; exact h1⟩ (by omega)
        refine ⟨{ st' with lastEnd := false }, by rw [g1]; rfl, ⟨?_, rfl⟩, g4⟩
        rw [hl] at g3
        have : ({ { st' with lastEnd := false } with lastEnd := true } : Scan) = st' := by rw [← g3]
        rw [this]; exact g2
      | false =>
        refine ⟨st, by simp, ⟨?_, hl⟩, ?_⟩
        · have : ({ st with lastEnd := false } : Scan) = st := by rw [← hl]
          rw [this]; exact hs
        · rcases Nat.eq_zero_or_pos (s a) with h0 | h0
          · rcases hb with ⟨g1, g2⟩ | ⟨g1, g2, g3⟩
            · exact Or.inl ⟨g1, fun k hk => by omega⟩
            · omega
          · obtain ⟨k, hk⟩ : ∃ k, s a = k + 1 := ⟨s a - 1, by omega⟩
            rw [hk] at hb ⊢
            refine hb.skip fun ⟨x, hx1, hx2, _⟩ => ?_
            have := hs.lastEnd.2 ⟨x, h0, by rw [hk]; exact hx1, hx2⟩
            rw [hl] at this; simp at this
    simp only [hst1]
    obtain ⟨pe, hpe, -⟩ := h.ends a q hq
    rw [h3, hpe]
    simp only [hq]
    refine ⟨_, rfl, ?_, hb1⟩
    obtain ⟨g, hfalse⟩ := hs1
    have gneg := g.neg
    have gpos := g.pos
    have gnl := g.negLog
    have gpl := g.posLog
    simp only at gneg gpos gnl gpl
    refine ⟨?_, ?_, ?_, ?_, g.negEst, g.posEst, ?_⟩
    · have := cnt_start h ha (fun _ => True) trivial
      simp only [and_true] at this
      simp only [this, gneg]
    · have := cnt_end_not (t := t) (polys := polys) (k := s a) (fun _ => True) fun j hj _ => (h.s_ne_t ha hj).symm
      simp only [and_true] at this
      simp only [gpos, this]
    · simp only
      by_cases ho : some q.id ≠ excl
      · rw [if_pos ho, cnt_start h ha _ (hother.2 ho), gnl]
      · rw [if_neg ho, cnt_start_not h, gnl]
        intro j hj hj' hjs
        have := h.s_inj hj ha hjs
        subst this
        exact ho (hother.1 hj')
    · simp only
      rw [gpl, cnt_end_not]
      exact fun j hj _ => (h.s_ne_t ha hj).symm
    · simp only [hfalse, Nat.add_sub_cancel, he]
      simp [h1]
  · -- an end
    rw [if_neg (by simp [h1]), h3]
    simp only [hq]
    have p1 := cnt_end h ha (fun _ => True) trivial
    simp only [and_true] at p1
    have hpos := hs.pos
    rw [p1] at hpos
    have hpl := hs.posLog
    rw [if_neg (by rw [not_or]; exact ⟨by omega, fun hh => by omega⟩)]
    refine ⟨_, rfl, ⟨?_, ?_, ?_, ?_, hs.negEst, hs.posEst, ?_⟩, ?_⟩
    · have := cnt_start_not h (k := t a) (fun _ => True) fun j hj _ => h.s_ne_t hj ha
      simp only [and_true] at this
      simp only [this, hs.neg]
    · simp only; omega
    · simp only
      rw [hs.negLog, cnt_start_not h]
      exact fun j hj _ => h.s_ne_t hj ha
    · simp only
      by_cases ho : some q.id ≠ excl
      · rw [if_pos ho, hs.posLog, cnt_end h ha _ (hother.2 ho)]; rfl
      · rw [if_neg ho, hs.posLog, cnt_end_not]
        intro j hj hj' hjs
        have := h.t_inj hj ha hjs
        subst this
        exact ho (hother.1 hj')
    · simp only [Nat.add_sub_cancel, he]
      simp [h1]
    · simp only
      rcases Nat.eq_zero_or_pos (t a) with h0 | h0
      · rcases hb with ⟨g1, g2⟩ | ⟨g1, g2, g3⟩
        · exact Or.inl ⟨g1, fun k hk => by omega⟩
        · omega
      · obtain ⟨k, hk⟩ : ∃ k, t a = k + 1 := ⟨t a - 1, by omega⟩
        rw [hk] at hb ⊢
        exact hb.skip (hcand k hk.symm h1)

/-- The whole loop. -/
theorem scan_spec (h : EventsOk dim polys ev s t loc) (hn : polys.length < 2 ^ 56) (m : Nat) (hm : m ≤ 2 * polys.length) {st : Scan}
    (hs : ScanInv excl polys ev s t 0 st) (hb : BestInv excl polys ev s t 0 st.best) :
    ∃ st', (List.range m).foldlM (Scan.step excl polys ev) st = some st' ∧ ScanInv excl polys ev s t m st' ∧
      BestInv excl polys ev s t m st'.best := by
  induction m with
  | zero => exact ⟨st, by simp, hs, hb⟩
  | succ m ih =>
    obtain ⟨st1, h1, h2, h3⟩ := ih (by omega)
    obtain ⟨st2, h4, h5, h6⟩ := step_spec h hn (by omega) h2 h3
    exact ⟨st2, by rw [List.range_succ, List.foldlM_append, h1]; simp [h4], h5, h6⟩

theorem start_inv {c : Nat} (hc : c = polys.countP fun q => decide (some q.id = excl)) :
    ScanInv excl polys ev s t 0 ⟨0, polys.length, 1, polys.length - c + 1, { split := BitVec.allOnes 64, cost := BitVec.allOnes 64, negCost := BitVec.allOnes 64, posCost := BitVec.allOnes 64 }, 0, 0, false⟩ := by
  refine ⟨?_, ?_, ?_, ?_, by simp, by simp, by simp⟩
  · simp only; rw [cnt_zero]; intro i _; omega
  · simp only; rw [cnt_all]; intro i _; omega
  · simp only; rw [cnt_zero]; intro i _ hh; omega
  · simp only
    have e1 := cnt_add (n := polys.length) (R := fun _ => True) (P := fun i => ∃ x, polys[i]? = some x ∧ decide (some x.id = excl) = true)
      (Q := fun i => 0 ≤ t i ∧ Other excl polys i) (by
        intro i hi
        obtain ⟨p, hp⟩ := EventsOk.poly hi
        simp only [Other, hp]
        simp
        exact em _) (by
        intro i hi
        obtain ⟨p, hp⟩ := EventsOk.poly hi
        simp only [Other, hp]
        simp)
    rw [← countP_cnt, ← hc, cnt_all (fun _ _ => trivial)] at e1
    omega

/-- `GetLowestCost`. -/
theorem lowestCost_spec (h : EventsOk dim polys ev s t loc) (hn : polys.length < 2 ^ 56) (h0 : polys ≠ []) {c : Nat}
    (hc : c = polys.countP fun q => decide (some q.id = excl)) :
    ∃ r, lowestCost excl c polys ev = some r ∧ LowestOk excl polys ev s t r := by
  have hpos : 0 < polys.length := List.length_pos_iff.2 h0
  unfold lowestCost
  rw [if_neg (by rw [hc]; exact not_lt.2 List.countP_le_length)]
  obtain ⟨st, h1, h2, h3⟩ := scan_spec h hn _ le_rfl (start_inv hc) (Or.inl ⟨rfl, fun k hk => by omega⟩)
  simp only [h1]
  obtain ⟨N, hN⟩ : ∃ N, 2 * polys.length = N + 1 := ⟨2 * polys.length - 1, by omega⟩
  obtain ⟨e, he⟩ : ∃ e, ev[N]? = some e := ⟨_, List.getElem?_eq_getElem (by rw [h.length]; omega)⟩
  have hes : e.start = false := by
    obtain ⟨a, ha, h4 | h4⟩ := h.event he
    · have := h.before a ha
      have := h.t_lt ha
      omega
    · exact h4.1
  have hlast : st.lastEnd = true := h2.lastEnd.2 ⟨e, by omega, by rw [hN]; exact he, hes⟩
  rw [if_pos hlast]
  have hcand : Candidate ev N := ⟨e, he, hes, fun e' he' => by
    have := (List.getElem?_eq_some_iff.1 he').1
    rw [h.length] at this; omega⟩
  rw [hN] at h2 h3 ⊢
  obtain ⟨st', g1, g2, g3, g4⟩ := consider_spec hn h2 h3 hcand (by omega)
  refine ⟨st'.best, by rw [g1]; rfl, ?_⟩
  have hle : ∀ k, Candidate ev k → k + 1 < N + 2 := by
    rintro k ⟨x, hx, -⟩
    have := (List.getElem?_eq_some_iff.1 hx).1
    rw [h.length] at this; omega
  rcases g4 with ⟨-, hno⟩ | ⟨q1, q2, q3, q4, q5, q6, q7, q8, q9, q10⟩
  · exact absurd hcand (hno N (by omega))
  · exact ⟨q1, q3, q4, q5, q6, q7, q8, fun k hk => q9 k (hle k hk) hk, q10⟩

end Walnut.Bsp
