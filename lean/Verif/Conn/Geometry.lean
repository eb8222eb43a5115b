/- Points on a common line, and what splitting an edge does. -/
import Verif.Conn.Spec
import Verif.Conn.Cycle
import Verif.Props.Lines
import Verif.Props.Rational
import Mathlib.Tactic.FinCases

namespace Walnut.Conn
open Walnut.Geom Walnut.Props

namespace Net

variable {N : Net}

theorem Ok.next (h : N.Ok) {e : Nat} (he : e < N.count) :
    N.nextVertex e = some (N.target e) ∧ (N.target e).w ≠ 0 := by
  obtain ⟨f, h1, h2⟩ := succIn_some (h.mem e he)
  have := h.fin f (h.own _ _ h2).1
  simp [Net.target, Net.nextVertex, h1, this]

theorem Ok.beginLoc (h : N.Ok) {e : Nat} (he : e < N.count) (k : Fin 3) : N.beginLoc k e = some (N.loPt k e) := by
  unfold Net.beginLoc Net.loPt
  split
  · rfl
  · exact (h.next he).1

theorem Ok.endLoc (h : N.Ok) {e : Nat} (he : e < N.count) (k : Fin 3) : N.endLoc k e = some (N.hiPt k e) := by
  unfold Net.endLoc Net.hiPt
  split
  · exact (h.next he).1
  · rfl

/-- The result of `SplitEdge`. -/
def split (N : Net) (e : Nat) (mid : HP3) : Net := { N with
  count := N.count + 1
  vertex := Function.update N.vertex N.count mid
  line := Function.update N.line N.count (N.line e)
  poly := Function.update N.poly N.count (N.poly e)
  partner := Function.update N.partner N.count none
  cycle := Function.update N.cycle (N.poly e)
    ((N.cycle (N.poly e)).insertIdx ((N.cycle (N.poly e)).idxOf e + 1) N.count) }

theorem splitEdge_eq (h : N.Ok) {e : Nat} (he : e < N.count) (mid : HP3) :
    N.splitEdge e mid = if N.splitOk e mid (N.target e) then some (N.split e mid) else none := by
  unfold splitEdge
  rw [(h.next he).1]
  rfl

section split
variable (h : N.Ok) {e : Nat} (he : e < N.count) {mid : HP3} (hm : mid.w ≠ 0)
include h he

theorem split_new : N.count ∉ N.cycle (N.poly e) := fun hn => absurd (h.own _ _ hn).1 (by omega)

theorem split_ins :
    succIn ((N.cycle (N.poly e)).insertIdx ((N.cycle (N.poly e)).idxOf e + 1) N.count) e = some N.count ∧
    succIn ((N.cycle (N.poly e)).insertIdx ((N.cycle (N.poly e)).idxOf e + 1) N.count) N.count = succIn (N.cycle (N.poly e)) e ∧
    (∀ f ∈ N.cycle (N.poly e), f ≠ e →
      succIn ((N.cycle (N.poly e)).insertIdx ((N.cycle (N.poly e)).idxOf e + 1) N.count) f = succIn (N.cycle (N.poly e)) f) ∧
    ((N.cycle (N.poly e)).insertIdx ((N.cycle (N.poly e)).idxOf e + 1) N.count).Perm (N.count :: N.cycle (N.poly e)) ∧
    (N.cycle (N.poly e)).Sublist ((N.cycle (N.poly e)).insertIdx ((N.cycle (N.poly e)).idxOf e + 1) N.count) :=
  succIn_insert (h.mem e he) (split_new h he) (h.nodup _)

omit h he in
theorem split_poly {f : Nat} (hf : f < N.count) : (N.split e mid).poly f = N.poly f := by
  simp [split, Function.update_of_ne (Nat.ne_of_lt hf)]

omit h he in
theorem split_vertex {f : Nat} (hf : f < N.count) : (N.split e mid).vertex f = N.vertex f := by
  simp [split, Function.update_of_ne (Nat.ne_of_lt hf)]

omit h he in
theorem split_line {f : Nat} (hf : f < N.count) : (N.split e mid).line f = N.line f := by
  simp [split, Function.update_of_ne (Nat.ne_of_lt hf)]

theorem split_target {f : Nat} (hf : f < N.count) :
    (N.split e mid).target f = if f = e then mid else N.target f := by
  have ins := split_ins h he
  have hn := split_new h he
  unfold target nextVertex
  rw [split_poly hf, split_vertex hf]
  by_cases hp : N.poly f = N.poly e
  · have hc : (N.split e mid).cycle (N.poly f) = (N.cycle (N.poly e)).insertIdx ((N.cycle (N.poly e)).idxOf e + 1) N.count := by
      rw [hp]; simp [split]
    rw [hc]
    by_cases hfe : f = e
    · subst hfe
      rw [ins.1]
      simp [split]
    · have hmem := h.mem f hf
      rw [hp] at hmem
      rw [ins.2.2.1 f hmem hfe, if_neg hfe, hp]
      obtain ⟨g, hg, hg'⟩ := succIn_some hmem
      rw [hg]
      simp only [Option.map_some, Option.getD_some]
      exact split_vertex (h.own _ _ hg').1
  · have hc : (N.split e mid).cycle (N.poly f) = N.cycle (N.poly f) := by
      simp [split, Function.update_of_ne hp]
    rw [hc, if_neg (by rintro rfl; exact hp rfl)]
    obtain ⟨g, hg, hg'⟩ := succIn_some (h.mem f hf)
    rw [hg]
    simp only [Option.map_some, Option.getD_some]
    exact split_vertex (h.own _ _ hg').1

theorem split_target_new : (N.split e mid).target N.count = N.target e := by
  have ins := split_ins h he
  unfold target nextVertex
  have hp : (N.split e mid).poly N.count = N.poly e := by simp [split]
  have hc : (N.split e mid).cycle (N.poly e) = (N.cycle (N.poly e)).insertIdx ((N.cycle (N.poly e)).idxOf e + 1) N.count := by
    simp [split]
  rw [hp, hc, ins.2.1]
  obtain ⟨g, hg, hg'⟩ := succIn_some (h.mem e he)
  rw [hg]
  simp only [Option.map_some, Option.getD_some]
  exact split_vertex (h.own _ _ hg').1

include hm in
theorem split_ok : (N.split e mid).Ok := by
  have ins := split_ins h he
  have hn := split_new h he
  refine ⟨?_, ?_, ?_, ?_, ?_, ?_⟩
  · intro f hf
    by_cases hfn : f = N.count
    · subst hfn
      simp only [split, Function.update_self]
      exact ins.2.2.2.1.mem_iff.2 (by simp)
    · have hf' : f < N.count := by simp [split] at hf; omega
      rw [split_poly hf']
      have := h.mem f hf'
      by_cases hp : N.poly f = N.poly e
      · rw [hp] at this ⊢
        simp only [split, Function.update_self]
        exact ins.2.2.2.1.mem_iff.2 (by simp [this])
      · simpa [split, Function.update_of_ne hp] using this
  · intro p f hf
    by_cases hp : p = N.poly e
    · subst hp
      simp only [split, Function.update_self] at hf
      rcases List.mem_cons.1 (ins.2.2.2.1.mem_iff.1 hf) with rfl | hf
      · simp [split]
      · have := h.own _ _ hf
        exact ⟨by simp [split]; omega, by rw [split_poly this.1, this.2]⟩
    · simp only [split, Function.update_of_ne hp] at hf
      have := h.own _ _ hf
      exact ⟨by simp [split]; omega, by rw [split_poly this.1, this.2]⟩
  · intro p
    by_cases hp : p = N.poly e
    · subst hp
      simp only [split, Function.update_self]
      exact ins.2.2.2.1.nodup_iff.2 (List.nodup_cons.2 ⟨hn, h.nodup _⟩)
    · simpa only [split, Function.update_of_ne hp] using h.nodup p
  · intro f hf
    by_cases hfn : f = N.count
    · subst hfn
      simpa [split] using hm
    · have hf' : f < N.count := by simp [split] at hf; omega
      rw [split_vertex hf']
      exact h.fin f hf'
  · intro f g hfg
    by_cases hfn : f = N.count
    · subst hfn
      simp [split] at hfg
    · simp only [split, Function.update_of_ne hfn] at hfg ⊢
      have := h.exist _ _ hfg
      omega
  · intro f g hfg
    by_cases hfn : f = N.count
    · subst hfn
      simp [split] at hfg
    · simp only [split, Function.update_of_ne hfn] at hfg ⊢
      have hs := h.sym _ _ hfg
      have := h.exist _ _ hs
      rwa [Function.update_of_ne (by omega)]

end split

end Net

/-! ### Points on the line -/

/-- The points in `C` are on all lines in `L`, which are not orthogonal to the axis `k`. -/
structure Lined (k : Fin 3) (C : HP3 → Prop) (L : PL → Prop) : Prop where
  fin : ∀ p, C p → p.w ≠ 0
  dir : ∀ l, L l → l.d.comp k ≠ 0
  on : ∀ l, L l → ∀ p, C p → OnLine l p.pt

theorem onLine_diff {l : PL} {p q : Q3} (hp : OnLine l p) (hq : OnLine l q) (k i : Fin 3) :
    (p i - q i) * l.d.comp k = (p k - q k) * l.d.comp i := by
  unfold OnLine at hp hq
  have h := hp.trans hq.symm
  have e0 := congrFun h 0; have e1 := congrFun h 1; have e2 := congrFun h 2
  simp [crossQ, V3.q, V3.comp] at e0 e1 e2
  fin_cases k <;> fin_cases i <;> simp [V3.comp] <;> first | ring1 | linear_combination e0 | linear_combination -e0 | linear_combination e1 | linear_combination -e1 | linear_combination e2 | linear_combination -e2

theorem Lined.eq_iff {k : Fin 3} {C : HP3 → Prop} {L : PL → Prop} (h : Lined k C L) {l : PL} (hl : L l) {p q : HP3} (hp : C p) (hq : C q) :
    p.eq q = true ↔ p.pt k = q.pt k := by
  rw [C20_eq p q (h.fin p hp) (h.fin q hq)]
  refine ⟨fun e => by rw [e], fun e => ?_⟩
  have hd : (l.d.comp k : ℚ) ≠ 0 := by exact_mod_cast h.dir l hl
  funext i
  have := onLine_diff (h.on l hl p hp) (h.on l hl q hq) k i
  rw [e, sub_self, zero_mul] at this
  exact sub_eq_zero.1 ((mul_eq_zero.1 this).resolve_right hd)

theorem isLocationLess_iff {k : Fin 3} {p q : HP3} (hp : p.w ≠ 0) (hq : q.w ≠ 0) :
    isLocationLess k p q = true ↔ p.pt k < q.pt k := C16_is_less_than hp hq

theorem dot_pt (d : V3) {p : HP3} (hp : p.w ≠ 0) :
    ((d.dot p.v : Int) : ℚ) / p.w = d.x * p.pt 0 + d.y * p.pt 1 + d.z * p.pt 2 := by
  have : (p.w : ℚ) ≠ 0 := by exact_mod_cast hp
  simp [V3.dot, HP3.pt, V3.comp]
  field_simp

theorem dot_less {k : Fin 3} {C : HP3 → Prop} {L : PL → Prop} (h : Lined k C L) {l : PL} (hl : L l) {p q : HP3} (hp : C p) (hq : C q) :
    lessThan (hasDifferentSign p.w q.w) (l.d.dot p.v * q.w) (l.d.dot q.v * p.w) = true ↔
      if 0 ≤ l.d.comp k then p.pt k < q.pt k else q.pt k < p.pt k := by
  have e : lessThan (hasDifferentSign p.w q.w) (l.d.dot p.v * q.w) (l.d.dot q.v * p.w) =
      Rational.isLessThan (l.d.dot p.v) p.w (l.d.dot q.v) q.w := rfl
  have hd := h.dir l hl
  rw [e, C16_is_less_than (h.fin p hp) (h.fin q hq), dot_pt _ (h.fin p hp), dot_pt _ (h.fin q hq)]
  have d0 := onLine_diff (h.on l hl q hq) (h.on l hl p hp) k 0
  have d1 := onLine_diff (h.on l hl q hq) (h.on l hl p hp) k 1
  have d2 := onLine_diff (h.on l hl q hq) (h.on l hl p hp) k 2
  have hne : l.d ≠ ⟨0, 0, 0⟩ := by
    rintro he
    rw [he] at hd
    fin_cases k <;> simp [V3.comp] at hd
  have hs := vec_ne_zero_q hne
  have key : ((l.d.x * q.pt 0 + l.d.y * q.pt 1 + l.d.z * q.pt 2) - (l.d.x * p.pt 0 + l.d.y * p.pt 1 + l.d.z * p.pt 2)) * l.d.comp k =
      (q.pt k - p.pt k) * (l.d.x * l.d.x + l.d.y * l.d.y + l.d.z * l.d.z : ℚ) := by
    have hx : (l.d.comp 0 : ℚ) = l.d.x := rfl
    have hy : (l.d.comp 1 : ℚ) = l.d.y := rfl
    have hz : (l.d.comp 2 : ℚ) = l.d.z := rfl
    rw [hx] at d0
    rw [hy] at d1
    rw [hz] at d2
    linear_combination (l.d.x : ℚ) * d0 + (l.d.y : ℚ) * d1 + (l.d.z : ℚ) * d2
  generalize hA : (l.d.x * q.pt 0 + l.d.y * q.pt 1 + l.d.z * q.pt 2 : ℚ) = A at key ⊢
  generalize hB : (l.d.x * p.pt 0 + l.d.y * p.pt 1 + l.d.z * p.pt 2 : ℚ) = B at key ⊢
  by_cases hk : 0 ≤ l.d.comp k
  · have hk' : (0 : ℚ) < l.d.comp k := by exact_mod_cast lt_of_le_of_ne hk (Ne.symm hd)
    rw [if_pos hk]
    constructor
    · intro hlt
      have : 0 < (q.pt k - p.pt k) * (l.d.x * l.d.x + l.d.y * l.d.y + l.d.z * l.d.z : ℚ) := by
        rw [← key]; exact mul_pos (by linarith) hk'
      have := (mul_pos_iff_of_pos_right hs).1 this
      linarith
    · intro hlt
      have : 0 < (A - B) * l.d.comp k := by rw [key]; exact mul_pos (by linarith) hs
      have := (mul_pos_iff_of_pos_right hk').1 this
      linarith
  · have hk' : (l.d.comp k : ℚ) < 0 := by exact_mod_cast not_le.1 hk
    rw [if_neg hk]
    constructor
    · intro hlt
      have h1 : (q.pt k - p.pt k) * (l.d.x * l.d.x + l.d.y * l.d.y + l.d.z * l.d.z : ℚ) < 0 := by
        rw [← key]; exact mul_neg_of_pos_of_neg (by linarith) hk'
      have := (neg_iff_pos_of_mul_neg h1).2 hs
      linarith
    · intro hlt
      have h1 : (A - B) * l.d.comp k < 0 := by rw [key]; exact mul_neg_of_neg_of_pos (by linarith) hs
      have := (pos_iff_neg_of_mul_neg h1).2 hk'
      linarith

theorem splitOk_iff {N : Net} {k : Fin 3} {C : HP3 → Prop} {L : PL → Prop} (h : Lined k C L) {e : Nat} (hl : L (N.line e)) {mid : HP3}
    (hv : C (N.vertex e)) (ht : C (N.target e)) (hm : C mid) :
    N.splitOk e mid (N.target e) = true ↔ N.lo k e < mid.pt k ∧ mid.pt k < N.hi k e := by
  have e1 : (N.line e).d.dot ((N.target e).v.scale mid.w) = (N.line e).d.dot (N.target e).v * mid.w := by
    simp [V3.dot, V3.scale]; ring
  unfold Net.splitOk
  rw [e1, Bool.and_eq_true, Bool.and_eq_true, dot_less h hl hv hm, dot_less h hl hm ht, isCoincident_iff _ _ (h.fin _ hm)]
  simp only [h.on _ hl _ hm, true_and, Net.lo, Net.hi, Net.loPt, Net.hiPt, Net.isPositive]
  by_cases hk : 0 ≤ (N.line e).d.comp k
  · simp [hk]
  · simp [hk, and_comm]

end Walnut.Conn
