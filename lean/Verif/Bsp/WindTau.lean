/-
Whether a vector lies in the cone of three others, with the orientation of the three, and
the identity for four vectors.
-/
import Verif.Bsp.WindInterval
import Verif.Geom.QLemmas
import Mathlib.Data.Sign.Basic

namespace Walnut.Bsp
open Walnut.Geom

/-- The orientation of `p` and `q` seen along `c`. -/
def om (c p q : Q3) : ℚ := dotQ c (crossQ p q)

theorem om_swap (c p q : Q3) : om c q p = -om c p q := by
  simp only [om, dotQ, crossQ_zero, crossQ_one, crossQ_two]; ring

/-- The determinant of three vectors. -/
def det3 (p q r : Q3) : ℚ := dotQ p (crossQ q r)

theorem det3_swap (p q r : Q3) : det3 p r q = -det3 p q r := by
  simp only [det3, dotQ, crossQ_zero, crossQ_one, crossQ_two]; ring

theorem det3_rot (p q r : Q3) : det3 q r p = det3 p q r := by
  simp only [det3, dotQ, crossQ_zero, crossQ_one, crossQ_two]; ring

/-- The orientation of `p, q, r` if `c` is in the interior of their cone, and 0 otherwise. -/
def tau (c p q r : Q3) : ℤ :=
  if sgn (om c q r) = sgn (om c p q) ∧ sgn (om c r p) = sgn (om c p q) ∧ sgn (det3 p q r) = sgn (om c p q) then sgn (om c p q) else 0

theorem tau_swap (c p q r : Q3) : tau c p r q = -tau c p q r := by
  unfold tau
  rw [om_swap c q r, om_swap c r p, om_swap c p q, det3_swap, sgn_opp, sgn_opp, sgn_opp, sgn_opp]
  generalize sgn (om c p q) = x
  generalize sgn (om c q r) = y
  generalize sgn (om c r p) = z
  generalize sgn (det3 p q r) = w
  by_cases h : y = x ∧ z = x ∧ w = x
  · obtain ⟨rfl, rfl, rfl⟩ := h; simp
  · rw [if_neg h, if_neg, neg_zero]
    rintro ⟨h1, h2, h3⟩
    apply h; omega

theorem tau_rot (c p q r : Q3) : tau c q r p = tau c p q r := by
  unfold tau
  rw [det3_rot]
  generalize sgn (om c p q) = x
  generalize sgn (om c q r) = y
  generalize sgn (om c r p) = z
  generalize sgn (det3 p q r) = w
  by_cases h : y = x ∧ z = x ∧ w = x
  · obtain ⟨rfl, rfl, rfl⟩ := h; simp
  · rw [if_neg h, if_neg]
    rintro ⟨h1, h2, h3⟩
    apply h; omega

theorem tau_self (c p q : Q3) : tau c p q q = 0 := by
  have := tau_swap c p q q; omega

/-- What it means that `tau` is not 0. -/
theorem tau_cases {c p q r : Q3} (h : tau c p q r ≠ 0) :
    (0 < om c p q ∧ 0 < om c q r ∧ 0 < om c r p ∧ 0 < det3 p q r ∧ tau c p q r = 1) ∨
    (om c p q < 0 ∧ om c q r < 0 ∧ om c r p < 0 ∧ det3 p q r < 0 ∧ tau c p q r = -1) := by
  have h' := h
  unfold tau at h' ⊢
  split_ifs at h' ⊢ with hc
  · obtain ⟨h1, h2, h3⟩ := hc
    rcases sgn_cases (om c p q) with ⟨e, hp⟩ | ⟨e, hp⟩ | ⟨e, hp⟩
    · rw [e] at h1 h2 h3
      exact Or.inl ⟨hp, sgn_eq_one.1 h1, sgn_eq_one.1 h2, sgn_eq_one.1 h3, e⟩
    · rw [e] at h1 h2 h3
      exact Or.inr ⟨hp, sgn_eq_neg.1 h1, sgn_eq_neg.1 h2, sgn_eq_neg.1 h3, e⟩
    · exact absurd e h'
  · exact absurd rfl h'

theorem cramer (c p q r y : Q3) :
    det3 p q r * dotQ c y = om c p q * dotQ r y + om c q r * dotQ p y + om c r p * dotQ q y := by
  simp only [om, det3, dotQ, crossQ_zero, crossQ_one, crossQ_two]; ring

/-- For vectors on one side of a plane, `tau` only depends on what is seen along `c`. -/
def tau2 (x y z : ℤ) : ℤ := if y = x ∧ z = x then x else 0

theorem tau_eq {c p q r y : Q3} (hp : dotQ p y < 0) (hq : dotQ q y < 0) (hr : dotQ r y < 0) (hc : dotQ c y < 0) :
    tau c p q r = tau2 (sgn (om c p q)) (sgn (om c q r)) (sgn (om c r p)) := by
  unfold tau tau2
  have e := cramer c p q r y
  by_cases h : sgn (om c q r) = sgn (om c p q) ∧ sgn (om c r p) = sgn (om c p q)
  · rw [if_pos h]
    rcases sgn_cases (om c p q) with ⟨s, h0⟩ | ⟨s, h0⟩ | ⟨s, h0⟩
    · rw [s] at h ⊢
      have h1 := sgn_eq_one.1 h.1
      have h2 := sgn_eq_one.1 h.2
      refine if_pos ⟨h.1, h.2, sgn_pos ?_⟩
      by_contra hd
      have := mul_nonneg_of_nonpos_of_nonpos (not_lt.1 hd) hc.le
      have := mul_neg_of_pos_of_neg h0 hr
      have := mul_neg_of_pos_of_neg h1 hp
      have := mul_neg_of_pos_of_neg h2 hq
      linarith
    · rw [s] at h ⊢
      have h1 := sgn_eq_neg.1 h.1
      have h2 := sgn_eq_neg.1 h.2
      refine if_pos ⟨h.1, h.2, sgn_neg ?_⟩
      by_contra hd
      have := mul_nonpos_of_nonneg_of_nonpos (not_lt.1 hd) hc.le
      have := mul_pos_of_neg_of_neg h0 hr
      have := mul_pos_of_neg_of_neg h1 hp
      have := mul_pos_of_neg_of_neg h2 hq
      linarith
    · rw [s]; split_ifs <;> rfl
  · rw [if_neg h, if_neg (fun x => h ⟨x.1, x.2.1⟩)]

theorem tau_zero {c p q r y : Q3} (hp : dotQ p y < 0) (hq : dotQ q y < 0) (hr : dotQ r y < 0) (hc : 0 ≤ dotQ c y) :
    tau c p q r = 0 := by
  by_contra h
  have e := cramer c p q r y
  rcases tau_cases h with ⟨h1, h2, h3, h4, _⟩ | ⟨h1, h2, h3, h4, _⟩
  · have := mul_nonneg h4.le hc
    have := mul_neg_of_pos_of_neg h1 hr
    have := mul_neg_of_pos_of_neg h2 hp
    have := mul_neg_of_pos_of_neg h3 hq
    linarith
  · have := mul_nonpos_of_nonpos_of_nonneg h4.le hc
    have := mul_pos_of_neg_of_neg h1 hr
    have := mul_pos_of_neg_of_neg h2 hp
    have := mul_pos_of_neg_of_neg h3 hq
    linarith

/-- `p` and `q` are parallel if they look parallel. -/
def Seen (c p q : Q3) : Prop := om c p q = 0 → crossQ p q = 0

theorem parallel_same {c p q r y : Q3} (h : Seen c p q) (hp : dotQ p y < 0) (hq : dotQ q y < 0) (h0 : sgn (om c p q) = 0) :
    sgn (om c p r) = sgn (om c q r) := by
  have hx := h (sgn_eq_zero.1 h0)
  have e0 : p 1 * q 2 - p 2 * q 1 = 0 := congrFun hx 0
  have e1 : p 2 * q 0 - p 0 * q 2 = 0 := congrFun hx 1
  have e2 : p 0 * q 1 - p 1 * q 0 = 0 := congrFun hx 2
  have e : dotQ q y * om c p r = dotQ p y * om c q r := by
    simp only [om, dotQ, crossQ_zero, crossQ_one, crossQ_two]
    linear_combination (c 0 * (y 0 * r 0 + y 1 * r 1 + y 2 * r 2) - (c 0 * y 0 + c 1 * y 1 + c 2 * y 2) * r 0) * e0 + (c 1 * (y 0 * r 0 + y 1 * r 1 + y 2 * r 2) - (c 0 * y 0 + c 1 * y 1 + c 2 * y 2) * r 1) * e1 + (c 2 * (y 0 * r 0 + y 1 * r 1 + y 2 * r 2) - (c 0 * y 0 + c 1 * y 1 + c 2 * y 2) * r 2) * e2
  rcases sgn_cases (om c p r) with ⟨s, h1⟩ | ⟨s, h1⟩ | ⟨s, h1⟩ <;> rw [s] <;> symm
  · apply sgn_pos; by_contra hn; push Not at hn
    have := mul_neg_of_neg_of_pos hq h1
    have := mul_nonneg_of_nonpos_of_nonpos hp.le hn
    linarith
  · apply sgn_neg; by_contra hn; push Not at hn
    have := mul_pos_of_neg_of_neg hq h1
    have := mul_nonpos_of_nonpos_of_nonneg hp.le hn
    linarith
  · apply sgn_eq_zero.2
    rw [h1, mul_zero] at e
    exact (mul_eq_zero.1 e.symm).resolve_left hp.ne

/-- A sign. -/
def sv (i : Fin 3) : ℤ := ![-1, 0, 1] i

theorem sgn_sv (x : ℚ) : ∃ i, sgn x = sv i := by
  rcases sgn_cases x with ⟨s, _⟩ | ⟨s, _⟩ | ⟨s, _⟩
  · exact ⟨2, s⟩
  · exact ⟨0, s⟩
  · exact ⟨1, s⟩

/-- The signs two of four vectors can have. -/
def SignOK (a b c d e f : ℤ) : Prop :=
  ((a = 0 → b = d ∧ c = e) ∧ (b = 0 → a = -d ∧ c = f) ∧ (c = 0 → a = -e ∧ b = -f) ∧
    (d = 0 → a = b ∧ e = f) ∧ (e = 0 → a = c ∧ d = -f) ∧ (f = 0 → b = c ∧ d = e)) ∧
  ¬ (0 ≤ a * f ∧ b * e ≤ 0 ∧ 0 ≤ c * d ∧ (0 < a * f ∨ b * e < 0 ∨ 0 < c * d)) ∧
  ¬ (a * f ≤ 0 ∧ 0 ≤ b * e ∧ c * d ≤ 0 ∧ (a * f < 0 ∨ 0 < b * e ∨ c * d < 0))

instance (a b c d e f : ℤ) : Decidable (SignOK a b c d e f) := by
  unfold SignOK; infer_instance

theorem sign_identity : ∀ a b c d e f : Fin 3, SignOK (sv a) (sv b) (sv c) (sv d) (sv e) (sv f) →
    tau2 (sv d) (sv f) (-sv e) - tau2 (sv b) (sv f) (-sv c) + tau2 (sv a) (sv e) (-sv c) - tau2 (sv a) (sv d) (-sv b) = 0 := by
  unfold tau2
  decide +kernel

theorem pluecker (c p q r s : Q3) :
    om c p q * om c r s - om c p r * om c q s + om c p s * om c q r = 0 := by
  simp only [om, dotQ, crossQ_zero, crossQ_one, crossQ_two]; ring

theorem sgn_nonneg {x : ℚ} : 0 ≤ sgn x ↔ 0 ≤ x := by
  rcases sgn_cases x with ⟨s, h⟩ | ⟨s, h⟩ | ⟨s, h⟩ <;> rw [s]
  · simp [h.le]
  · simp [h]
  · simp [h]

theorem sgn_nonpos {x : ℚ} : sgn x ≤ 0 ↔ x ≤ 0 := by
  rcases sgn_cases x with ⟨s, h⟩ | ⟨s, h⟩ | ⟨s, h⟩ <;> rw [s]
  · simp [h]
  · simp [h.le]
  · simp [h]

theorem sgn_pos_iff {x : ℚ} : 0 < sgn x ↔ 0 < x := by
  rw [← not_le, sgn_nonpos, not_le]

theorem sgn_neg_iff {x : ℚ} : sgn x < 0 ↔ x < 0 := by
  rw [← not_le, sgn_nonneg, not_le]

/-- The boundary of a tetrahedron covers every direction as often one way as the other. -/
theorem tau_four {c p q r s y : Q3} (hp : dotQ p y < 0) (hq : dotQ q y < 0) (hr : dotQ r y < 0) (hs : dotQ s y < 0)
    (spq : Seen c p q) (spr : Seen c p r) (sps : Seen c p s) (sqr : Seen c q r) (sqs : Seen c q s) (srs : Seen c r s) :
    tau c q r s - tau c p r s + tau c p q s - tau c p q r = 0 := by
  rcases le_or_gt 0 (dotQ c y) with hc | hc
  · rw [tau_zero hq hr hs hc, tau_zero hp hr hs hc, tau_zero hp hq hs hc, tau_zero hp hq hr hc]; rfl
  · rw [tau_eq hq hr hs hc, tau_eq hp hr hs hc, tau_eq hp hq hs hc, tau_eq hp hq hr hc]
    have a1 := parallel_same (r := r) spq hp hq
    have a2 := parallel_same (r := s) spq hp hq
    have b1 := parallel_same (r := q) spr hp hr
    have b2 := parallel_same (r := s) spr hp hr
    have c1 := parallel_same (r := q) sps hp hs
    have c2 := parallel_same (r := r) sps hp hs
    have d1 := parallel_same (r := p) sqr hq hr
    have d2 := parallel_same (r := s) sqr hq hr
    have e1 := parallel_same (r := p) sqs hq hs
    have e2 := parallel_same (r := r) sqs hq hs
    have f1 := parallel_same (r := p) srs hr hs
    have f2 := parallel_same (r := q) srs hr hs
    have pl := pluecker c p q r s
    have pl1 : ¬ (0 ≤ sgn (om c p q) * sgn (om c r s) ∧ sgn (om c p r) * sgn (om c q s) ≤ 0 ∧ 0 ≤ sgn (om c p s) * sgn (om c q r) ∧
        (0 < sgn (om c p q) * sgn (om c r s) ∨ sgn (om c p r) * sgn (om c q s) < 0 ∨ 0 < sgn (om c p s) * sgn (om c q r))) := by
      rw [← sgn_mul, ← sgn_mul, ← sgn_mul, sgn_nonneg, sgn_nonpos, sgn_nonneg, sgn_pos_iff, sgn_neg_iff, sgn_pos_iff]
      rintro ⟨h1, h2, h3, h | h | h⟩ <;> linarith
    have pl2 : ¬ (sgn (om c p q) * sgn (om c r s) ≤ 0 ∧ 0 ≤ sgn (om c p r) * sgn (om c q s) ∧ sgn (om c p s) * sgn (om c q r) ≤ 0 ∧
        (sgn (om c p q) * sgn (om c r s) < 0 ∨ 0 < sgn (om c p r) * sgn (om c q s) ∨ sgn (om c p s) * sgn (om c q r) < 0)) := by
      rw [← sgn_mul, ← sgn_mul, ← sgn_mul, sgn_nonneg, sgn_nonpos, sgn_nonpos, sgn_pos_iff, sgn_neg_iff, sgn_neg_iff]
      rintro ⟨h1, h2, h3, h | h | h⟩ <;> linarith
    have sw : ∀ u v, sgn (om c u v) = -sgn (om c v u) := fun u v => by rw [om_swap c v u, sgn_opp]
    obtain ⟨a, ea⟩ := sgn_sv (om c p q)
    obtain ⟨b, eb⟩ := sgn_sv (om c p r)
    obtain ⟨c', ec⟩ := sgn_sv (om c p s)
    obtain ⟨d, ed⟩ := sgn_sv (om c q r)
    obtain ⟨e, ee⟩ := sgn_sv (om c q s)
    obtain ⟨f, ef⟩ := sgn_sv (om c r s)
    rw [sw s p, sw r p, sw s q]
    rw [sw r q] at b1
    rw [sw s q] at c1
    rw [sw s r] at c2 e2
    rw [sw q p, sw r p] at d1
    rw [sw q p, sw s p] at e1
    rw [sw r p, sw s p] at f1
    rw [sw r q, sw s q] at f2
    simp only [ea, eb, ec, ed, ee, ef] at *
    refine sign_identity a b c' d e f ⟨⟨?_, ?_, ?_, ?_, ?_, ?_⟩, pl1, pl2⟩
    · exact fun h => ⟨a1 h, a2 h⟩
    · exact fun h => ⟨b1 h, b2 h⟩
    · exact fun h => ⟨c1 h, c2 h⟩
    · exact fun h => ⟨by have := d1 h; omega, d2 h⟩
    · exact fun h => ⟨by have := e1 h; omega, e2 h⟩
    · exact fun h => ⟨by have := f1 h; omega, by have := f2 h; omega⟩

end Walnut.Bsp
