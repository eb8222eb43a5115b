/-
A convex polygon of the plane cut by a line: the points where the line crosses the
boundary, the two parts, and the points of the line inside of the polygon.
-/
import Verif.Poly.Convex

namespace Walnut.Poly

/-- Twice the signed area of a triangle of the plane. -/
def ar (a b c : ℚ × ℚ) : ℚ := (b.1 - a.1) * (c.2 - a.2) - (b.2 - a.2) * (c.1 - a.1)

/-- The point at the fraction `t` of the way from `a` to `b`. -/
def lerp (t : ℚ) (a b : ℚ × ℚ) : ℚ × ℚ := (a.1 + t * (b.1 - a.1), a.2 + t * (b.2 - a.2))

/-- An affine function. -/
def aff (α β γ : ℚ) (p : ℚ × ℚ) : ℚ := α * p.1 + β * p.2 + γ

theorem ar_rot (a b c : ℚ × ℚ) : ar b c a = ar a b c := by unfold ar; ring
theorem ar_lerp1 (t : ℚ) (a a' b c : ℚ × ℚ) : ar (lerp t a a') b c = (1 - t) * ar a b c + t * ar a' b c := by
  unfold ar lerp; ring
theorem ar_lerp2 (t : ℚ) (a b b' c : ℚ × ℚ) : ar a (lerp t b b') c = (1 - t) * ar a b c + t * ar a b' c := by
  unfold ar lerp; ring
theorem ar_lerp3 (t : ℚ) (a b c c' : ℚ × ℚ) : ar a b (lerp t c c') = (1 - t) * ar a b c + t * ar a b c' := by
  unfold ar lerp; ring
theorem aff_lerp (α β γ t : ℚ) (a b : ℚ × ℚ) :
    aff α β γ (lerp t a b) = (1 - t) * aff α β γ a + t * aff α β γ b := by unfold aff lerp; ring
theorem lerp_zero (a b : ℚ × ℚ) : lerp 0 a b = a := by unfold lerp; simp
theorem lerp_one (a b : ℚ × ℚ) : lerp 1 a b = b := by unfold lerp; simp

theorem mix_nonneg {t x y : ℚ} (h0 : 0 ≤ t) (h1 : t ≤ 1) (hx : 0 ≤ x) (hy : 0 ≤ y) : 0 ≤ (1 - t) * x + t * y :=
  add_nonneg (mul_nonneg (by linarith) hx) (mul_nonneg h0 hy)

/-- The vertices of a convex polygon of the plane, repeated with period `n`. -/
structure VRing (n : Nat) (V : Nat → ℚ × ℚ) : Prop where
  le : ∀ {a b c}, a ≤ b → b ≤ c → c ≤ a + n → 0 ≤ ar (V a) (V b) (V c)
  ne : ∀ {a b}, a < b → b < a + n → V a ≠ V b
  per : ∀ a, V (a + n) = V a
  off : ∀ {p q : Nat}, V p ≠ V q → ∃ m, m < n ∧ ar (V p) (V q) (V m) ≠ 0
  npos : 0 < n

theorem Convex2.ring {n : Nat} {X Y : Nat → ℚ} (h : Convex2 n X Y) : VRing n fun i => (X (i % n), Y (i % n)) := by
  refine ⟨fun h1 h2 h3 => h.cyc_le h1 h2 h3, fun {a b} h1 h2 he => ?_, fun a => ?_, fun {p q} hpq => ?_, h.npos⟩
  · have := h.cyc_ne h1 h2
    simp only [Prod.mk.injEq] at he
    exact this.elim (fun h => h he.1) (fun h => h he.2)
  · simp
  · have : X (p % n) ≠ X (q % n) ∨ Y (p % n) ≠ Y (q % n) := by
      by_contra hc
      push Not at hc
      exact hpq (by simp [hc.1, hc.2])
    obtain ⟨m, hm, h2⟩ := h.off_line this
    refine ⟨m, hm, ?_⟩
    simp only [Nat.mod_eq_of_lt hm]
    exact h2

variable {n : Nat} {V : Nat → ℚ × ℚ}

/-- The point at the fraction `t` of edge `k`. -/
def bd (V : Nat → ℚ × ℚ) (k : Nat) (t : ℚ) : ℚ × ℚ := lerp t (V k) (V (k + 1))

theorem bd_zero (V : Nat → ℚ × ℚ) (k : Nat) : bd V k 0 = V k := lerp_zero _ _

theorem VRing.edge (h : VRing n V) {k j : Nat} {t : ℚ} (h1 : k ≤ j) (h2 : j ≤ k + n) (t0 : 0 ≤ t) (t1 : t ≤ 1) :
    0 ≤ ar (V k) (V (k + 1)) (bd V j t) := by
  rcases Nat.eq_or_lt_of_le h1 with rfl | h1
  · apply le_of_eq; unfold bd ar lerp; ring
  rcases Nat.eq_or_lt_of_le h2 with rfl | h2
  · have : bd V (k + n) t = bd V k t := by
      unfold bd; rw [h.per, show k + n + 1 = (k + 1) + n by omega, h.per]
    rw [this]
    apply le_of_eq; unfold bd ar lerp; ring
  unfold bd
  rw [ar_lerp3]
  exact mix_nonneg t0 t1 (h.le (by omega) (by omega) (by omega)) (h.le (by omega) (by omega) (by omega))

/-- Three boundary points in counter-clockwise order. -/
theorem VRing.mono (h : VRing n V) {k1 k2 k3 : Nat} {t1 t2 t3 : ℚ}
    (a1 : 0 ≤ t1) (b1 : t1 ≤ 1) (a2 : 0 ≤ t2) (b2 : t2 ≤ 1) (a3 : 0 ≤ t3) (b3 : t3 ≤ 1)
    (h12 : k1 < k2 ∨ (k1 = k2 ∧ t1 ≤ t2)) (h23 : k2 < k3 ∨ (k2 = k3 ∧ t2 ≤ t3)) (h31 : k3 < k1 + n) :
    0 ≤ ar (bd V k1 t1) (bd V k2 t2) (bd V k3 t3) := by
  rcases h12 with h12 | ⟨rfl, h12⟩
  · rcases h23 with h23 | ⟨rfl, h23⟩
    · conv_rhs => unfold bd
      rw [ar_lerp1, ar_lerp2, ar_lerp2, ar_lerp3, ar_lerp3, ar_lerp3, ar_lerp3]
      refine mix_nonneg a1 b1 (mix_nonneg a2 b2 (mix_nonneg a3 b3 ?_ ?_) (mix_nonneg a3 b3 ?_ ?_))
        (mix_nonneg a2 b2 (mix_nonneg a3 b3 ?_ ?_) (mix_nonneg a3 b3 ?_ ?_)) <;>
      apply h.le <;> omega
    · have e : ar (bd V k1 t1) (bd V k2 t2) (bd V k2 t3) = (t3 - t2) * ar (V k2) (V (k2 + 1)) (bd V (k1 + n) t1) := by
        have : bd V (k1 + n) t1 = bd V k1 t1 := by
          unfold bd; rw [h.per, show k1 + n + 1 = (k1 + 1) + n by omega, h.per]
        rw [this]
        generalize bd V k1 t1 = r
        unfold bd ar lerp; ring
      rw [e]
      exact mul_nonneg (by linarith) (h.edge (by omega) (by omega) a1 b1)
  · have e : ar (bd V k1 t1) (bd V k1 t2) (bd V k3 t3) = (t2 - t1) * ar (V k1) (V (k1 + 1)) (bd V k3 t3) := by
      generalize bd V k3 t3 = r
      unfold bd ar lerp; ring
    rw [e]
    exact mul_nonneg (by linarith) (h.edge (by omega) (by omega) a3 b3)

/-- The line `aff α β γ = 0` cuts the polygon: the vertices `a, …, a+m-1` are on its
negative side, `b, …, b+k-1` on its positive side, at most one vertex is between the
two runs, and the line crosses the boundary at the fractions `t` and `u` of the edges
after the runs. -/
structure Cut (n : Nat) (V : Nat → ℚ × ℚ) (α β γ : ℚ) (a m b k : Nat) (t u : ℚ) : Prop where
  ring : VRing n V
  m1 : 1 ≤ m
  k1 : 1 ≤ k
  gap2 : b = a + m ∨ (b = a + m + 1 ∧ t = 1)
  gap1 : a + n = b + k ∨ (a + n = b + k + 1 ∧ u = 0)
  neg : ∀ i, a ≤ i → i < a + m → aff α β γ (V i) < 0
  pos : ∀ i, b ≤ i → i < b + k → 0 < aff α β γ (V i)
  t0 : 0 < t
  t1 : t ≤ 1
  u0 : 0 ≤ u
  u1 : u < 1
  s2 : aff α β γ (bd V (a + m - 1) t) = 0
  s1 : aff α β γ (bd V (a + n - 1) u) = 0

namespace Cut
variable {α β γ : ℚ} {a m b k : Nat} {t u : ℚ}

theorem col {p s x y : ℚ × ℚ} (h1 : ar p s x = 0) (h2 : ar p s y = 0) (hne : p ≠ s) : ar p x y = 0 := by
  have h : p.1 ≠ s.1 ∨ p.2 ≠ s.2 := by
    by_contra hc
    push Not at hc
    exact hne (Prod.ext hc.1 hc.2)
  unfold ar at *
  rcases h with h | h
  · apply mul_left_cancel₀ (sub_ne_zero.mpr h.symm)
    linear_combination (x.1 - p.1) * h2 - (y.1 - p.1) * h1
  · apply mul_left_cancel₀ (sub_ne_zero.mpr h.symm)
    linear_combination (x.2 - p.2) * h2 - (y.2 - p.2) * h1

theorem win {n a j : Nat} (hn : 0 < n) (hV : ∀ a, V (a + n) = V a) : ∃ i, a ≤ i ∧ i < a + n ∧ V i = V j := by
  have hmod : ∀ x, V x = V (x % n) := by
    intro x
    induction x using Nat.strong_induction_on with
    | _ x ih =>
      by_cases hx : x < n
      · rw [Nat.mod_eq_of_lt hx]
      · have := ih (x - n) (by omega)
        rw [Nat.mod_eq_sub_mod (by omega), ← this, ← hV (x - n), Nat.sub_add_cancel (by omega)]
  have hj := Nat.mod_lt j hn
  have ha := Nat.mod_lt a hn
  have had := Nat.div_add_mod a n
  rcases Nat.lt_or_ge (j % n) (a % n) with h | h
  · refine ⟨n * (a / n) + n + j % n, by omega, by omega, ?_⟩
    rw [hmod, hmod j]
    congr 1
    rw [show n * (a / n) + n + j % n = j % n + n * (a / n + 1) by rw [Nat.mul_add]; omega,
      Nat.add_mul_mod_self_left, Nat.mod_mod]
  · refine ⟨n * (a / n) + j % n, by omega, by omega, ?_⟩
    rw [hmod, hmod j]
    congr 1
    rw [Nat.add_comm, Nat.add_mul_mod_self_left, Nat.mod_mod]

variable (h : Cut n V α β γ a m b k t u)
include h

theorem lens : a + m ≤ b ∧ b + k ≤ a + n ∧ m < n := by
  have := h.gap1; have := h.gap2; have := h.k1; omega

theorem between {i : Nat} (h1 : a ≤ i) (h2 : i < a + n) :
    (i < a + m) ∨ (b ≤ i ∧ i < b + k) ∨ (i = a + m ∧ b = a + m + 1 ∧ t = 1) ∨
      (i = a + n - 1 ∧ a + n = b + k + 1 ∧ u = 0) := by
  rcases h.gap1 with g1 | ⟨g1, g3⟩ <;> rcases h.gap2 with g2 | ⟨g2, g4⟩
  · by_cases hi : i < a + m
    · exact Or.inl hi
    · exact Or.inr (Or.inl (by omega))
  · by_cases hi : i < a + m
    · exact Or.inl hi
    by_cases hi' : i = a + m
    · exact Or.inr (Or.inr (Or.inl ⟨hi', g2, g4⟩))
    · exact Or.inr (Or.inl (by omega))
  · by_cases hi : i < a + m
    · exact Or.inl hi
    by_cases hi' : i = a + n - 1
    · exact Or.inr (Or.inr (Or.inr ⟨hi', g1, g3⟩))
    · exact Or.inr (Or.inl (by omega))
  · by_cases hi : i < a + m
    · exact Or.inl hi
    by_cases hi' : i = a + n - 1
    · exact Or.inr (Or.inr (Or.inr ⟨hi', g1, g3⟩))
    by_cases hi' : i = a + m
    · exact Or.inr (Or.inr (Or.inl ⟨hi', g2, g4⟩))
    · exact Or.inr (Or.inl (by omega))

theorem zero2 (hb : b = a + m + 1) : bd V (a + m - 1) t = V (a + m) := by
  have ht : t = 1 := by
    rcases h.gap2 with h2 | h2
    · omega
    · exact h2.2
  have := h.m1
  unfold bd
  rw [ht, lerp_one, show a + m - 1 + 1 = a + m by omega]

theorem zero1 (hb : a + n = b + k + 1) : bd V (a + n - 1) u = V (a + n - 1) := by
  have hu : u = 0 := by
    rcases h.gap1 with h2 | h2
    · omega
    · exact h2.2
  rw [hu, bd_zero]

/-- The two crossing points are different. -/
theorem s_ne : bd V (a + m - 1) t ≠ bd V (a + n - 1) u := by
  intro he
  obtain ⟨l1, l2, l3⟩ := h.lens
  have hm1 := h.m1
  have hk1 := h.k1
  set s := bd V (a + m - 1) t with hs
  have key : ∀ g j, a ≤ g → g < a + m → b ≤ j → j < b + k → ar (V g) s (V j) = 0 := by
    intro g j g1 g2 j1 j2
    have q1 : 0 ≤ ar (bd V g 0) (bd V (a + m - 1) t) (bd V j 0) := by
      refine h.ring.mono le_rfl zero_le_one h.t0.le h.t1 le_rfl zero_le_one ?_ (Or.inl (by omega)) (by omega)
      rcases Nat.eq_or_lt_of_le (show g ≤ a + m - 1 by omega) with e | e
      · exact Or.inr ⟨e, h.t0.le⟩
      · exact Or.inl e
    have q2 : 0 ≤ ar (bd V j 0) (bd V (a + n - 1) u) (bd V (g + n) 0) := by
      refine h.ring.mono le_rfl zero_le_one h.u0 h.u1.le le_rfl zero_le_one ?_ (Or.inl (by omega)) (by omega)
      rcases Nat.eq_or_lt_of_le (show j ≤ a + n - 1 by omega) with e | e
      · exact Or.inr ⟨e, h.u0⟩
      · exact Or.inl e
    rw [bd_zero, bd_zero, ← hs] at q1
    rw [bd_zero, bd_zero, h.ring.per, ← he] at q2
    have : ar (V j) s (V g) = - ar (V g) s (V j) := by unfold ar; ring
    rw [this] at q2
    linarith
  have fs : aff α β γ s = 0 := h.s2
  have fa := h.neg a le_rfl (by omega)
  have fb := h.pos b le_rfl (by omega)
  have hab : V a ≠ V b := by intro e; rw [e] at fa; linarith
  obtain ⟨j, hj, hoff⟩ := h.ring.off hab
  obtain ⟨i, i1, i2, i3⟩ := win (j := j) (a := a) h.ring.npos h.ring.per
  rw [← i3] at hoff
  apply hoff
  have k0 := key a b le_rfl (by omega) le_rfl (by omega)
  have has : V a ≠ s := by intro e; rw [e, fs] at fa; linarith
  have hbs : V b ≠ s := by intro e; rw [e, fs] at fb; linarith
  have kz : ar (V a) (V b) s = 0 := by
    have : ar (V a) (V b) s = - ar (V a) s (V b) := by unfold ar; ring
    rw [this, k0, neg_zero]
  rcases h.between i1 i2 with e | ⟨e1, e2⟩ | ⟨e1, e2, _⟩ | ⟨e1, e2, _⟩
  · have kg := key i b i1 e le_rfl (by omega)
    have q1 : ar (V b) s (V a) = 0 := by
      have : ar (V b) s (V a) = - ar (V a) s (V b) := by unfold ar; ring
      rw [this, k0, neg_zero]
    have q2 : ar (V b) s (V i) = 0 := by
      have : ar (V b) s (V i) = - ar (V i) s (V b) := by unfold ar; ring
      rw [this, kg, neg_zero]
    have := col q2 q1 hbs
    rwa [ar_rot] at this
  · exact col k0 (key a i le_rfl (by omega) e1 e2) has
  · rw [e1, ← h.zero2 e2]; exact kz
  · rw [e1, ← h.zero1 e2, ← he]; exact kz

theorem coeff : α * α + β * β ≠ 0 := by
  intro h0
  have h1 : α = 0 := by nlinarith [mul_self_nonneg α, mul_self_nonneg β]
  have h2 : β = 0 := by nlinarith [mul_self_nonneg α, mul_self_nonneg β]
  have fa := h.neg a le_rfl (by have := h.m1; omega)
  have fb := h.pos b le_rfl (by have := h.k1; omega)
  unfold aff at fa fb
  rw [h1, h2] at fa fb
  linarith

/-- A point of the line is reached from another one in the line's direction. -/
theorem along {p q : ℚ × ℚ} (hp : aff α β γ p = 0) (hq : aff α β γ q = 0) :
    ∃ x : ℚ, q.1 - p.1 = x * (-β) ∧ q.2 - p.2 = x * α := by
  have hc := h.coeff
  unfold aff at hp hq
  have e := inv_mul_cancel₀ hc
  refine ⟨(α * α + β * β)⁻¹ * ((q.2 - p.2) * α - (q.1 - p.1) * β), ?_, ?_⟩ <;>
    generalize (α * α + β * β)⁻¹ = c at e
  · linear_combination (p.1 - q.1) * e + c * α * (hq - hp)
  · linear_combination (p.2 - q.2) * e + c * β * (hq - hp)

theorem after2 : 0 ≤ aff α β γ (V (a + m)) := by
  have := h.m1; have := h.k1
  rcases h.gap2 with e | ⟨e, ht⟩
  · rw [← e]; exact (h.pos b le_rfl (by omega)).le
  · have := h.s2
    rw [h.zero2 e] at this
    exact this.ge

theorem before1 : 0 ≤ aff α β γ (V (a + n - 1)) := by
  have := h.m1; have := h.k1; have := h.lens
  rcases h.gap1 with e | ⟨e, ht⟩
  · exact (h.pos (a + n - 1) (by omega) (by omega)).le
  · have := h.s1
    rw [h.zero1 e] at this
    exact this.ge

/-- Points of the line on the inner side of the edge after the negative run. -/
theorem inner2 {p : ℚ × ℚ} {x : ℚ} (hx : p.1 - (bd V (a + m - 1) t).1 = x * (-β) ∧ p.2 - (bd V (a + m - 1) t).2 = x * α)
    (hp : 0 ≤ ar (V (a + m - 1)) (V (a + m - 1 + 1)) p) : 0 ≤ x := by
  have hm := h.m1
  have f1 := h.neg (a + m - 1) (by omega) (by omega)
  have f2 := h.after2
  have e : ar (V (a + m - 1)) (V (a + m - 1 + 1)) p =
      x * (aff α β γ (V (a + m - 1 + 1)) - aff α β γ (V (a + m - 1))) := by
    obtain ⟨e1, e2⟩ := hx
    unfold bd lerp at e1 e2
    simp only at e1 e2
    unfold ar aff
    linear_combination ((V (a + m - 1 + 1)).1 - (V (a + m - 1)).1) * e2 -
      ((V (a + m - 1 + 1)).2 - (V (a + m - 1)).2) * e1
  rw [e, show a + m - 1 + 1 = a + m by omega] at hp
  by_contra hc
  push Not at hc
  have := mul_neg_of_neg_of_pos hc (show 0 < aff α β γ (V (a + m)) - aff α β γ (V (a + m - 1)) by linarith)
  linarith

/-- Points of the line on the inner side of the edge before the negative run. -/
theorem inner1 {p : ℚ × ℚ} {x : ℚ} (hx : p.1 - (bd V (a + n - 1) u).1 = x * (-β) ∧ p.2 - (bd V (a + n - 1) u).2 = x * α)
    (hp : 0 ≤ ar (V (a + n - 1)) (V (a + n - 1 + 1)) p) : x ≤ 0 := by
  have hn := h.ring.npos
  have f1 := h.neg a (by omega) (by have := h.m1; omega)
  have f2 := h.before1
  have e : ar (V (a + n - 1)) (V (a + n - 1 + 1)) p =
      x * (aff α β γ (V (a + n - 1 + 1)) - aff α β γ (V (a + n - 1))) := by
    obtain ⟨e1, e2⟩ := hx
    unfold bd lerp at e1 e2
    simp only at e1 e2
    unfold ar aff
    linear_combination ((V (a + n - 1 + 1)).1 - (V (a + n - 1)).1) * e2 -
      ((V (a + n - 1 + 1)).2 - (V (a + n - 1)).2) * e1
  rw [e, show a + n - 1 + 1 = a + n by omega, h.ring.per] at hp
  by_contra hc
  push Not at hc
  have := mul_neg_of_pos_of_neg hc (show aff α β γ (V a) - aff α β γ (V (a + n - 1)) < 0 by linarith)
  linarith

/-- The crossing points follow each other in the direction of the cutting line. -/
theorem dir : ∃ ν : ℚ, 0 < ν ∧ (bd V (a + n - 1) u).1 - (bd V (a + m - 1) t).1 = ν * (-β) ∧
    (bd V (a + n - 1) u).2 - (bd V (a + m - 1) t).2 = ν * α := by
  obtain ⟨ν, hν⟩ := h.along h.s2 h.s1
  have hm := h.m1
  obtain ⟨l1, l2, l3⟩ := h.lens
  have h0 := h.inner2 hν (h.ring.edge (by omega) (by omega) h.u0 h.u1.le)
  refine ⟨ν, lt_of_le_of_ne h0 ?_, hν⟩
  rintro rfl
  apply h.s_ne
  apply Prod.ext
  · linarith [hν.1]
  · linarith [hν.2]

/-- The points of the line inside of the polygon are between the crossing points. -/
theorem chord {z : ℚ × ℚ} (hz : aff α β γ z = 0)
    (h2 : 0 ≤ ar (V (a + m - 1)) (V (a + m - 1 + 1)) z) (h1 : 0 ≤ ar (V (a + n - 1)) (V (a + n - 1 + 1)) z) :
    ∃ τ : ℚ, 0 ≤ τ ∧ τ ≤ 1 ∧ z = lerp τ (bd V (a + m - 1) t) (bd V (a + n - 1) u) := by
  obtain ⟨ν, ν0, d1, d2⟩ := h.dir
  obtain ⟨x, hx⟩ := h.along h.s2 hz
  have x0 := h.inner2 hx h2
  have x1 := h.inner1 (x := x - ν) ⟨by linear_combination hx.1 - d1, by linear_combination hx.2 - d2⟩ h1
  refine ⟨x / ν, by positivity, by rw [div_le_one ν0]; linarith, ?_⟩
  have e : x / ν * ν = x := by field_simp
  apply Prod.ext <;> unfold lerp <;> simp only
  · rw [d1]; linear_combination hx.1 + β * e
  · rw [d2]; linear_combination hx.2 - α * e

/-- A vertex off the line makes a proper triangle with the crossing points. -/
theorem proper {p : ℚ × ℚ} (hp : aff α β γ p ≠ 0) : ar p (bd V (a + m - 1) t) (bd V (a + n - 1) u) ≠ 0 := by
  intro h0
  apply hp
  obtain ⟨ν, ν0, d1, d2⟩ := h.dir
  have e : ar p (bd V (a + m - 1) t) (bd V (a + n - 1) u) =
      - (aff α β γ p - aff α β γ (bd V (a + m - 1) t)) * ν := by
    unfold ar aff
    linear_combination (d2) * ((bd V (a + m - 1) t).1 - p.1) - d1 * ((bd V (a + m - 1) t).2 - p.2)
  rw [e, h.s2] at h0
  have := (mul_eq_zero.mp h0).resolve_right ν0.ne'
  linarith

end Cut

/-- The vertices of the part on the negative side. -/
def negW (V : Nat → ℚ × ℚ) (n a m : Nat) (t u : ℚ) (i : Nat) : ℚ × ℚ :=
  if i < m then V (a + i) else if i = m then bd V (a + m - 1) t else bd V (a + n - 1) u

/-- The vertices of the part on the positive side. -/
def posW (V : Nat → ℚ × ℚ) (n a m b k : Nat) (t u : ℚ) (i : Nat) : ℚ × ℚ :=
  if i = 0 then bd V (a + m - 1) t else if i ≤ k then V (b + i - 1) else bd V (a + n - 1) u

namespace Cut
variable {α β γ : ℚ} {a m b k : Nat} {t u : ℚ}

theorem neg_convex (h : Cut n V α β γ a m b k t u) :
    Convex2 (m + 2) (fun i => (negW V n a m t u i).1) (fun i => (negW V n a m t u i).2) := by
  obtain ⟨l1, l2, l3⟩ := h.lens
  have hm := h.m1
  have ccw : ∀ i j l, i < j → j < l → l < m + 2 → 0 ≤ ar (negW V n a m t u i) (negW V n a m t u j) (negW V n a m t u l) := by
    have hW : ∀ i, negW V n a m t u i =
        bd V (if i < m then a + i else if i = m then a + m - 1 else a + n - 1) (if i < m then 0 else if i = m then t else u) := by
      intro i
      unfold negW
      split
      · rw [bd_zero]
      · split <;> rfl
    intro i j l h1 h2 h3
    rw [hW, hW, hW]
    have ht : ∀ i, 0 ≤ (if i < m then 0 else if i = m then t else u) ∧ (if i < m then 0 else if i = m then t else u) ≤ 1 := by
      intro i
      split
      · exact ⟨le_rfl, zero_le_one⟩
      · split
        · exact ⟨h.t0.le, h.t1⟩
        · exact ⟨h.u0, h.u1.le⟩
    have hstep : ∀ i j, i < j → j < m + 2 →
        ((if i < m then a + i else if i = m then a + m - 1 else a + n - 1) < (if j < m then a + j else if j = m then a + m - 1 else a + n - 1)) ∨
        ((if i < m then a + i else if i = m then a + m - 1 else a + n - 1) = (if j < m then a + j else if j = m then a + m - 1 else a + n - 1) ∧
          (if i < m then 0 else if i = m then t else u) ≤ (if j < m then 0 else if j = m then t else u)) := by
      intro i j h1 h2
      by_cases c1 : j < m
      · rw [if_pos c1, if_pos (show i < m by omega)]; exact Or.inl (by omega)
      by_cases c2 : j = m
      · subst c2
        rw [if_neg c1, if_pos rfl, if_pos (show i < j by omega), if_neg c1, if_pos rfl, if_pos (show i < j by omega)]
        by_cases c3 : i = j - 1
        · exact Or.inr ⟨by omega, h.t0.le⟩
        · exact Or.inl (by omega)
      · rw [if_neg c1, if_neg c2]
        left
        split
        · omega
        · split <;> omega
    refine h.ring.mono (ht _).1 (ht _).2 (ht _).1 (ht _).2 (ht _).1 (ht _).2 (hstep _ _ h1 (by omega)) (hstep _ _ h2 h3) ?_
    rw [if_pos (show i < m by omega)]
    split
    · omega
    · split <;> omega
  have fW : ∀ i, i < m → negW V n a m t u i = V (a + i) := fun i hi => if_pos hi
  have fm : negW V n a m t u m = bd V (a + m - 1) t := by unfold negW; simp
  have fm1 : negW V n a m t u (m + 1) = bd V (a + n - 1) u := by unfold negW; simp
  refine ⟨ccw, ?_, 0, m, m + 1, by omega, by omega, by omega, ?_⟩
  · intro i j h1 h2
    have hne : negW V n a m t u i ≠ negW V n a m t u j := by
      by_cases c1 : j < m
      · rw [fW _ c1, fW _ (by omega)]
        exact h.ring.ne (by omega) (by omega)
      · by_cases c2 : i < m
        · intro he
          have f1 := h.neg (a + i) (by omega) (by omega)
          rw [fW _ c2] at he
          rw [he] at f1
          rcases (show j = m ∨ j = m + 1 by omega) with rfl | rfl
          · rw [fm, h.s2] at f1; exact lt_irrefl _ f1
          · rw [fm1, h.s1] at f1; exact lt_irrefl _ f1
        · obtain rfl : i = m := by omega
          obtain rfl : j = i + 1 := by omega
          rw [fm, fm1]
          exact h.s_ne
    by_contra hc
    push Not at hc
    exact hne (Prod.ext hc.1 hc.2)
  · refine lt_of_le_of_ne (ccw 0 m (m + 1) (by omega) (by omega) (by omega)) (Ne.symm ?_)
    show ar _ _ _ ≠ 0
    have := h.proper (p := V (a + 0)) (h.neg _ (by omega) (by omega)).ne
    rw [← fW 0 (by omega), ← fm, ← fm1] at this
    exact this

theorem pos_convex (h : Cut n V α β γ a m b k t u) :
    Convex2 (k + 2) (fun i => (posW V n a m b k t u i).1) (fun i => (posW V n a m b k t u i).2) := by
  obtain ⟨l1, l2, l3⟩ := h.lens
  have hm := h.m1
  have hk := h.k1
  have ccw : ∀ i j l, i < j → j < l → l < k + 2 →
      0 ≤ ar (posW V n a m b k t u i) (posW V n a m b k t u j) (posW V n a m b k t u l) := by
    have hW : ∀ i, posW V n a m b k t u i =
        bd V (if i = 0 then a + m - 1 else if i ≤ k then b + i - 1 else a + n - 1) (if i = 0 then t else if i ≤ k then 0 else u) := by
      intro i
      unfold posW
      split
      · rfl
      · split
        · rw [bd_zero]
        · rfl
    intro i j l h1 h2 h3
    rw [hW, hW, hW]
    have ht : ∀ i, 0 ≤ (if i = 0 then t else if i ≤ k then 0 else u) ∧ (if i = 0 then t else if i ≤ k then 0 else u) ≤ 1 := by
      intro i
      split
      · exact ⟨h.t0.le, h.t1⟩
      · split
        · exact ⟨le_rfl, zero_le_one⟩
        · exact ⟨h.u0, h.u1.le⟩
    have hstep : ∀ i j, i < j → j < k + 2 →
        ((if i = 0 then a + m - 1 else if i ≤ k then b + i - 1 else a + n - 1) < (if j = 0 then a + m - 1 else if j ≤ k then b + j - 1 else a + n - 1)) ∨
        ((if i = 0 then a + m - 1 else if i ≤ k then b + i - 1 else a + n - 1) = (if j = 0 then a + m - 1 else if j ≤ k then b + j - 1 else a + n - 1) ∧
          (if i = 0 then t else if i ≤ k then 0 else u) ≤ (if j = 0 then t else if j ≤ k then 0 else u)) := by
      intro i j h1 h2
      rw [if_neg (show j ≠ 0 by omega), if_neg (show j ≠ 0 by omega)]
      by_cases c1 : j ≤ k
      · rw [if_pos c1]
        left
        split
        · omega
        · split <;> omega
      · rw [if_neg c1, if_neg c1]
        by_cases c2 : i = 0
        · rw [if_pos c2]; left; omega
        · rw [if_neg c2, if_neg c2, if_pos (show i ≤ k by omega), if_pos (show i ≤ k by omega)]
          by_cases c3 : b + i - 1 = a + n - 1
          · exact Or.inr ⟨c3, h.u0⟩
          · exact Or.inl (by omega)
    refine h.ring.mono (ht _).1 (ht _).2 (ht _).1 (ht _).2 (ht _).1 (ht _).2 (hstep _ _ h1 (by omega)) (hstep _ _ h2 h3) ?_
    rw [if_neg (show l ≠ 0 by omega)]
    by_cases c1 : l ≤ k
    · rw [if_pos c1]
      split
      · omega
      · split <;> omega
    · rw [if_neg c1]
      split
      · omega
      · split <;> omega
  have f0 : posW V n a m b k t u 0 = bd V (a + m - 1) t := by unfold posW; simp
  have fW : ∀ i, 1 ≤ i → i ≤ k → posW V n a m b k t u i = V (b + i - 1) := by
    intro i h1 h2; unfold posW; rw [if_neg (by omega), if_pos h2]
  have fk : posW V n a m b k t u (k + 1) = bd V (a + n - 1) u := by unfold posW; simp
  refine ⟨ccw, ?_, 0, 1, k + 1, by omega, by omega, by omega, ?_⟩
  · intro i j h1 h2
    have hne : posW V n a m b k t u i ≠ posW V n a m b k t u j := by
      by_cases c1 : j ≤ k
      · rw [fW j (by omega) c1]
        by_cases c2 : i = 0
        · subst c2
          rw [f0]
          intro he
          have f1 := h.pos (b + j - 1) (by omega) (by omega)
          rw [← he, h.s2] at f1
          exact lt_irrefl _ f1
        · rw [fW i (by omega) (by omega)]
          exact h.ring.ne (by omega) (by omega)
      · obtain rfl : j = k + 1 := by omega
        rw [fk]
        by_cases c2 : i = 0
        · subst c2; rw [f0]; exact h.s_ne
        · rw [fW i (by omega) (by omega)]
          intro he
          have f1 := h.pos (b + i - 1) (by omega) (by omega)
          rw [he, h.s1] at f1
          exact lt_irrefl _ f1
    by_contra hc
    push Not at hc
    exact hne (Prod.ext hc.1 hc.2)
  · refine lt_of_le_of_ne (ccw 0 1 (k + 1) (by omega) (by omega) (by omega)) (Ne.symm ?_)
    show ar _ _ _ ≠ 0
    have := h.proper (p := V (b + 1 - 1)) (h.pos _ (by omega) (by omega)).ne'
    rw [← fW 1 (by omega) (by omega), ← f0, ← fk] at this
    intro h0
    apply this
    rw [show ∀ p q r, ar p q r = - ar q p r by intro p q r; unfold ar; ring, h0, neg_zero]

end Cut

end Walnut.Poly
