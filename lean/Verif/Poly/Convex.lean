/- Convex vertex cycles in the plane: a linear function is cyclically unimodal on them. -/
import Verif.Poly.BisectProof

namespace Walnut.Poly

/-- Twice the signed area of the triangle `i`, `j`, `k`. -/
def area2 (X Y : Nat → ℚ) (i j k : Nat) : ℚ :=
  (X j - X i) * (Y k - Y i) - (Y j - Y i) * (X k - X i)

/-- The points `0, …, n-1` are the vertices of a convex polygon in counter-clockwise
order.  Vertices inside of an edge are allowed. -/
structure Convex2 (n : Nat) (X Y : Nat → ℚ) : Prop where
  ccw : ∀ i j k, i < j → j < k → k < n → 0 ≤ area2 X Y i j k
  ne : ∀ i j, i < j → j < n → X i ≠ X j ∨ Y i ≠ Y j
  ex : ∃ i j k, i < j ∧ j < k ∧ k < n ∧ 0 < area2 X Y i j k

variable {n : Nat} {X Y : Nat → ℚ}

theorem area2_rot (X Y : Nat → ℚ) (i j k : Nat) : area2 X Y j k i = area2 X Y i j k := by
  unfold area2; ring

/-- Remainders of a window of `n` indices. -/
theorem mod_window {n q r b : Nat} (h1 : n * q + r ≤ b) (h2 : b < n * q + r + n) (hr : r < n) :
    (b < n * q + n ∧ b % n = b - n * q) ∨ (n * q + n ≤ b ∧ b % n = b - n * q - n) := by
  rcases Nat.lt_or_ge b (n * q + n) with h | h
  · left
    refine ⟨h, ?_⟩
    conv_lhs => rw [show b = n * q + (b - n * q) by omega]
    rw [Nat.mul_add_mod, Nat.mod_eq_of_lt (by omega)]
  · right
    refine ⟨h, ?_⟩
    conv_lhs => rw [show b = n * q + n + (b - n * q - n) by omega, show n * q + n = n * (q + 1) by ring]
    rw [Nat.mul_add_mod, Nat.mod_eq_of_lt (by omega)]

theorem Convex2.npos (h : Convex2 n X Y) : 0 < n := by
  obtain ⟨i, j, k, _, _, hk, _⟩ := h.ex; omega

theorem Convex2.cyc (h : Convex2 n X Y) {a b c : Nat} (h1 : a < b) (h2 : b < c) (h3 : c < a + n) :
    0 ≤ area2 X Y (a % n) (b % n) (c % n) := by
  have hn := h.npos
  have ha : n * (a / n) + a % n = a := Nat.div_add_mod a n
  have hr := Nat.mod_lt a hn
  rcases mod_window (n := n) (q := a / n) (r := a % n) (b := b) (by omega) (by omega) hr with ⟨b1, b2⟩ | ⟨b1, b2⟩ <;>
  rcases mod_window (n := n) (q := a / n) (r := a % n) (b := c) (by omega) (by omega) hr with ⟨c1, c2⟩ | ⟨c1, c2⟩ <;>
  rw [b2, c2]
  · exact h.ccw _ _ _ (by omega) (by omega) (by omega)
  · rw [area2_rot X Y]
    exact h.ccw _ _ _ (by omega) (by omega) (by omega)
  · omega
  · rw [← area2_rot X Y]
    exact h.ccw _ _ _ (by omega) (by omega) (by omega)

theorem Convex2.cyc_ne (h : Convex2 n X Y) {a b : Nat} (h1 : a < b) (h3 : b < a + n) :
    X (a % n) ≠ X (b % n) ∨ Y (a % n) ≠ Y (b % n) := by
  have hn := h.npos
  have ha : n * (a / n) + a % n = a := Nat.div_add_mod a n
  have hr := Nat.mod_lt a hn
  rcases mod_window (n := n) (q := a / n) (r := a % n) (b := b) (by omega) (by omega) hr with ⟨b1, b2⟩ | ⟨b1, b2⟩ <;>
  rw [b2]
  · exact h.ne _ _ (by omega) (by omega)
  · have := h.ne (b - n * (a / n) - n) (a % n) (by omega) (by omega)
    exact this.imp Ne.symm Ne.symm

/-- The weak form, with repeated vertices. -/
theorem Convex2.cyc_le (h : Convex2 n X Y) {a b c : Nat} (h1 : a ≤ b) (h2 : b ≤ c) (h3 : c ≤ a + n) :
    0 ≤ area2 X Y (a % n) (b % n) (c % n) := by
  rcases Nat.eq_or_lt_of_le h1 with rfl | h1
  · unfold area2; simp
  rcases Nat.eq_or_lt_of_le h2 with rfl | h2
  · unfold area2; apply le_of_eq; ring
  rcases Nat.eq_or_lt_of_le h3 with rfl | h3
  · rw [Nat.add_mod_right]; unfold area2; apply le_of_eq; ring
  exact h.cyc h1 h2 h3

/-- Not all vertices are on the line through two of them. -/
theorem Convex2.off_line (h : Convex2 n X Y) {p q : Nat} (hpq : X p ≠ X q ∨ Y p ≠ Y q) :
    ∃ m, m < n ∧ area2 X Y p q m ≠ 0 := by
  by_contra hc
  push Not at hc
  obtain ⟨i, j, k, h1, h2, h3, h4⟩ := h.ex
  have a1 := hc i (by omega)
  have a2 := hc j (by omega)
  have a3 := hc k (by omega)
  unfold area2 at *
  have e1 : (X q - X p) * ((X j - X i) * (Y k - Y i) - (Y j - Y i) * (X k - X i)) = 0 := by
    linear_combination (X j - X i) * (a3 - a1) - (X k - X i) * (a2 - a1)
  have e2 : (Y q - Y p) * ((X j - X i) * (Y k - Y i) - (Y j - Y i) * (X k - X i)) = 0 := by
    linear_combination (Y j - Y i) * (a3 - a1) - (Y k - Y i) * (a2 - a1)
  rcases hpq with hp | hp
  · rcases mul_eq_zero.1 e1 with h' | h'
    · exact hp (by linarith)
    · linarith
  · rcases mul_eq_zero.1 e2 with h' | h'
    · exact hp (by linarith)
    · linarith

/-- On a line with a vertex beside it, a middle point is not below two outer points. -/
theorem collinear_mid {X Y : Nat → ℚ} {α β γ : ℚ} {a b c m : Nat}
    (h0 : area2 X Y a b c = 0)
    (hab : 0 < area2 X Y a b m) (hbc : 0 < area2 X Y b c m)
    (ha : 0 < α * X a + β * Y a + γ) (hb : α * X b + β * Y b + γ ≤ 0) (hc : 0 < α * X c + β * Y c + γ) :
    False := by
  -- `b` is a convex combination of `a` and `c`, with the weights below
  have key : (area2 X Y a b m + area2 X Y b c m) * (α * X b + β * Y b + γ) =
      area2 X Y b c m * (α * X a + β * Y a + γ) + area2 X Y a b m * (α * X c + β * Y c + γ) := by
    unfold area2 at *
    have hx : (X b - X a) * (Y c - Y b) = (Y b - Y a) * (X c - X b) := by linear_combination h0
    linear_combination (-(α * (X m - X b) + β * (Y m - Y b))) * hx
  nlinarith [mul_pos hbc ha, mul_pos hab hc, mul_nonneg (add_pos hab hbc).le (neg_nonneg.2 hb)]

theorem ne_shift {X Y : Nat → ℚ} {a b c m : Nat} (h0 : area2 X Y a b c = 0) (hm : area2 X Y a b m ≠ 0)
    (hne : X b ≠ X c ∨ Y b ≠ Y c) : area2 X Y b c m ≠ 0 := by
  intro h
  unfold area2 at *
  have e1 : (X c - X b) * ((X b - X a) * (Y m - Y a) - (Y b - Y a) * (X m - X a)) = 0 := by
    linear_combination (X m - X b) * h0 + (X b - X a) * h
  have e2 : (Y c - Y b) * ((X b - X a) * (Y m - Y a) - (Y b - Y a) * (X m - X a)) = 0 := by
    linear_combination (Y m - Y b) * h0 + (Y b - Y a) * h
  rcases hne with hp | hp
  · rcases mul_eq_zero.1 e1 with h' | h'
    · exact hp (by linarith)
    · exact hm h'
  · rcases mul_eq_zero.1 e2 with h' | h'
    · exact hp (by linarith)
    · exact hm h'

theorem pos_of_ne {X Y : Nat → ℚ} {a b c m : Nat} (h0 : area2 X Y a b c = 0) (hm : area2 X Y a b m ≠ 0)
    (hne : X b ≠ X c ∨ Y b ≠ Y c) (hge : 0 ≤ area2 X Y b c m) : 0 < area2 X Y b c m :=
  lt_of_le_of_ne hge (Ne.symm (ne_shift h0 hm hne))

/-- Four collinear vertices with a vertex beside them after the last. -/
theorem Convex2.four (h : Convex2 n X Y) {α β γ : ℚ} {a b c d m : Nat}
    (h1 : a < b) (h2 : b < c) (h3 : c < d) (h4 : d < m) (h5 : m < a + n)
    (o1 : area2 X Y (a % n) (b % n) (c % n) = 0) (o2 : area2 X Y (b % n) (c % n) (d % n) = 0)
    (hm : area2 X Y (a % n) (b % n) (m % n) ≠ 0) :
    ¬ (0 < α * X (a % n) + β * Y (a % n) + γ ∧ α * X (b % n) + β * Y (b % n) + γ ≤ 0 ∧
        0 < α * X (c % n) + β * Y (c % n) + γ) ∧
    ¬ (0 < α * X (b % n) + β * Y (b % n) + γ ∧ α * X (c % n) + β * Y (c % n) + γ ≤ 0 ∧
        0 < α * X (d % n) + β * Y (d % n) + γ) := by
  have pab : 0 < area2 X Y (a % n) (b % n) (m % n) :=
    lt_of_le_of_ne (h.cyc h1 (by omega) h5) (Ne.symm hm)
  have pbc : 0 < area2 X Y (b % n) (c % n) (m % n) :=
    pos_of_ne o1 hm (h.cyc_ne h2 (by omega)) (h.cyc h2 (by omega) (by omega))
  have pcd : 0 < area2 X Y (c % n) (d % n) (m % n) :=
    pos_of_ne o2 pbc.ne' (h.cyc_ne h3 (by omega)) (h.cyc h3 (by omega) (by omega))
  exact ⟨fun ⟨x, y, z⟩ => collinear_mid o1 pab pbc x y z, fun ⟨x, y, z⟩ => collinear_mid o2 pbc pcd x y z⟩

/-- The positive vertices are one run. -/
theorem Convex2.alternate (h : Convex2 n X Y) (α β γ : ℚ) {a b c d : Nat}
    (h1 : a < b) (h2 : b < c) (h3 : c < d) (h4 : d < a + n) :
    ¬ (0 < α * X (a % n) + β * Y (a % n) + γ ∧ ¬ 0 < α * X (b % n) + β * Y (b % n) + γ ∧
       0 < α * X (c % n) + β * Y (c % n) + γ ∧ ¬ 0 < α * X (d % n) + β * Y (d % n) + γ) := by
  rintro ⟨ga, gb, gc, gd⟩
  rw [not_lt] at gb gd
  have hn := h.npos
  have p1 := h.cyc h2 h3 (by omega)
  have p2 := h.cyc (a := a) (b := c) (c := d) (by omega) h3 (by omega)
  have p3 := h.cyc (a := a) (b := b) (c := d) h1 (by omega) (by omega)
  have p4 := h.cyc (a := a) (b := b) (c := c) h1 h2 (by omega)
  have key : area2 X Y (b % n) (c % n) (d % n) * (α * X (a % n) + β * Y (a % n) + γ) +
      area2 X Y (a % n) (b % n) (d % n) * (α * X (c % n) + β * Y (c % n) + γ) =
      area2 X Y (a % n) (c % n) (d % n) * (α * X (b % n) + β * Y (b % n) + γ) +
      area2 X Y (a % n) (b % n) (c % n) * (α * X (d % n) + β * Y (d % n) + γ) := by
    unfold area2; ring
  have sum : area2 X Y (b % n) (c % n) (d % n) + area2 X Y (a % n) (b % n) (d % n) =
      area2 X Y (a % n) (c % n) (d % n) + area2 X Y (a % n) (b % n) (c % n) := by
    unfold area2; ring
  have n1 := mul_nonneg p1 ga.le
  have n2 := mul_nonneg p3 gc.le
  have n3 := mul_nonneg p2 (neg_nonneg.2 gb)
  have n4 := mul_nonneg p4 (neg_nonneg.2 gd)
  have z1 : area2 X Y (b % n) (c % n) (d % n) * (α * X (a % n) + β * Y (a % n) + γ) = 0 := by linarith
  have z2 : area2 X Y (a % n) (b % n) (d % n) * (α * X (c % n) + β * Y (c % n) + γ) = 0 := by linarith
  have o1 : area2 X Y (b % n) (c % n) (d % n) = 0 := by
    rcases mul_eq_zero.1 z1 with h' | h'
    · exact h'
    · linarith
  have o2 : area2 X Y (a % n) (b % n) (d % n) = 0 := by
    rcases mul_eq_zero.1 z2 with h' | h'
    · exact h'
    · linarith
  have o3 : area2 X Y (a % n) (c % n) (d % n) = 0 := by linarith
  have o4 : area2 X Y (a % n) (b % n) (c % n) = 0 := by linarith
  have tn : (a + n) % n = a % n := Nat.add_mod_right ..
  have tb : (b + n) % n = b % n := Nat.add_mod_right ..
  have tc : (c + n) % n = c % n := Nat.add_mod_right ..
  obtain ⟨m0, hm0, hm1⟩ := h.off_line (h.cyc_ne h1 (by omega) : X (a % n) ≠ X (b % n) ∨ _)
  obtain ⟨m, m1, m2, m3⟩ := exists_rep (n := n) a m0 hm0
  rw [← m3] at hm1
  have e1 : m ≠ a := by rintro rfl; exact hm1 (by unfold area2; ring)
  have e2 : m ≠ b := by rintro rfl; exact hm1 (by unfold area2; ring)
  have e3 : m ≠ c := by rintro rfl; exact hm1 o4
  have e4 : m ≠ d := by rintro rfl; exact hm1 o2
  have hbc := ne_shift o4 hm1 (h.cyc_ne h2 (by omega))
  have hcd := ne_shift o1 hbc (h.cyc_ne h3 (by omega))
  have o5 : area2 X Y (c % n) (d % n) (a % n) = 0 := by rw [area2_rot X Y]; exact o3
  have o6 : area2 X Y (d % n) (a % n) (b % n) = 0 := by rw [← area2_rot X Y]; exact o2
  have hda := ne_shift o5 hcd (by
    have := h.cyc_ne (a := d) (b := a + n) h4 (by omega)
    rwa [tn] at this)
  have tm : (m + n) % n = m % n := Nat.add_mod_right ..
  rcases Nat.lt_or_ge m b with hb | hb
  · have := (h.four (α := α) (β := β) (γ := γ) (a := b) (b := c) (c := d) (d := a + n) (m := m + n)
      h2 h3 h4 (by omega) (by omega) o1 (by rw [tn]; exact o5) (by rw [tm]; exact hbc)).2
    rw [tn] at this
    exact this ⟨gc, gd, ga⟩
  rcases Nat.lt_or_ge m c with hc | hc
  · have := (h.four (α := α) (β := β) (γ := γ) (a := c) (b := d) (c := a + n) (d := b + n) (m := m + n)
      h3 h4 (by omega) (by omega) (by omega) (by rw [tn]; exact o5) (by rw [tn, tb]; exact o6)
      (by rw [tm]; exact hcd)).1
    rw [tn] at this
    exact this ⟨gc, gd, ga⟩
  rcases Nat.lt_or_ge m d with hd | hd
  · have := (h.four (α := α) (β := β) (γ := γ) (a := d) (b := a + n) (c := b + n) (d := c + n) (m := m + n)
      h4 (by omega) (by omega) (by omega) (by omega) (by rw [tn, tb]; exact o6)
      (by rw [tn, tb, tc]; exact o4) (by rw [tm, tn]; exact hda)).2
    rw [tn, tb, tc] at this
    exact this ⟨ga, gb, gc⟩
  · exact (h.four (α := α) (β := β) (γ := γ) h1 h2 h3 (by omega) m2 o4 o1 hm1).1 ⟨ga, gb, gc⟩

/-- A non-constant affine function changes sign on a convex cycle like on a circle. -/
theorem Convex2.pattern (h : Convex2 n X Y) {α β : ℚ} (γ : ℚ) (hαβ : α ≠ 0 ∨ β ≠ 0) :
    Pattern n fun i => α * X i + β * Y i + γ := by
  refine ⟨?_, fun a b c d h1 h2 h3 h4 => h.alternate α β γ h1 h2 h3 h4, fun a b c d h1 h2 h3 h4 => ?_,
    fun a b c d h1 h2 h3 h4 gb gc => ?_⟩
  · by_contra hc
    push Not at hc
    obtain ⟨i, j, k, h1, h2, h3, h4⟩ := h.ex
    have z : ∀ x, x < n → α * X x + β * Y x + γ = 0 := fun x hx =>
      le_antisymm (hc x hx).1 (hc x hx).2
    have zi := z i (by omega)
    have zj := z j (by omega)
    have zk := z k (by omega)
    unfold area2 at h4
    have e1 : α * ((X j - X i) * (Y k - Y i) - (Y j - Y i) * (X k - X i)) = 0 := by
      linear_combination (zj - zi) * (Y k - Y i) - (zk - zi) * (Y j - Y i)
    have e2 : β * ((X j - X i) * (Y k - Y i) - (Y j - Y i) * (X k - X i)) = 0 := by
      linear_combination (zk - zi) * (X j - X i) - (zj - zi) * (X k - X i)
    rcases hαβ with h0 | h0
    · exact h4.ne' ((mul_eq_zero.1 e1).resolve_left h0)
    · exact h4.ne' ((mul_eq_zero.1 e2).resolve_left h0)
  · have := h.alternate (-α) (-β) (-γ) h1 h2 h3 h4
    rintro ⟨ga, gb, gc, gd⟩
    exact this ⟨by linarith, by rw [not_lt] at *; linarith, by linarith, by rw [not_lt] at *; linarith⟩
  · have p1 := h.cyc (a := b) (b := c) (c := d) h2 h3 (by omega)
    have p2 := h.cyc (a := b) (b := c) (c := a + n) h2 (by omega) (by omega)
    rw [Nat.add_mod_right] at p2
    have hne := h.cyc_ne h2 (by omega)
    -- the direction of `b c`, in terms of the normal
    obtain ⟨κ, k1, k2⟩ : ∃ κ : ℚ, X (c % n) - X (b % n) = -κ * β ∧ Y (c % n) - Y (b % n) = κ * α := by
      have hd : α * (X (c % n) - X (b % n)) + β * (Y (c % n) - Y (b % n)) = 0 := by linarith
      rcases hαβ with h0 | h0
      · refine ⟨(Y (c % n) - Y (b % n)) / α, ?_, by field_simp⟩
        field_simp
        linarith
      · refine ⟨-(X (c % n) - X (b % n)) / β, by field_simp, ?_⟩
        field_simp
        linarith
    have q : ∀ x, area2 X Y (b % n) (c % n) x = -κ * (α * X x + β * Y x + γ) := by
      intro x
      unfold area2
      rw [k1, k2]
      linear_combination κ * gb
    rw [q] at p1 p2
    have hκ : κ ≠ 0 := by
      rintro rfl
      rcases hne with h' | h'
      · exact h' (by linarith)
      · exact h' (by linarith)
    constructor
    · rintro ⟨g1, g2⟩
      rcases lt_or_gt_of_ne hκ with hk | hk
      · nlinarith
      · nlinarith
    · rintro ⟨g1, g2⟩
      rcases lt_or_gt_of_ne hκ with hk | hk
      · nlinarith
      · nlinarith

theorem Convex2.bitonic (h : Convex2 n X Y) {α β : ℚ} (γ : ℚ) (hαβ : α ≠ 0 ∨ β ≠ 0) :
    Bitonic n fun i => α * X i + β * Y i + γ := by
  intro t
  have := h.pattern (γ - t) hαβ
  refine (congrArg (Pattern n) ?_).mp this
  funext i
  ring

end Walnut.Poly
