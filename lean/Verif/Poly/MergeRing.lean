/-
Two convex polygons of the plane with a common edge: when both corners of the union
turn left, the union is a convex polygon.
-/
import Verif.Poly.Hull

namespace Walnut.Poly

/-- The vertices `u 0, …, u (n-1)` and `v 0, …, v (m-1)` belong to two convex polygons;
the edge from `u (n-1)` to `u 0` of the first one is the edge from `v (m-1)` to `v 0`
of the second one, backwards.  The corners at the edge are strict in both polygons and
the union does not turn right at the ends of the edge. -/
structure Joint (n m : Nat) (u v : Nat → ℚ × ℚ) : Prop where
  ru : VRing n u
  rv : VRing m v
  n3 : 3 ≤ n
  m3 : 3 ≤ m
  a : u (n - 1) = v 0
  b : v (m - 1) = u 0
  ca : 0 < ar (u (n - 2)) (v 0) (u 0)
  cb : 0 < ar (v 0) (u 0) (u 1)
  da : 0 < ar (v (m - 2)) (u 0) (v 0)
  db : 0 < ar (u 0) (v 0) (v 1)
  sa : 0 ≤ ar (u (n - 2)) (v 0) (v 1)
  sb : 0 ≤ ar (v (m - 2)) (u 0) (u 1)

namespace Joint
variable {n m : Nat} {u v : Nat → ℚ × ℚ}

theorem symm (h : Joint n m u v) : Joint m n v u :=
  ⟨h.rv, h.ru, h.m3, h.n3, h.b, h.a, h.da, h.db, h.ca, h.cb, h.sb, h.sa⟩

theorem ar_swap (a b c : ℚ × ℚ) : ar b a c = -ar a b c := by unfold ar; ring

/-- The points of the first polygon are left of the common edge. -/
theorem left (h : Joint n m u v) {i : Nat} (hi : i < n) : 0 ≤ ar (v 0) (u 0) (u i) := by
  have := h.ru.le (a := i) (b := n - 1) (c := 0 + n) (by omega) (by have := h.n3; omega) (by omega)
  rw [h.ru.per, h.a] at this
  rw [ar_rot]; exact this

/-- … strictly, other than the ends of the edge. -/
theorem left_pos (h : Joint n m u v) {i : Nat} (h1 : 1 ≤ i) (h2 : i + 2 ≤ n) : 0 < ar (v 0) (u 0) (u i) := by
  refine lt_of_le_of_ne (h.left (by omega)) fun e => ?_
  have hn := h.n3
  have k1 : 0 ≤ ar (u 1) (u i) (u (n - 1)) := h.ru.le (by omega) (by omega) (by omega)
  have k2 : 0 ≤ ar (u i) (u (n - 2)) (u (n - 1)) := h.ru.le (by omega) (by omega) (by omega)
  rw [h.a] at k1 k2
  have hne2 : u i ≠ v 0 := by rw [← h.a]; exact h.ru.ne (by omega) (by omega)
  have c1 := h.ca
  have c2 := h.cb
  generalize u i = q at *
  generalize u (n - 2) = X at *
  generalize u 1 = Z at *
  generalize u 0 = B at *
  generalize v 0 = A at *
  have f1 : ar X A B * (q.1 - A.1) = ar q X A * (B.1 - A.1) := by
    unfold ar at *; linear_combination (A.1 - X.1) * e
  have f2 : ar X A B * (q.2 - A.2) = ar q X A * (B.2 - A.2) := by
    unfold ar at *; linear_combination (A.2 - X.2) * e
  have k2' : 0 < ar q X A := by
    refine lt_of_le_of_ne k2 fun e0 => hne2 (Prod.ext ?_ ?_)
    · rw [← e0, zero_mul] at f1
      have := (mul_eq_zero.1 f1).resolve_left c1.ne'
      linarith
    · rw [← e0, zero_mul] at f2
      have := (mul_eq_zero.1 f2).resolve_left c1.ne'
      linarith
  have e3 : ar X A B * ar Z q A = -(ar q X A * ar A B Z) := by
    have : ar X A B * ar Z q A = (A.2 - Z.2) * (ar X A B * (q.1 - A.1)) - (A.1 - Z.1) * (ar X A B * (q.2 - A.2)) := by
      generalize ar X A B = c; unfold ar; ring
    rw [this, f1, f2]
    generalize ar q X A = c; unfold ar; ring
  have := mul_nonneg c1.le k1
  have := mul_pos k2' c2
  linarith

/-- Every point of the second polygon is left of the edge of the first one that ends
at the common edge. -/
theorem cone_a (h : Joint n m u v) {q : ℚ × ℚ} (h1 : 0 ≤ ar (v 0) (v 1) q) (h2 : 0 ≤ ar (u 0) (v 0) q) :
    0 ≤ ar (u (n - 2)) (v 0) q := by
  have e : ar (u 0) (v 0) (v 1) * ar (u (n - 2)) (v 0) q =
      ar (u 0) (v 0) q * ar (u (n - 2)) (v 0) (v 1) + ar (v 0) (v 1) q * ar (u (n - 2)) (v 0) (u 0) := by
    unfold ar; ring
  have := mul_nonneg h2 h.sa
  have := mul_nonneg h1 h.ca.le
  exact nonneg_of_mul_nonneg_right (a := ar (u 0) (v 0) (v 1)) (by rw [e]; linarith) h.db

/-- … and of the edge that begins there. -/
theorem cone_b (h : Joint n m u v) {q : ℚ × ℚ} (h1 : 0 ≤ ar (v (m - 2)) (u 0) q) (h2 : 0 ≤ ar (u 0) (v 0) q) :
    0 ≤ ar (u 0) (u 1) q := by
  have e : ar (v (m - 2)) (u 0) (v 0) * ar (u 0) (u 1) q =
      ar (u 0) (v 0) q * ar (v (m - 2)) (u 0) (u 1) + ar (v (m - 2)) (u 0) q * ar (v 0) (u 0) (u 1) := by
    unfold ar; ring
  have := mul_nonneg h2 h.sb
  have := mul_nonneg h1 h.cb.le
  exact nonneg_of_mul_nonneg_right (a := ar (v (m - 2)) (u 0) (v 0)) (by rw [e]; linarith) h.da

/-- A point of the line through the common edge and left of both neighbour edges is on
the common edge. -/
theorem on_edge {X A B Z c : ℚ × ℚ} (c1 : 0 < ar X A B) (c2 : 0 < ar A B Z) (hc : ar A B c = 0)
    (h1 : 0 ≤ ar X A c) (h2 : 0 ≤ ar B Z c) : ∃ s : ℚ, 0 ≤ s ∧ s ≤ 1 ∧ c = lerp s A B := by
  have f1 : ar X A B * (c.1 - A.1) = ar X A c * (B.1 - A.1) := by
    unfold ar at *; linear_combination -(A.1 - X.1) * hc
  have f2 : ar X A B * (c.2 - A.2) = ar X A c * (B.2 - A.2) := by
    unfold ar at *; linear_combination -(A.2 - X.2) * hc
  have hs : c = lerp (ar X A c / ar X A B) A B := by
    have := c1.ne'
    refine Prod.ext ?_ ?_ <;> simp only [lerp] <;> field_simp
    · linear_combination f1
    · linear_combination f2
  refine ⟨ar X A c / ar X A B, div_nonneg h1 c1.le, ?_, hs⟩
  generalize ar X A c / ar X A B = s at hs
  by_contra hcon
  push Not at hcon
  rw [hs, ar_lerp3] at h2
  have e1 : ar B Z A = ar A B Z := ar_rot _ _ _
  have e2 : ar B Z B = 0 := by unfold ar; ring
  rw [e1, e2] at h2
  nlinarith

/-- The segment from a point strictly left of the common edge and left of the two
neighbour edges to a point right of it crosses the common edge. -/
theorem crossing (h : Joint n m u v) {p q : ℚ × ℚ} (p0 : 0 < ar (v 0) (u 0) p) (q0 : ar (v 0) (u 0) q ≤ 0)
    (p1 : 0 ≤ ar (u (n - 2)) (v 0) p) (p2 : 0 ≤ ar (u 0) (u 1) p)
    (q1 : 0 ≤ ar (u (n - 2)) (v 0) q) (q2 : 0 ≤ ar (u 0) (u 1) q) :
    ∃ s t : ℚ, 0 ≤ s ∧ s ≤ 1 ∧ 0 ≤ t ∧ t < 1 ∧ lerp t q p = lerp s (v 0) (u 0) := by
  have hd : 0 < ar (v 0) (u 0) p - ar (v 0) (u 0) q := by linarith
  have t0 : 0 ≤ -ar (v 0) (u 0) q / (ar (v 0) (u 0) p - ar (v 0) (u 0) q) := div_nonneg (by linarith) hd.le
  have t1 : -ar (v 0) (u 0) q / (ar (v 0) (u 0) p - ar (v 0) (u 0) q) < 1 := by
    rw [div_lt_one hd]; linarith
  have hg : ar (v 0) (u 0) (lerp (-ar (v 0) (u 0) q / (ar (v 0) (u 0) p - ar (v 0) (u 0) q)) q p) = 0 := by
    rw [ar_lerp3]
    have := hd.ne'
    field_simp; ring
  generalize -ar (v 0) (u 0) q / (ar (v 0) (u 0) p - ar (v 0) (u 0) q) = t at *
  obtain ⟨s, s0, s1, hs⟩ := on_edge h.ca h.cb hg (by rw [ar_lerp3]; exact mix_nonneg t0 t1.le q1 p1)
    (by rw [ar_lerp3]; exact mix_nonneg t0 t1.le q2 p2)
  exact ⟨s, t, s0, s1, t0, t1, hs⟩

/-- Edges and vertices of the first ring, seen from the ends of the common edge. -/
theorem u_in (h : Joint n m u v) {i : Nat} (hi : i < n) :
    0 ≤ ar (u (n - 2)) (v 0) (u i) ∧ 0 ≤ ar (u 0) (u 1) (u i) := by
  have hn := h.n3
  constructor
  · have := h.ru.le (a := n - 2) (b := n - 1) (c := i + n) (by omega) (by omega)
    by_cases h2 : i ≤ n - 2
    · have := this (by omega)
      rwa [h.ru.per, h.a] at this
    · obtain rfl : i = n - 1 := by omega
      rw [h.a]; apply le_of_eq; unfold ar; ring
  · by_cases h0 : i = 0
    · subst h0; apply le_of_eq; unfold ar; ring
    · exact h.ru.le (by omega) (by omega) (by omega)

theorem v_in (h : Joint n m u v) {k : Nat} (hk : k < m) :
    0 ≤ ar (u (n - 2)) (v 0) (v k) ∧ 0 ≤ ar (u 0) (u 1) (v k) := by
  have h1 := h.symm.u_in hk
  have h2 := h.symm.left hk
  exact ⟨h.cone_a h1.2 h2, h.cone_b h1.1 h2⟩

/-- Two vertices of the first polygon and one of the second. -/
theorem two (h : Joint n m u v) {i j k : Nat} (hij : i < j) (hj : j < n) (hk : k < m) :
    0 ≤ ar (u i) (u j) (v k) := by
  have hn := h.n3
  have q0 : ar (v 0) (u 0) (v k) ≤ 0 := by
    have := h.symm.left hk
    rw [ar_swap] at this; linarith
  obtain ⟨q1, q2⟩ := h.v_in hk
  have fA : 0 ≤ ar (u i) (u j) (v 0) := by
    rw [← h.a]
    exact h.ru.le (by omega) (by omega) (by omega)
  have fB : 0 ≤ ar (u i) (u j) (u 0) := by
    have := h.ru.le (a := i) (b := j) (c := 0 + n)  (by omega) (by omega) (by omega)
    rwa [h.ru.per] at this
  by_cases hi : 1 ≤ i
  · obtain ⟨p1, p2⟩ := h.u_in (i := i) (by omega)
    obtain ⟨s, t, s0, s1, t0, t1, e⟩ := h.crossing (h.left_pos hi (by omega)) q0 p1 p2 q1 q2
    have := mix_nonneg s0 s1 fA fB
    rw [← ar_lerp3, ← e, ar_lerp3] at this
    have e0 : ar (u i) (u j) (u i) = 0 := by unfold ar; ring
    rw [e0, mul_zero, add_zero] at this
    exact nonneg_of_mul_nonneg_right this (by linarith)
  · by_cases hj' : j + 2 ≤ n
    · obtain ⟨p1, p2⟩ := h.u_in hj
      obtain ⟨s, t, s0, s1, t0, t1, e⟩ := h.crossing (h.left_pos (by omega) hj') q0 p1 p2 q1 q2
      have := mix_nonneg s0 s1 fA fB
      rw [← ar_lerp3, ← e, ar_lerp3] at this
      have e0 : ar (u i) (u j) (u j) = 0 := by unfold ar; ring
      rw [e0, mul_zero, add_zero] at this
      exact nonneg_of_mul_nonneg_right this (by linarith)
    · obtain rfl : i = 0 := by omega
      obtain rfl : j = n - 1 := by omega
      rw [h.a]
      exact h.symm.left hk

/-- The vertices of the union: those of the second polygon from the end of its common
edge up to the begin, then those of the first one. -/
def joined (m : Nat) (u v : Nat → ℚ × ℚ) (k : Nat) : ℚ × ℚ := if k < m - 1 then v k else u (k - (m - 1))

theorem apart (h : Joint n m u v) {i k : Nat} (hi : i + 1 < n) (hk : k + 1 < m) : v k ≠ u i := by
  have hn := h.n3
  have hm := h.m3
  intro e
  by_cases hi0 : i = 0
  · subst hi0
    rw [← h.b] at e
    exact h.rv.ne (a := k) (b := m - 1) (by omega) (by omega) e
  · have h1 := h.left_pos (i := i) (by omega) (by omega)
    have h2 := h.symm.left (i := k) (by omega)
    rw [e, ar_swap] at h2
    linarith

/-- The union is convex. -/
theorem convex (h : Joint n m u v) :
    Convex2 (n + m - 2) (fun k => (joined m u v k).1) (fun k => (joined m u v k).2) := by
  have hn := h.n3
  have hm := h.m3
  refine ⟨fun i j k h1 h2 h3 => ?_, fun i j h1 h2 => ?_, 0, m - 1, m, by omega, by omega, by omega, ?_⟩
  · show 0 ≤ ar (joined m u v i) (joined m u v j) (joined m u v k)
    unfold joined
    by_cases ck : k < m - 1
    · rw [if_pos ck, if_pos (by omega), if_pos (by omega)]
      exact h.rv.le (by omega) (by omega) (by omega)
    rw [if_neg ck]
    by_cases cj : j < m - 1
    · rw [if_pos cj, if_pos (by omega)]
      exact h.symm.two h1 (by omega) (by omega)
    rw [if_neg cj]
    by_cases ci : i < m - 1
    · rw [if_pos ci, ← ar_rot]
      exact h.two (by omega) (by omega) (by omega)
    · rw [if_neg ci]
      exact h.ru.le (by omega) (by omega) (by omega)
  · by_contra hc
    push Not at hc
    have e : joined m u v i = joined m u v j := Prod.ext hc.1 hc.2
    unfold joined at e
    by_cases cj : j < m - 1
    · rw [if_pos cj, if_pos (by omega)] at e
      exact h.rv.ne h1 (by omega) e
    rw [if_neg cj] at e
    by_cases ci : i < m - 1
    · rw [if_pos ci] at e
      exact h.apart (by omega) (by omega) e
    · rw [if_neg ci] at e
      exact h.ru.ne (by omega) (by omega) e
  · show 0 < ar (joined m u v 0) (joined m u v (m - 1)) (joined m u v m)
    unfold joined
    rw [if_pos (by omega), if_neg (by omega), if_neg (by omega), Nat.sub_self, show m - (m - 1) = 1 by omega]
    exact h.cb

end Joint

/-- The path from `x` over `a` to `y` turns left or goes straight on. -/
def Turns (x a y : ℚ × ℚ) : Prop :=
  0 < ar x a y ∨ ∃ μ : ℚ, 0 < μ ∧ y.1 - a.1 = μ * (a.1 - x.1) ∧ y.2 - a.2 = μ * (a.2 - x.2)

theorem collinear_mul {x a y : ℚ × ℚ} (hne : x ≠ a) (h : ar x a y = 0) :
    ∃ μ : ℚ, y.1 - a.1 = μ * (a.1 - x.1) ∧ y.2 - a.2 = μ * (a.2 - x.2) := by
  have h' : x.1 ≠ a.1 ∨ x.2 ≠ a.2 := by
    by_contra hc
    push Not at hc
    exact hne (Prod.ext hc.1 hc.2)
  unfold ar at h
  rcases h' with h' | h'
  · have h0 : a.1 - x.1 ≠ 0 := sub_ne_zero.mpr h'.symm
    refine ⟨(y.1 - a.1) / (a.1 - x.1), by field_simp, ?_⟩
    field_simp
    linear_combination h
  · have h0 : a.2 - x.2 ≠ 0 := sub_ne_zero.mpr h'.symm
    refine ⟨(y.2 - a.2) / (a.2 - x.2), ?_, by field_simp⟩
    field_simp
    linear_combination -h

/-- The boundary of a convex polygon turns left or goes straight on. -/
theorem VRing.turns {n : Nat} {V : Nat → ℚ × ℚ} (h : VRing n V) (hn : 3 ≤ n) (i : Nat) :
    Turns (V i) (V (i + 1)) (V (i + 2)) := by
  rcases (h.le (a := i) (b := i + 1) (c := i + 2) (by omega) (by omega) (by omega)).lt_or_eq with h0 | h0
  · exact Or.inl h0
  right
  have hne : V i ≠ V (i + 1) := h.ne (by omega) (by omega)
  have hne' : V (i + 1) ≠ V (i + 2) := h.ne (by omega) (by omega)
  obtain ⟨μ, e1, e2⟩ := collinear_mul hne h0.symm
  refine ⟨μ, ?_, e1, e2⟩
  obtain ⟨p, _, hp⟩ := h.off hne
  obtain ⟨q, q1, q2, hq⟩ := Cut.win (V := V) (n := n) (a := i) (j := p) h.npos h.per
  rw [← hq] at hp
  have hqi : q ≠ i := by rintro rfl; apply hp; unfold ar; ring
  have hqi1 : q ≠ i + 1 := by rintro rfl; apply hp; unfold ar; ring
  have k1 : 0 ≤ ar (V i) (V (i + 1)) (V q) := h.le (by omega) (by omega) (by omega)
  have k1' := lt_of_le_of_ne k1 hp.symm
  have k2 : 0 ≤ ar (V (i + 1)) (V (i + 2)) (V q) := h.le (by omega) (by omega) (by omega)
  have e : ar (V (i + 1)) (V (i + 2)) (V q) = μ * ar (V i) (V (i + 1)) (V q) := by
    unfold ar; rw [e1, e2]; ring
  rw [e] at k2
  refine lt_of_le_of_ne (nonneg_of_mul_nonneg_left k2 k1') fun e0 => hne' (Prod.ext ?_ ?_)
  · rw [← e0, zero_mul] at e1; linarith
  · rw [← e0, zero_mul] at e2; linarith

/-- A path that turns left or goes straight on. -/
theorem Turns.nonneg {x a y : ℚ × ℚ} (h : Turns x a y) : 0 ≤ ar x a y := by
  rcases h with h | ⟨μ, _, e1, e2⟩
  · exact h.le
  · apply le_of_eq
    unfold ar
    linear_combination -(a.1 - x.1) * e2 + (a.2 - x.2) * e1

/-- Where the union turns left or goes straight on, the two polygons have strict
corners. -/
theorem corner_pos {n m : Nat} {u v : Nat → ℚ × ℚ} (ru : VRing n u) (rv : VRing m v) (hn : 3 ≤ n) (hm : 3 ≤ m)
    (a : u (n - 1) = v 0) (b : v (m - 1) = u 0) (t : Turns (u (n - 2)) (v 0) (v 1)) :
    0 < ar (u (n - 2)) (v 0) (u 0) ∧ 0 < ar (u 0) (v 0) (v 1) := by
  have t1 := ru.turns hn (n - 2)
  have t2 := rv.turns hm (m - 1)
  rw [show n - 2 + 1 = n - 1 by omega, show n - 2 + 2 = 0 + n by omega, ru.per, a] at t1
  rw [show m - 1 + 1 = 0 + m by omega, show m - 1 + 2 = 1 + m by omega, rv.per, rv.per, b] at t2
  have hne : u (n - 2) ≠ v 0 := by rw [← a]; exact ru.ne (by omega) (by omega)
  have n1 := t1.nonneg
  have n2 := t2.nonneg
  generalize u (n - 2) = X at *
  generalize v 1 = Y at *
  generalize u 0 = B at *
  generalize v 0 = A at *
  rcases t with t | ⟨μ, μ0, e1, e2⟩
  · constructor
    · rcases t1 with t1 | ⟨κ, κ0, f1, f2⟩
      · exact t1
      · exfalso
        have : κ * ar X A Y = -ar B A Y := by
          unfold ar; linear_combination (A.2 - Y.2) * f1 - (A.1 - Y.1) * f2
        have := mul_pos κ0 t
        linarith
    · rcases t2 with t2 | ⟨κ, κ0, f1, f2⟩
      · exact t2
      · exfalso
        have : ar X A Y = -(κ * ar X A B) := by
          unfold ar; linear_combination (A.1 - X.1) * f2 - (A.2 - X.2) * f1
        have := mul_nonneg κ0.le n1
        linarith
  · have hc : ar B A Y = μ * ar X A B := by
      unfold ar; linear_combination (A.1 - B.1) * e2 - (A.2 - B.2) * e1
    rcases t1 with t1 | ⟨κ, κ0, f1, f2⟩
    · refine ⟨t1, ?_⟩
      rw [hc]; exact mul_pos μ0 t1
    · exfalso
      have c1 : ar X A B = 0 := by
        unfold ar; linear_combination (A.1 - X.1) * f2 - (A.2 - X.2) * f1
      rcases t2 with t2 | ⟨l, l0, g1, g2⟩
      · rw [hc, c1] at t2; simp at t2
      · have hz : μ + l * κ ≠ 0 := by have := mul_pos l0 κ0; intro; linarith
        apply hne
        refine Prod.ext ?_ ?_
        · have : (μ + l * κ) * (A.1 - X.1) = 0 := by linear_combination -e1 + g1 - l * f1
          have := (mul_eq_zero.1 this).resolve_left hz
          linarith
        · have : (μ + l * κ) * (A.2 - X.2) = 0 := by linear_combination -e2 + g2 - l * f2
          have := (mul_eq_zero.1 this).resolve_left hz
          linarith

/-- Two convex polygons whose union turns left or goes straight on at both ends of the
common edge. -/
theorem Joint.of_turns {n m : Nat} {u v : Nat → ℚ × ℚ} (ru : VRing n u) (rv : VRing m v) (hn : 3 ≤ n) (hm : 3 ≤ m)
    (a : u (n - 1) = v 0) (b : v (m - 1) = u 0) (ta : Turns (u (n - 2)) (v 0) (v 1))
    (tb : Turns (v (m - 2)) (u 0) (u 1)) : Joint n m u v := by
  obtain ⟨h1, h2⟩ := corner_pos ru rv hn hm a b ta
  obtain ⟨h3, h4⟩ := corner_pos rv ru hm hn b a tb
  exact ⟨ru, rv, hn, hm, a, b, h1, h4, h3, h2, ta.nonneg, tb.nonneg⟩

/-- The same vertices, from another one on. -/
theorem VRing.shift {n : Nat} {V : Nat → ℚ × ℚ} (h : VRing n V) (c : Nat) : VRing n fun k => V (k + c) := by
  refine ⟨fun h1 h2 h3 => h.le (by omega) (by omega) (by omega), fun h1 h2 => h.ne (by omega) (by omega),
    fun a => ?_, fun {p q} hpq => ?_, h.npos⟩
  · rw [show a + n + c = (a + c) + n by omega]; exact h.per _
  · obtain ⟨k, _, hk⟩ := h.off hpq
    obtain ⟨i, i1, i2, hi⟩ := Cut.win (V := V) (n := n) (a := c) (j := k) h.npos h.per
    refine ⟨i - c, by omega, ?_⟩
    rw [show i - c + c = i by omega, hi]; exact hk

/-- All indices other than `c`, in order. -/
def omit1 (c k : Nat) : Nat := if k < c then k else k + 1

/-- A vertex between two others can be left out. -/
theorem Convex2.leave_out {n : Nat} {V : Nat → ℚ × ℚ} (h : Convex2 n (fun k => (V k).1) (fun k => (V k).2))
    {c p s : Nat} (hp : p < n) (hs : s < n) (hpc : p ≠ c) (hsc : s ≠ c) {t : ℚ} (t0 : 0 ≤ t) (t1 : t ≤ 1)
    (e : V c = lerp t (V p) (V s)) (hc : c < n) :
    Convex2 (n - 1) (fun k => (V (omit1 c k)).1) (fun k => (V (omit1 c k)).2) := by
  have mono : ∀ {i j}, i < j → omit1 c i < omit1 c j := by
    intro i j hij; unfold omit1; split <;> split <;> omega
  have bound : ∀ {i}, i < n - 1 → omit1 c i < n := by
    intro i hi; unfold omit1; split <;> omega
  have onto : ∀ {i}, i < n → i ≠ c → ∃ j, j < n - 1 ∧ omit1 c j = i := by
    intro i hi hic
    rcases Nat.lt_or_ge i c with h1 | h1
    · exact ⟨i, by omega, by unfold omit1; rw [if_pos h1]⟩
    · exact ⟨i - 1, by omega, by unfold omit1; rw [if_neg (by omega)]; omega⟩
  refine ⟨fun i j k h1 h2 h3 => h.ccw _ _ _ (mono h1) (mono h2) (bound h3),
    fun i j h1 h2 => h.ne _ _ (mono h1) (bound h2), ?_⟩
  -- a positive triple without `c`, in any order
  obtain ⟨x, y, z, hx, hy, hz, pos⟩ : ∃ x y z, (x < n ∧ x ≠ c) ∧ (y < n ∧ y ≠ c) ∧ (z < n ∧ z ≠ c) ∧ 0 < ar (V x) (V y) (V z) := by
    obtain ⟨i, j, k, h1, h2, h3, h4⟩ := h.ex
    have h4 : 0 < ar (V i) (V j) (V k) := h4
    have step : ∀ {x y z}, 0 < ar (V x) (V y) (V z) → x = c → y ≠ c → z ≠ c → y < n → z < n →
        ∃ x y z, (x < n ∧ x ≠ c) ∧ (y < n ∧ y ≠ c) ∧ (z < n ∧ z ≠ c) ∧ 0 < ar (V x) (V y) (V z) := by
      intro x y z h0 hx hy hz hyn hzn
      subst hx
      rw [e, ar_lerp1] at h0
      by_cases hP : 0 < ar (V p) (V y) (V z)
      · exact ⟨p, y, z, ⟨hp, hpc⟩, ⟨hyn, hy⟩, ⟨hzn, hz⟩, hP⟩
      · refine ⟨s, y, z, ⟨hs, hsc⟩, ⟨hyn, hy⟩, ⟨hzn, hz⟩, ?_⟩
        push Not at hP
        by_contra hS
        push Not at hS
        have := mul_nonneg (show 0 ≤ 1 - t by linarith) (show 0 ≤ -ar (V p) (V y) (V z) by linarith)
        have := mul_nonneg t0 (show 0 ≤ -ar (V s) (V y) (V z) by linarith)
        linarith
    by_cases ci : i = c
    · exact step h4 ci (by omega) (by omega) (by omega) (by omega)
    by_cases cj : j = c
    · rw [← ar_rot] at h4
      exact step h4 cj (by omega) (by omega) (by omega) (by omega)
    by_cases ck : k = c
    · rw [← ar_rot, ← ar_rot] at h4
      exact step h4 ck (by omega) (by omega) (by omega) (by omega)
    · exact ⟨i, j, k, ⟨by omega, ci⟩, ⟨by omega, cj⟩, ⟨by omega, ck⟩, h4⟩
  obtain ⟨x', hx', rfl⟩ := onto hx.1 hx.2
  obtain ⟨y', hy', rfl⟩ := onto hy.1 hy.2
  obtain ⟨z', hz', rfl⟩ := onto hz.1 hz.2
  have key : ∀ {a b d}, a < b → b < d → d < n - 1 → 0 ≤ ar (V (omit1 c a)) (V (omit1 c b)) (V (omit1 c d)) :=
    fun h1 h2 h3 => h.ccw _ _ _ (mono h1) (mono h2) (bound h3)
  have conc : ∀ {a b d}, a < b → b < d → d < n - 1 → 0 < ar (V (omit1 c a)) (V (omit1 c b)) (V (omit1 c d)) →
      ∃ i j k, i < j ∧ j < k ∧ k < n - 1 ∧
        0 < area2 (fun k => (V (omit1 c k)).1) (fun k => (V (omit1 c k)).2) i j k :=
    fun h1 h2 h3 h4 => ⟨_, _, _, h1, h2, h3, h4⟩
  have r1 := ar_rot (V (omit1 c x')) (V (omit1 c y')) (V (omit1 c z'))
  have r2 := ar_rot (V (omit1 c y')) (V (omit1 c z')) (V (omit1 c x'))
  have sw : ∀ a b d : ℚ × ℚ, ar b a d = -ar a b d := Joint.ar_swap
  rcases lt_trichotomy x' y' with h1 | h1 | h1
  · rcases lt_trichotomy y' z' with h2 | h2 | h2
    · exact conc h1 h2 hz' pos
    · subst h2; exfalso; unfold ar at pos; linarith
    · rcases lt_trichotomy x' z' with h3 | h3 | h3
      · have := key h3 h2 hy'
        rw [sw, r2, r1] at this; linarith
      · subst h3; exfalso; unfold ar at pos; linarith
      · exact conc h3 h1 hy' (by rw [r2, r1]; exact pos)
  · subst h1; exfalso; unfold ar at pos; linarith
  · rcases lt_trichotomy x' z' with h3 | h3 | h3
    · have := key h1 h3 hz'
      rw [sw] at this; linarith
    · subst h3; exfalso; unfold ar at pos; linarith
    · rcases lt_trichotomy y' z' with h2 | h2 | h2
      · exact conc h2 h3 hx' (by rw [r1]; exact pos)
      · subst h2; exfalso; unfold ar at pos; linarith
      · have := key h2 h1 hx'
        rw [sw, r1] at this; linarith

end Walnut.Poly
