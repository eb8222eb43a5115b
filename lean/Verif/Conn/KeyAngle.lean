/-
The keys that `EdgeLineConnector` sorts half-edges around a line by, as angles.
-/
import Verif.Conn.CyclicAlt
import Verif.Bsp.AroundEdge
import Verif.Props.Rotation
import Mathlib.Data.List.Sort

namespace Walnut.Conn
open Walnut.Geom Walnut.Props Real
open Walnut.Bsp (tw tw_parallel self_pos)

/-- The projection along the axis `k` keeps the sense of the rotation around `D`. -/
theorem proj_cross (k : Fin 3) {D m m' : Q3} (h : dotQ m D = 0) (h' : dotQ m' D = 0) :
    dotQ D D * (m (k + 1) * m' (k + 2) - m (k + 2) * m' (k + 1)) = D k * tw D m m' := by
  unfold tw dotQ at *
  simp only [crossQ_zero, crossQ_one, crossQ_two] at *
  fin_cases k
  · show (_ : ℚ) * (m 1 * m' 2 - m 2 * m' 1) = D 0 * _
    linear_combination (D 1 * m' 2 - D 2 * m' 1) * h - (D 1 * m 2 - D 2 * m 1) * h'
  · show (_ : ℚ) * (m 2 * m' 0 - m 0 * m' 2) = D 1 * _
    linear_combination (D 2 * m' 0 - D 0 * m' 2) * h - (D 2 * m 0 - D 0 * m 2) * h'
  · show (_ : ℚ) * (m 0 * m' 1 - m 1 * m' 0) = D 2 * _
    linear_combination (D 0 * m' 1 - D 1 * m' 0) * h - (D 0 * m 1 - D 1 * m 0) * h'

theorem proj_ne (k : Fin 3) {D m : Q3} (hk : D k ≠ 0) (h : dotQ m D = 0) (hm : m ≠ 0) : m (k + 1) ≠ 0 ∨ m (k + 2) ≠ 0 := by
  by_contra hc
  push Not at hc
  obtain ⟨c1, c2⟩ := hc
  apply hm
  unfold dotQ at h
  have hk0 : m k * D k = 0 := by
    fin_cases k
    · have c1 : m 1 = 0 := c1
      have c2 : m 2 = 0 := c2
      show m 0 * D 0 = 0
      rw [c1, c2] at h; linarith
    · have c1 : m 2 = 0 := c1
      have c2 : m 0 = 0 := c2
      show m 1 * D 1 = 0
      rw [c1, c2] at h; linarith
    · have c1 : m 0 = 0 := c1
      have c2 : m 1 = 0 := c2
      show m 2 * D 2 = 0
      rw [c1, c2] at h; linarith
  have c0 := (mul_eq_zero.1 hk0).resolve_right hk
  funext i
  fin_cases k <;> fin_cases i <;> first | exact c0 | exact c1 | exact c2

theorem same_proj (k : Fin 3) {D m m' : Q3} (hD : D ≠ 0) (hk : D k ≠ 0) (h : dotQ m D = 0) (h' : dotQ m' D = 0) (hm : m ≠ 0) (h0 : tw D m m' = 0) :
    0 < m (k + 1) * m' (k + 1) + m (k + 2) * m' (k + 2) ↔ 0 < dotQ m m' := by
  have hmm := self_pos hm
  have par := fun i => tw_parallel hD h h' h0 (Pi.single i 1)
  have ds : ∀ (u : Q3) i, dotQ u (Pi.single i 1) = u i := by
    intro u i
    unfold dotQ
    fin_cases i <;> simp [Pi.single_apply]
  simp only [ds] at par
  have sq : 0 < m (k + 1) * m (k + 1) + m (k + 2) * m (k + 2) := by
    rcases proj_ne k hk h hm with c | c
    · have := mul_self_pos.2 c
      have := mul_self_nonneg (m (k + 2))
      linarith
    · have := mul_self_pos.2 c
      have := mul_self_nonneg (m (k + 1))
      linarith
  have key : dotQ m m * (m (k + 1) * m' (k + 1) + m (k + 2) * m' (k + 2)) = dotQ m m' * (m (k + 1) * m (k + 1) + m (k + 2) * m (k + 2)) := by
    linear_combination m (k + 1) * par (k + 1) + m (k + 2) * par (k + 2)
  constructor
  · intro hp
    have := mul_pos hmm hp
    rw [key] at this
    exact pos_of_mul_pos_left this sq.le
  · intro hp
    have := mul_pos hp sq
    rw [← key] at this
    exact pos_of_mul_pos_right this hmm.le

/-- What a key's vector is: the projection of the normal `m`, which is perpendicular to the line. -/
structure KeyVec (k : Fin 3) (D m : Q3) (v : V2) : Prop where
  ne : m ≠ 0
  perp : dotQ m D = 0
  noMin : NoMin2 v
  x : (v.x : ℚ) = m (k + 1)
  y : (v.y : ℚ) = m (k + 2)

theorem KeyVec.nonzero {k : Fin 3} {D m : Q3} {v : V2} (h : KeyVec k D m v) (hk : D k ≠ 0) : v ≠ ⟨0, 0⟩ := by
  rintro rfl
  rcases proj_ne k hk h.perp h.ne with c | c
  · exact c (by rw [← h.x]; simp)
  · exact c (by rw [← h.y]; simp)

theorem KeyVec.same {k : Fin 3} {D m m' : Q3} {v v' : V2} (h : KeyVec k D m v) (h' : KeyVec k D m' v') (hk : 0 < D k) : SameDir2 v v' ↔ tw D m m' = 0 ∧ 0 < dotQ m m' := by
  have hD : D ≠ 0 := by rintro rfl; simp at hk
  rw [sameDir2_iff (h.nonzero hk.ne') (h'.nonzero hk.ne')]
  have e1 : v.y * v'.x = v'.y * v.x ↔ tw D m m' = 0 := by
    have hp := proj_cross k h.perp h'.perp
    have hDD := self_pos hD
    rw [← h.x, ← h.y, ← h'.x, ← h'.y] at hp
    constructor
    · intro e
      have eq : (v.y : ℚ) * v'.x = v'.y * v.x := by exact_mod_cast e
      have : D k * tw D m m' = 0 := by rw [← hp]; linear_combination (-dotQ D D) * eq
      exact (mul_eq_zero.1 this).resolve_left hk.ne'
    · intro e
      rw [e, mul_zero] at hp
      have := (mul_eq_zero.1 hp).resolve_left hDD.ne'
      have eq : (v.y : ℚ) * v'.x = v'.y * v.x := by linarith
      exact_mod_cast eq
  rw [e1]
  refine and_congr_right fun h0 => ?_
  rw [← same_proj k hD hk.ne' h.perp h'.perp h.ne h0, ← h.x, ← h.y, ← h'.x, ← h'.y]
  rw [← Int.cast_pos (R := ℚ)]
  push_cast
  rfl

/-- The angles of the keys. -/
theorem key_angles {K : ℕ → Key} {l : List ℕ} {m : ℕ → Q3} {D : Q3} {k : Fin 3} (hk : 0 < D k) (hm : ∀ e ∈ l, KeyVec k D (m e) (K e).normal) :
    ∃ θ : ℕ → ℝ, (∀ e ∈ l, 0 ≤ θ e ∧ θ e < 2 * π) ∧ (∀ e ∈ l, ∀ f ∈ l, (0 < tw D (m e) (m f) ↔ 0 < sin (θ f - θ e)) ∧
      (θ e = θ f ↔ tw D (m e) (m f) = 0 ∧ 0 < dotQ (m e) (m f)) ∧
      ∃ r, keyLess (K e) (K f) = some r ∧ (r = true ↔ θ e < θ f ∨ (θ e = θ f ∧ (K e).pos = true ∧ (K f).pos = false))) := by
  classical
  have hD : D ≠ 0 := by rintro rfl; simp at hk
  have pol : ∀ e, ∃ rθ : ℝ × ℝ, e ∈ l → 0 < rθ.1 ∧ 0 ≤ rθ.2 ∧ rθ.2 < 2 * π ∧ Polar (K e).normal rθ.1 rθ.2 := by
    intro e
    by_cases he : e ∈ l
    · obtain ⟨r, θ, h⟩ := exists_polar _ ((hm e he).nonzero hk.ne')
      exact ⟨(r, θ), fun _ => h⟩
    · exact ⟨(0, 0), fun h => absurd h he⟩
  choose p hp using pol
  refine ⟨fun e => (p e).2, fun e he => ⟨(hp e he).2.1, (hp e he).2.2.1⟩, fun e he f hf => ?_⟩
  obtain ⟨r0, a0, a1, pa⟩ := hp e he
  obtain ⟨s0, b0, b1, pb⟩ := hp f hf
  have ve := hm e he
  have vf := hm f hf
  have rot := C18_rotation _ _ _ _ _ _ r0 s0 pa pb ⟨a0, a1⟩ ⟨b0, b1⟩
  have rot' := C18_rotation _ _ _ _ _ _ s0 r0 pb pa ⟨b0, b1⟩ ⟨a0, a1⟩
  have ord := (C18_strict_weak_order _ _ _ (ve.nonzero hk.ne') (vf.nonzero hk.ne') (vf.nonzero hk.ne')).2.2.2
  have eqθ : (p e).2 = (p f).2 ↔ SameDir2 (K e).normal (K f).normal := by
    rw [← ord, Bool.eq_false_iff, Bool.eq_false_iff, Ne, Ne, rot, rot']
    constructor
    · intro h; rw [h]; simp
    · rintro ⟨h1, h2⟩; linarith
  refine ⟨?_, eqθ.trans (ve.same vf hk), ?_⟩
  · have hc := proj_cross k ve.perp vf.perp
    have hDD := self_pos hD
    have cp := cross_polar pb pa
    have e1 : 0 < tw D (m e) (m f) ↔ 0 < (K f).normal.y * (K e).normal.x - (K e).normal.y * (K f).normal.x := by
      rw [← ve.x, ← ve.y, ← vf.x, ← vf.y] at hc
      have e2 : (0 : ℚ) < (K f).normal.y * (K e).normal.x - (K e).normal.y * (K f).normal.x ↔ 0 < tw D (m e) (m f) := by
        constructor
        · intro h
          have := mul_pos hDD h
          rw [show dotQ D D * (((K f).normal.y : ℚ) * (K e).normal.x - (K e).normal.y * (K f).normal.x) = D k * tw D (m e) (m f) by rw [← hc]; ring] at this
          exact pos_of_mul_pos_right this hk.le
        · intro h
          have := mul_pos hk h
          rw [← hc] at this
          have := pos_of_mul_pos_right this hDD.le
          linarith
      rw [← e2, ← Int.cast_pos (R := ℚ)]
      push_cast; rfl
    rw [e1, ← Int.cast_pos (R := ℝ), cp]
    constructor
    · intro h; exact pos_of_mul_pos_right h (mul_pos s0 r0).le
    · intro h; exact mul_pos (mul_pos s0 r0) h
  · obtain ⟨r, hr, hrt⟩ := C19_same_dir2_partial _ _ (ve.nonzero hk.ne') (vf.nonzero hk.ne') ve.noMin vf.noMin
    unfold keyLess
    rw [hr]
    cases r
    · refine ⟨_, rfl, ?_⟩
      have : ¬ (p e).2 = (p f).2 := fun h => absurd (hrt.2 (eqθ.1 h)) (by decide)
      rw [rot]
      simp [this]
    · refine ⟨_, rfl, ?_⟩
      have : (p e).2 = (p f).2 := eqθ.2 (hrt.1 rfl)
      simp [this]

/-- The half-edges over a location of a line can be sorted around it, and then they alternate. -/
theorem sort_around {N : Net} {l : List ℕ} {m : ℕ → Q3} {D : Q3} {k : Fin 3} (hk : 0 < D k) (hn : l.Nodup) (hm : ∀ e ∈ l, KeyVec k D (m e) (keyOf N k e).normal)
    (hd : ∀ e ∈ l, ∀ f ∈ l, e ≠ f → N.isPositive k e = N.isPositive k f → tw D (m e) (m f) = 0 → 0 < dotQ (m e) (m f) → False)
    (hb : l.countP (fun a => N.isPositive k a) = l.countP fun a => !N.isPositive k a)
    (ha : ∀ e ∈ l, ∀ f ∈ l, N.isPositive k e = N.isPositive k f → 0 < tw D (m e) (m f) → (∀ g ∈ l, 0 < tw D (m e) (m g) → 0 < tw D (m g) (m f) → False) →
      (∀ g ∈ l, N.isPositive k g = !N.isPositive k e → tw D (m g) (m (if N.isPositive k e then e else f)) = 0 →
        0 < dotQ (m g) (m (if N.isPositive k e then e else f)) → False) → False) :
    ∃ l', l'.Perm l ∧ (l'.Pairwise fun a b => keyLess (keyOf N k a) (keyOf N k b) = some true ∧ keyLess (keyOf N k b) (keyOf N k a) = some false) ∧
      ∀ e f, succIn l' e = some f → N.isPositive k e ≠ N.isPositive k f := by
  classical
  obtain ⟨θ, h1, h2⟩ := key_angles (K := keyOf N k) hk hm
  let r : ℕ → ℕ → Prop := fun a b => θ a < θ b ∨ (θ a = θ b ∧ (N.isPositive k a = true ∨ N.isPositive k b = false))
  have total : Std.Total r := ⟨by
    intro a b
    rcases lt_trichotomy (θ a) (θ b) with h | h | h
    · exact Or.inl (Or.inl h)
    · cases ca : N.isPositive k a
      · exact Or.inr (Or.inr ⟨h.symm, Or.inr ca⟩)
      · exact Or.inl (Or.inr ⟨h, Or.inl ca⟩)
    · exact Or.inr (Or.inl h)⟩
  have trans : IsTrans ℕ r := ⟨by
    rintro a b c (h | ⟨h, h'⟩) (g | ⟨g, g'⟩)
    · exact Or.inl (h.trans g)
    · exact Or.inl (by rw [← g]; exact h)
    · exact Or.inl (by rw [h]; exact g)
    · refine Or.inr ⟨h.trans g, ?_⟩
      rcases h' with h' | h'
      · exact Or.inl h'
      · rcases g' with g' | g'
        · rw [h'] at g'; exact absurd g' (by decide)
        · exact Or.inr g'⟩
  have hp := List.perm_insertionSort r l
  have hsorted := List.pairwise_insertionSort r l
  have hnd : (l.insertionSort r).Nodup := hp.nodup_iff.2 hn
  have strict : (l.insertionSort r).Pairwise fun a b => θ a < θ b ∨ (θ a = θ b ∧ N.isPositive k a = true ∧ N.isPositive k b = false) := by
    refine List.Pairwise.imp_of_mem ?_ (hsorted.and hnd)
    rintro a b ha hb' ⟨hr, hne⟩
    rcases hr with h | ⟨h, h'⟩
    · exact Or.inl h
    · have ma := hp.mem_iff.1 ha
      have mb := hp.mem_iff.1 hb'
      obtain ⟨t1, t2⟩ := (h2 a ma b mb).2.1.1 h
      have dif : N.isPositive k a ≠ N.isPositive k b := fun e => hd a ma b mb hne e t1 t2
      refine Or.inr ⟨h, ?_⟩
      cases ca : N.isPositive k a <;> cases cb : N.isPositive k b <;> simp_all
  refine ⟨_, hp, ?_, ?_⟩
  · refine List.Pairwise.imp_of_mem ?_ strict
    intro a b ha hb' hab
    have ma := hp.mem_iff.1 ha
    have mb := hp.mem_iff.1 hb'
    obtain ⟨r1, e1, i1⟩ := (h2 a ma b mb).2.2
    obtain ⟨r2, e2, i2⟩ := (h2 b mb a ma).2.2
    refine ⟨?_, ?_⟩
    · rw [e1, i1.2 hab]
    · rw [e2]
      cases r2
      · rfl
      · exfalso
        rcases i2.1 rfl with h | ⟨h, p1, p2⟩
        · rcases hab with g | ⟨g, _⟩ <;> linarith
        · rcases hab with g | ⟨g, q1, q2⟩
          · linarith
          · have : N.isPositive k b = true := p1
            rw [q2] at this; exact absurd this (by decide)
  · refine cyclic_alt hnd (fun a ha => h1 a (hp.mem_iff.1 ha)) strict ?_ ?_
    · rw [hp.countP_eq, hp.countP_eq]; exact hb
    · intro e he f hf hpos hs hgap hsame
      have me := hp.mem_iff.1 he
      have mf := hp.mem_iff.1 hf
      refine ha e me f mf hpos ((h2 e me f mf).1.2 hs) ?_ ?_
      · intro g mg g1 g2
        exact hgap g (hp.mem_iff.2 mg) ((h2 e me g mg).1.1 g1) ((h2 g mg f mf).1.1 g2)
      · intro g mg g1 g2 g3
        refine hsame g (hp.mem_iff.2 mg) g1 ?_
        refine (h2 g mg _ ?_).2.1.2 ⟨g2, g3⟩
        split_ifs
        · exact me
        · exact mf

end Walnut.Conn
