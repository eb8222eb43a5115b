/-
The half-edges of a round lie around lines as the original half-edges do that they are made of.
-/
import Verif.Conn.MeshConnect
import Verif.Conn.KeyAngle
import Verif.Conn.CallClosed

namespace Walnut.Conn
open Walnut.Geom Walnut.Poly Walnut.Bsp Walnut.Props

theorem SameDir2.symm' {a b : V2} (h : SameDir2 a b) : SameDir2 b a := by
  obtain ⟨k, l, k0, l0, e⟩ := h
  exact ⟨l, k, l0, k0, e.symm⟩

theorem SameDir2.trans' {a b c : V2} (h : SameDir2 a b) (h' : SameDir2 b c) : SameDir2 a c := by
  obtain ⟨k, l, k0, l0, e⟩ := h
  obtain ⟨k', l', k0', l0', e'⟩ := h'
  refine ⟨k * k', l * l', mul_pos k0 k0', mul_pos l0 l0', ?_⟩
  unfold V2.scale at *
  rw [V2.mk.injEq] at *
  constructor
  · linear_combination k' * e.1 + l * e'.1
  · linear_combination k' * e.2 + l * e'.2

theorem polar_same {a b : V2} (h : SameDir2 a b) {r θ : ℝ} (hr : 0 < r) (hp : Polar a r θ) : ∃ s, 0 < s ∧ Polar b s θ := by
  obtain ⟨k, l, k0, l0, e⟩ := h
  have k0' : (0 : ℝ) < k := by exact_mod_cast k0
  have l0' : (0 : ℝ) < l := by exact_mod_cast l0
  unfold V2.scale at e
  rw [V2.mk.injEq] at e
  have e1 : (a.x : ℝ) * k = b.x * l := by exact_mod_cast e.1
  have e2 : (a.y : ℝ) * k = b.y * l := by exact_mod_cast e.2
  rw [hp.1] at e1
  rw [hp.2] at e2
  refine ⟨r * k / l, by positivity, ?_, ?_⟩
  · field_simp; linarith
  · field_simp; linarith

/-- What the comparison of keys depends on. -/
structure KeySame (a a' : Key) : Prop where
  pos : a'.pos = a.pos
  dir : SameDir2 a.normal a'.normal
  ne : a.normal ≠ ⟨0, 0⟩
  ne' : a'.normal ≠ ⟨0, 0⟩
  noMin : NoMin2 a.normal
  noMin' : NoMin2 a'.normal

theorem KeySame.less {a a' b b' : Key} (ha : KeySame a a') (hb : KeySame b b') : keyLess a' b' = keyLess a b := by
  obtain ⟨r, r1, r2⟩ := C19_same_dir2_partial _ _ ha.ne hb.ne ha.noMin hb.noMin
  obtain ⟨r', r1', r2'⟩ := C19_same_dir2_partial _ _ ha.ne' hb.ne' ha.noMin' hb.noMin'
  have e : r' = r := by
    rw [Bool.eq_iff_iff, r2, r2']
    exact ⟨fun h => SameDir2.trans' (SameDir2.trans' ha.dir h) (SameDir2.symm' hb.dir), fun h => SameDir2.trans' (SameDir2.trans' (SameDir2.symm' ha.dir) h) hb.dir⟩
  unfold keyLess
  rw [r1, r1', e, ha.pos, hb.pos]
  obtain ⟨p, α, p0, α0, α1, pa⟩ := exists_polar _ ha.ne
  obtain ⟨q, β, q0, β0, β1, pb⟩ := exists_polar _ hb.ne
  obtain ⟨p', p0', pa'⟩ := polar_same ha.dir p0 pa
  obtain ⟨q', q0', pb'⟩ := polar_same hb.dir q0 pb
  have rot := C18_rotation _ _ _ _ _ _ p0 q0 pa pb ⟨α0, α1⟩ ⟨β0, β1⟩
  have rot' := C18_rotation _ _ _ _ _ _ p0' q0' pa' pb' ⟨α0, α1⟩ ⟨β0, β1⟩
  have : a'.normal.isRotationLessThan b'.normal = a.normal.isRotationLessThan b.normal := by
    rw [Bool.eq_iff_iff, rot, rot']
  rw [this]

theorem succIn_map {l : List Nat} {f : Nat → Nat} (hf : ∀ a ∈ l, ∀ b ∈ l, f a = f b → a = b) {x y : Nat} (h : succIn (l.map f) x = some y) :
    ∃ a b, succIn l a = some b ∧ f a = x ∧ f b = y := by
  obtain ⟨a, ha, rfl⟩ := List.mem_map.1 (succIn_mem h).1
  obtain ⟨p, q, rfl, hp⟩ := exists_split ha
  have hp' : f a ∉ p.map f := by
    intro hc
    obtain ⟨b, hb, e⟩ := List.mem_map.1 hc
    have := hf b (List.mem_append_left _ hb) a ha e
    exact hp (this ▸ hb)
  rw [List.map_append, List.map_cons, succIn_split hp'] at h
  have e : q.map f ++ p.map f ++ [f a] = (q ++ p ++ [a]).map f := by simp
  rw [e, List.head?_map] at h
  cases hh : (q ++ p ++ [a]).head? with
  | none => rw [hh] at h; cases h
  | some b =>
    rw [hh] at h
    refine ⟨a, b, by rw [succIn_split hp]; exact hh, rfl, Option.some.inj h⟩

/-- The ends of an edge along its line. -/
theorem lo_hi {N : Net} {x : Nat} {A B : Q3} (h1 : (N.vertex x).pt = A) (h2 : (N.target x).pt = B) (hl : EdgeLine (N.line x) A B) (k : Fin 3) (t : ℚ) :
    (N.lo k x ≤ t ∧ t < N.hi k x) ↔ Over A B k t := by
  obtain ⟨s, s0, hd⟩ := hl.dir
  have hk : (((N.line x).d.comp k : Int) : ℚ) = s * (B k - A k) := hd k
  unfold Over Net.lo Net.hi Net.loPt Net.hiPt Net.isPositive
  by_cases hp : 0 ≤ (N.line x).d.comp k
  · have : A k ≤ B k := by
      have h0 : (0 : ℚ) ≤ ((N.line x).d.comp k : Int) := by exact_mod_cast hp
      rw [hk] at h0
      have := nonneg_of_mul_nonneg_right h0 s0
      linarith
    simp only [hp, decide_true, if_true, h1, h2, min_eq_left this, max_eq_right this]
  · have : B k ≤ A k := by
      have h0 : (((N.line x).d.comp k : Int) : ℚ) < 0 := by exact_mod_cast not_le.1 hp
      rw [hk] at h0
      by_contra hc
      have := mul_pos s0 (sub_pos.2 (not_le.1 hc))
      linarith
    simp only [hp, decide_false, Bool.false_eq_true, if_false, h1, h2, min_eq_right this, max_eq_left this]

theorem on_plane {l : PL} {n : V3} {c : ℚ} {P Q A : Q3} (hl : EdgeLine l P Q) (hne : P ≠ Q) (hP : n.q 0 * P 0 + n.q 1 * P 1 + n.q 2 * P 2 = c)
    (hQ : n.q 0 * Q 0 + n.q 1 * Q 1 + n.q 2 * Q 2 = c) (hA : OnLine l A) : n.q 0 * A 0 + n.q 1 * A 1 + n.q 2 * A 2 = c := by
  obtain ⟨s, s0, hd⟩ := hl.dir
  have hperp : n.q 0 * l.d.q 0 + n.q 1 * l.d.q 1 + n.q 2 * l.d.q 2 = 0 := by
    rw [hd, hd, hd]; linear_combination s * hQ - s * hP
  have hd0 := hl.d_ne hne
  have ex : ∃ k, l.d.q k ≠ 0 := by
    by_contra hc
    push Not at hc
    apply hd0
    rw [v3_ext_comp]
    intro i
    have : ((l.d.comp i : Int) : ℚ) = 0 := hc i
    have : l.d.comp i = 0 := by exact_mod_cast this
    rw [this]
    fin_cases i <;> rfl
  obtain ⟨k, hk⟩ := ex
  have df := fun i => onLine_diff hA hl.on k i
  have df' : ∀ i, (A i - P i) * l.d.q k = (A k - P k) * l.d.q i := df
  have : (n.q 0 * (A 0 - P 0) + n.q 1 * (A 1 - P 1) + n.q 2 * (A 2 - P 2)) * l.d.q k = 0 := by
    linear_combination n.q 0 * df' 0 + n.q 1 * df' 1 + n.q 2 * df' 2 + (A k - P k) * hperp
  have := (mul_eq_zero.1 this).resolve_right hk
  linarith

/-- The net `N0` has the original half-edges. -/
structure Origin (X : Plan) (W0 : World) (N0 : Net) : Prop where
  line : ∀ z < X.n, N0.line z = X.line z
  start : ∀ z < X.n, (N0.vertex z).pt = X.start z
  stop : ∀ z < X.n, (N0.target z).pt = X.stop z
  normal : ∀ z < X.n, N0.normal (N0.poly z) = (W0.polys (X.fac z)).plane.n
  edge : ∀ z < X.n, EdgeLine (X.line z) (X.start z) (X.stop z) ∧ X.start z ≠ X.stop z
  flat : ∀ z < X.n, dotQ (W0.polys (X.fac z)).plane.n.q (X.line z).d.q = 0 ∧ (W0.polys (X.fac z)).plane.n ≠ ⟨0, 0, 0⟩
  ord : ∀ p, Ordinary (W0.polys p).plane.n

/-- The original half-edges of the round lie in the plane. -/
structure InPlane (X : Plan) (m : Nat) (n : V3) (c : ℚ) : Prop where
  start : ∀ z < X.n, X.call z = m → n.q 0 * X.start z 0 + n.q 1 * X.start z 1 + n.q 2 * X.start z 2 = c
  stop : ∀ z < X.n, X.call z = m → n.q 0 * X.stop z 0 + n.q 1 * X.stop z 1 + n.q 2 * X.stop z 2 = c

theorem ordinary_noMin {n : V3} (h : Ordinary n) (k : Fin 3) : NoMin2 (n.dropDimension k) ∧ NoMin2 (n.dropDimension k).neg := by
  have o1 := h (k + 1)
  have o2 := h (k + 2)
  unfold NoMin2
  simp only [V2.neg, V3.dropDimension]
  exact ⟨⟨o1.2, o2.2⟩, fun q => o1.1 (neg_injective q), fun q => o2.1 (neg_injective q)⟩

theorem key_same {N N' : Net} {k : Fin 3} {z x : Nat} (hk : (N.line z).d.q k ≠ 0) (ha : Aligned (N'.line x) (N.line z))
    (hs : SameDir3 (N'.normal (N'.poly x)) (N.normal (N.poly z))) (hf : dotQ (N.normal (N.poly z)).q (N.line z).d.q = 0) (hn : N.normal (N.poly z) ≠ ⟨0, 0, 0⟩)
    (o : Ordinary (N.normal (N.poly z))) (o' : Ordinary (N'.normal (N'.poly x))) : KeySame (keyOf N k z) (keyOf N' k x) := by
  obtain ⟨c, c0, hd, -⟩ := ha
  have hpos : N'.isPositive k x = N.isPositive k z := by
    unfold Net.isPositive
    rw [decide_eq_decide]
    have := hd k
    have h1 : (((N.line z).d.comp k : Int) : ℚ) = c * ((N'.line x).d.comp k : Int) := this
    constructor
    · intro h
      have h0 : (0 : ℚ) ≤ ((N'.line x).d.comp k : Int) := by exact_mod_cast h
      have : (0 : ℚ) ≤ ((N.line z).d.comp k : Int) := by rw [h1]; positivity
      exact_mod_cast this
    · intro h
      have h0 : (0 : ℚ) ≤ ((N.line z).d.comp k : Int) := by exact_mod_cast h
      rw [h1] at h0
      have := nonneg_of_mul_nonneg_right h0 c0
      exact_mod_cast this
  have hn0 : (N.normal (N.poly z)).q ≠ 0 := by
    intro h0
    apply hn
    rw [v3_ext_comp]
    intro i
    have : (((N.normal (N.poly z)).comp i : Int) : ℚ) = 0 := congrFun h0 i
    have : (N.normal (N.poly z)).comp i = 0 := by exact_mod_cast this
    rw [this]
    fin_cases i <;> rfl
  have hp := proj_ne k hk hf hn0
  have ne1 : (N.normal (N.poly z)).dropDimension k ≠ ⟨0, 0⟩ := by
    intro h0
    simp only [V3.dropDimension, V2.mk.injEq] at h0
    rcases hp with h | h
    · apply h; unfold V3.q; rw [h0.1]; rfl
    · apply h; unfold V3.q; rw [h0.2]; rfl
  obtain ⟨p, q, p0, q0, e⟩ := hs
  rw [v3_ext_comp] at e
  have e' : ∀ i, (N'.normal (N'.poly x)).comp i * p = (N.normal (N.poly z)).comp i * q := by
    intro i
    have := e i
    rwa [comp_scale, comp_scale] at this
  have sd : SameDir2 ((N.normal (N.poly z)).dropDimension k) ((N'.normal (N'.poly x)).dropDimension k) := by
    refine ⟨q, p, q0, p0, ?_⟩
    simp only [V3.dropDimension, V2.scale, V2.mk.injEq]
    exact ⟨(e' _).symm, (e' _).symm⟩
  have neg0 : ∀ v : V2, v ≠ ⟨0, 0⟩ → v.neg ≠ ⟨0, 0⟩ := by
    rintro ⟨a, b⟩ h h0
    apply h
    simp only [V2.neg, V2.mk.injEq, neg_eq_zero] at h0 ⊢
    exact h0
  have ne2 : (N'.normal (N'.poly x)).dropDimension k ≠ ⟨0, 0⟩ := by
    intro h0
    apply ne1
    rw [h0] at sd
    obtain ⟨a, b, a0, b0, e⟩ := sd
    simp only [V2.scale, V2.mk.injEq, zero_mul] at e
    have h1 := (mul_eq_zero.1 e.1).resolve_right a0.ne'
    have h2 := (mul_eq_zero.1 e.2).resolve_right a0.ne'
    generalize (N.normal (N.poly z)).dropDimension k = v at h1 h2 ⊢
    cases v
    dsimp only at h1 h2
    rw [h1, h2]
  have sdn : SameDir2 ((N.normal (N.poly z)).dropDimension k).neg ((N'.normal (N'.poly x)).dropDimension k).neg := by
    obtain ⟨a, b, a0, b0, e⟩ := sd
    refine ⟨a, b, a0, b0, ?_⟩
    simp only [V2.scale, V2.neg, V2.mk.injEq] at e ⊢
    exact ⟨by linear_combination -e.1, by linear_combination -e.2⟩
  unfold keyOf
  rw [hpos]
  cases N.isPositive k z
  · simp only [Bool.false_eq_true, if_false]
    exact ⟨rfl, sdn, neg0 _ ne1, neg0 _ ne2, (ordinary_noMin o k).2, (ordinary_noMin o' k).2⟩
  · simp only [if_true]
    exact ⟨rfl, sd, ne1, ne2, (ordinary_noMin o k).1, (ordinary_noMin o' k).1⟩

section
variable {X : Plan} {W0 : World} {m : Nat} {M : Mesh} {G org lab : Nat → Nat} {N N0 : Net}

theorem round_input (hI : X.Inv W0 m M.world G org lab) (hR : Rep M N) (hO : Origin X W0 N0) {n : V3} {c : ℚ} (hp : InPlane X m n c) {drop : Fin 3} (hn : n.comp drop ≠ 0)
    {l : List (Option Nat)} (hnd : (l.filterMap id).Nodup) (hl : ∀ e, some e ∈ l ↔ X.call e = m ∧ ∃ A B, Open M.world e A B) : PlaneInput drop N l := by
  refine ⟨hR.ok, hnd, ?_, n, c, hn, ?_⟩
  · intro e he
    obtain ⟨-, A, B, h⟩ := (hl e).1 he
    obtain ⟨p, -, -, -, -, h5⟩ := hR.open.1 h
    exact h5
  · intro e he
    obtain ⟨hm, A, B, h⟩ := (hl e).1 he
    obtain ⟨o1, o2, o3⟩ := hI.open_edge h
    obtain ⟨a1, a2, a3, a4⟩ := open_line hI hR h
    obtain ⟨p, h1, h2, h3, h4, h5⟩ := hR.open.1 h
    obtain ⟨t1, t2⟩ := hI.tiled.along e A B h
    obtain ⟨b1, b2⟩ := hO.edge e o1
    obtain ⟨s, s0, hd⟩ := t1.dir
    have hpl : ∀ {Q}, OnLine (X.line e) Q → n.q 0 * Q 0 + n.q 1 * Q 1 + n.q 2 * Q 2 = c := fun hQ => on_plane b1 b2 (hp.start e o1 hm) (hp.stop e o1 hm) hQ
    refine ⟨a1, ?_, ?_, ?_, ⟨s⁻¹, inv_pos.2 s0, fun i => ?_⟩, ?_, ?_⟩
    · rw [(hR.ok.own p e h2).2]
      have he : edgeAt N e ∈ (M.world.polys p).edges := hR.mem.2 ⟨h1, e, h2, rfl⟩
      have hc := (hI.linked.convex p).resolve_left (List.ne_nil_of_mem he)
      have := hc.three
      have hcount : (M.world.polys p).count = (N.cycle p).length := by
        unfold Polygon.count; rw [hR.polys p h1, List.length_map]
      omega
    · rw [a2]; exact t1.d_ne t2
    · rw [a2, h3]; exact t1.on
    · rw [a2, h3, h4]
      have h1 : ((X.line e).d.comp i : ℚ) = s * (B i - A i) := hd i
      rw [h1, ← mul_assoc, inv_mul_cancel₀ s0.ne', one_mul]
      ring
    · rw [h3]; exact hpl t1.onLine.1
    · rw [h4]; exact hpl t1.onLine.2

theorem round_closed (hI : X.Inv W0 m M.world G org lab) (hR : Rep M N) (hO : Origin X W0 N0) {n : V3} {c : ℚ} (hp : InPlane X m n c) {drop : Fin 3} (hn : n.comp drop ≠ 0)
    {l : List (Option Nat)} (hl : ∀ e, some e ∈ l ↔ X.call e = m ∧ ∃ A B, Open M.world e A B)
    (hcl : ∃ (R : Nat → List Nat) (Ord : Nat → ℚ → List Nat), ∀ e < X.n, X.call e = m →
      (∀ x, x ∈ R e ↔ (x < X.n ∧ X.call x = m) ∧ SameLine3 N0 e x) ∧ Conn.Closed (sortedDim N0 drop e) (R e) N0 (Ord e)) :
    ∃ (R : Nat → List Nat) (Ord : Nat → ℚ → List Nat), ∀ e, some e ∈ l → (∀ x, x ∈ R e ↔ some x ∈ l ∧ SameLine3 N e x) ∧ Conn.Closed (sortedDim N drop e) (R e) N (Ord e) := by
  classical
  obtain ⟨R0, Ord0, h0⟩ := hcl
  refine ⟨fun e => (l.filterMap id).filter fun x => decide (SameLine3 N e x), fun e t => (Ord0 e t).map lab, fun e he => ?_⟩
  have hR1 : ∀ x, x ∈ (l.filterMap id).filter (fun x => decide (SameLine3 N e x)) ↔ some x ∈ l ∧ SameLine3 N e x := by
    intro x
    rw [List.mem_filter, List.mem_filterMap, decide_eq_true_eq]
    simp
  refine ⟨hR1, ?_⟩
  obtain ⟨hm, A, B, h⟩ := (hl e).1 he
  obtain ⟨o1, o2, o3⟩ := hI.open_edge h
  obtain ⟨a1, a2, a3, a4⟩ := open_line hI hR h
  obtain ⟨r0, c0⟩ := h0 e o1 hm
  have hline : N.line e = N0.line e := by rw [a2, hO.line e o1]
  have hdim : sortedDim N drop e = sortedDim N0 drop e := by unfold sortedDim; rw [hline]
  rw [hdim]
  -- the direction of the line
  have hk : (X.line e).d.q (sortedDim N0 drop e) ≠ 0 := by
    obtain ⟨b1, b2⟩ := hO.edge e o1
    obtain ⟨s, s0, hd⟩ := b1.dir
    have hperp : dotQ (X.line e).d.q n.q = 0 := by
      unfold dotQ
      rw [hd, hd, hd]
      linear_combination s * hp.stop e o1 hm - s * hp.start e o1 hm
    have hd0 : (X.line e).d.q ≠ 0 := by
      intro hz
      apply b1.d_ne b2
      rw [v3_ext_comp]
      intro i
      have : (((X.line e).d.comp i : Int) : ℚ) = 0 := congrFun hz i
      have : (X.line e).d.comp i = 0 := by exact_mod_cast this
      rw [this]
      fin_cases i <;> rfl
    have hq : n.q drop ≠ 0 := by unfold V3.q; exact_mod_cast hn
    have hh := proj_ne drop hq hperp hd0
    unfold sortedDim
    rw [hO.line e o1]
    by_cases hc : (X.line e).d.comp (drop + 1) = 0
    · rw [if_pos hc]
      refine hh.resolve_left fun hne => hne ?_
      unfold V3.q; rw [hc]; rfl
    · rw [if_neg hc]
      unfold V3.q; exact_mod_cast hc
  generalize hkk : sortedDim N0 drop e = k at *
  have apart : ∀ {P Q : Q3}, OnLine (X.line e) P → OnLine (X.line e) Q → P ≠ Q → P k ≠ Q k := by
    intro P Q hP hQ hne hc
    apply hne
    funext i
    have df : (P i - Q i) * (X.line e).d.q k = (P k - Q k) * (X.line e).d.q i := onLine_diff hP hQ k i
    rw [hc, sub_self, zero_mul] at df
    have := (mul_eq_zero.1 df).resolve_right hk
    linarith
  -- an original half-edge of the line
  have fwd : ∀ z, z ∈ R0 e → z < X.n ∧ X.call z = m ∧ (∀ P, OnLine (X.line e) P ↔ OnLine (X.line z) P) ∧ some (lab z) ∈ l ∧ SameLine3 N e (lab z) ∧
      Aligned (N.line (lab z)) (N0.line z) ∧ ∃ A B, Open M.world (lab z) A B := by
    intro z hz
    obtain ⟨⟨z1, z2⟩, z3⟩ := (r0 z).1 hz
    have z3' : ∀ P, OnLine (X.line e) P ↔ OnLine (X.line z) P := by
      intro P
      have := z3 P
      rwa [hO.line e o1, hO.line z z1] at this
    obtain ⟨A', B', hx⟩ := hI.tiled.exist z z1 z2.ge
    obtain ⟨s1, s2, s3⟩ := hI.tiled.same z z1 z2.ge
    obtain ⟨b1, b2, b3, b4⟩ := open_line hI hR hx
    refine ⟨z1, z2, z3', (hl _).2 ⟨by rw [← s2]; exact z2, A', B', hx⟩, ?_, by rw [b2, hO.line z z1]; exact s1, A', B', hx⟩
    intro P
    rw [a2, b2, z3' P]
    exact (s1.onLine P).symm
  have memOrd : ∀ t z, z ∈ Ord0 e t → z ∈ R0 e := fun t z hz => ((c0.mem t z).1 hz).1
  have keys : ∀ z, z ∈ R0 e → KeySame (keyOf N0 k z) (keyOf N k (lab z)) := by
    intro z hz
    obtain ⟨z1, z2, z3, z4, z5, z6, A', B', hx⟩ := fwd z hz
    obtain ⟨s1, s2, s3⟩ := hI.tiled.same z z1 z2.ge
    obtain ⟨b1, b2, b3, b4⟩ := open_line hI hR hx
    obtain ⟨e1, e2⟩ := hO.edge z z1
    have hnorm : N.normal (N.poly (lab z)) = (W0.polys (G (X.fac z))).plane.n := by
      rw [hR.normal _ b4, hI.planes, b3, s3]
    refine key_same ?_ z6 ?_ ?_ ?_ ?_ ?_
    · rw [hO.line z z1]
      obtain ⟨s, s0, hd⟩ := e1.dir
      rw [hd k]
      have := apart ((z3 _).2 e1.onLine.2) ((z3 _).2 e1.onLine.1) e2.symm
      exact mul_ne_zero s0.ne' (sub_ne_zero.2 this)
    · rw [hnorm, hO.normal z z1, ← hI.planes]
      exact hI.groups.normals _
    · rw [hO.normal z z1, hO.line z z1]; exact (hO.flat z z1).1
    · rw [hO.normal z z1]; exact (hO.flat z z1).2
    · rw [hO.normal z z1]; exact hO.ord _
    · rw [hnorm]; exact hO.ord _
  have hlt : ∀ t, (Ord0 e t).Pairwise fun a b => keyLess (keyOf N k (lab a)) (keyOf N k (lab b)) = some true ∧ keyLess (keyOf N k (lab b)) (keyOf N k (lab a)) = some false := by
    intro t
    refine (c0.lt t).imp_of_mem ?_
    intro a b ha hb hab
    rw [(keys a (memOrd t a ha)).less (keys b (memOrd t b hb)), (keys b (memOrd t b hb)).less (keys a (memOrd t a ha))]
    exact hab
  have hinj : ∀ t, ∀ a ∈ Ord0 e t, ∀ b ∈ Ord0 e t, lab a = lab b → a = b := by
    intro t
    have hnd : ((Ord0 e t).map lab).Nodup := by
      unfold List.Nodup
      rw [List.pairwise_map]
      refine (hlt t).imp ?_
      rintro a b ⟨q1, q2⟩ hab
      rw [hab] at q1 q2
      rw [q1] at q2
      simp at q2
    intro a ha b hb hab
    exact List.inj_on_of_nodup_map hnd ha hb hab
  refine ⟨?_, fun t => List.pairwise_map.2 (hlt t), ?_⟩
  · intro t x
    rw [hR1, List.mem_map]
    constructor
    · rintro ⟨z, hz, rfl⟩
      obtain ⟨z0, zo⟩ := (c0.mem t z).1 hz
      obtain ⟨z1, z2, z3, z4, z5, z6, A', B', hx⟩ := fwd z z0
      obtain ⟨b1, b2, b3, b4⟩ := open_line hI hR hx
      obtain ⟨p, h1, h2, h3, h4, h5⟩ := hR.open.1 hx
      obtain ⟨t1, t2⟩ := hI.tiled.along _ _ _ hx
      refine ⟨⟨z4, z5⟩, ?_⟩
      rw [lo_hi h3 h4 (by rw [b2]; exact t1)]
      have z5' : ∀ P, OnLine (X.line e) P ↔ OnLine (X.line (lab z)) P := by
        intro P
        have := z5 P
        rwa [a2, b2] at this
      rw [hI.tiled.cover _ _ _ hx k (apart ((z5' _).2 t1.onLine.1) ((z5' _).2 t1.onLine.2) t2)]
      refine ⟨z, z1, z2.ge, rfl, ?_⟩
      rwa [lo_hi (hO.start z z1) (hO.stop z z1) (by rw [hO.line z z1]; exact (hO.edge z z1).1)] at zo
    · rintro ⟨⟨hx, hsl⟩, hov⟩
      obtain ⟨hxm, A', B', hx⟩ := (hl x).1 hx
      obtain ⟨b1, b2, b3, b4⟩ := open_line hI hR hx
      obtain ⟨p, h1, h2, h3, h4, h5⟩ := hR.open.1 hx
      obtain ⟨t1, t2⟩ := hI.tiled.along _ _ _ hx
      have z5' : ∀ P, OnLine (X.line e) P ↔ OnLine (X.line x) P := by
        intro P
        have := hsl P
        rwa [a2, b2] at this
      rw [lo_hi h3 h4 (by rw [b2]; exact t1), hI.tiled.cover _ _ _ hx k (apart ((z5' _).2 t1.onLine.1) ((z5' _).2 t1.onLine.2) t2)] at hov
      obtain ⟨z, z1, z2, rfl, z4⟩ := hov
      obtain ⟨s1, s2, s3⟩ := hI.tiled.same z z1 z2
      refine ⟨z, (c0.mem t z).2 ⟨(r0 z).2 ⟨⟨z1, by rw [s2]; exact hxm⟩, ?_⟩, ?_⟩, rfl⟩
      · intro P
        rw [hO.line e o1, hO.line z z1, z5' P]
        exact s1.onLine P
      · rw [lo_hi (hO.start z z1) (hO.stop z z1) (by rw [hO.line z z1]; exact (hO.edge z z1).1)]
        exact z4
  · intro t x y hxy
    obtain ⟨a, b, hab, rfl, rfl⟩ := succIn_map (hinj t) hxy
    have := c0.alt t a b hab
    obtain ⟨ma, mb⟩ := succIn_mem hab
    have ka : N.isPositive k (lab a) = N0.isPositive k a := (keys a (memOrd t a ma)).pos
    have kb : N.isPositive k (lab b) = N0.isPositive k b := (keys b (memOrd t b mb)).pos
    rw [ka, kb]
    exact this

end

end Walnut.Conn
