/-
`TryMergePolygon`: when it merges, and what the merged polygon is.
-/
import Verif.Poly.MergeShape
import Verif.Poly.MergeLists
import Verif.Poly.AreaProof
import Verif.Mono.Sums
import Verif.Props.Rotation

namespace Walnut.Poly
open Walnut.Geom Walnut.Props Walnut.Mono

variable {D : Type}

/-! ### Directions -/

theorem abs?_eq {a b : Int} (h : abs? a = some b) : b = |a| := by
  unfold abs? at h
  split at h
  · simp at h
  · simpa using h.symm

theorem isSameDir2_iff {a b : V2} {r : Bool} (ha : a ≠ ⟨0, 0⟩) (hb : b ≠ ⟨0, 0⟩) (h : a.isSameDir b = some r) :
    r = true ↔ SameDir2 a b := by
  have hg := V2.vec_ne_zero hb
  have key : ∀ {j : Fin 2} {p q : Int}, p ≠ 0 → ![a.x, a.y] j = p → ![b.x, b.y] j = q →
      ((a.x * |q| = b.x * |p| ∧ a.y * |q| = b.y * |p|) ↔ SameDir2 a b) := by
    intro j p q hp h1 h2
    have := scaled_eq hp h1 h2 hg
    simp only [forall_fin2] at this
    simpa [SameDir2, V2.scale] using this
  unfold V2.isSameDir at h
  by_cases hx : a.x = 0
  · have hy : a.y ≠ 0 := by
      intro hy; apply ha; cases a; simp_all
    simp only [hx, ne_eq, not_true, if_false] at h
    cases h1 : abs? a.y with
    | none => simp [h1] at h
    | some s =>
      cases h2 : abs? b.y with
      | none => simp [h1, h2] at h
      | some t =>
        simp [h1, h2] at h
        rw [← key (j := 1) hy rfl rfl, ← h, abs?_eq h1, abs?_eq h2, hx]; simp
  · simp only [hx, ne_eq, not_false_eq_true, if_true] at h
    cases h1 : abs? a.x with
    | none => simp [h1] at h
    | some s =>
      cases h2 : abs? b.x with
      | none => simp [h1, h2] at h
      | some t =>
        simp [h1, h2] at h
        rw [← key (j := 0) hx rfl rfl, ← h, abs?_eq h1, abs?_eq h2]; simp

theorem hp_eq {p q : HP3} (hp : p.w ≠ 0) (hq : q.w ≠ 0) (h : p.eq q = true) : p.pt = q.pt := by
  have h : p.v.scale q.w = q.v.scale p.w := by simpa [HP3.eq] using h
  have hp' : (p.w : ℚ) ≠ 0 := by exact_mod_cast hp
  have hq' : (q.w : ℚ) ≠ 0 := by exact_mod_cast hq
  have hc : ∀ i : Fin 3, p.v.comp i * q.w = q.v.comp i * p.w := by
    intro i
    have := congrArg (fun v => V3.comp v i) h
    obtain rfl | rfl | rfl := fin3 i <;> simpa [V3.scale, V3.comp] using this
  funext i
  unfold HP3.pt
  rw [div_eq_div_iff hp' hq']
  exact_mod_cast hc i

/-- A direction has the same sign as the difference it is a multiple of. -/
def Along (d : V3) (x y : Q3) : Prop := ∃ s : ℚ, 0 < s ∧ ∀ i, d.q i = s * (y i - x i)

theorem cross_ar (h : HS3) {i : Fin 3} (hi : h.n.comp i ≠ 0) {x a y : Q3} {d1 d2 : V3} (e1 : Along d1 x a) (e2 : Along d2 a y) :
    ∃ c : ℚ, 0 < c ∧ ((((d1.dropDimension i).cross (d2.dropDimension i) : Int) : ℚ)) * sg h i =
      c * ar (pr h i x) (pr h i a) (pr h i y) := by
  obtain ⟨s, s0, f⟩ := e1
  obtain ⟨t, t0, g⟩ := e2
  refine ⟨s * t, mul_pos s0 t0, ?_⟩
  have f1 := f (i + 1); have f2 := f (i + 2)
  have g1 := g (i + 1); have g2 := g (i + 2)
  unfold V3.q at f1 f2 g1 g2
  unfold V2.cross V3.dropDimension
  push_cast
  rw [f1, f2, g1, g2]
  unfold ar pr px py
  ring

/-- The test of the code is the geometric one. -/
theorem blocked_iff (h : HS3) {i dim : Fin 3} (hi : h.n.comp i ≠ 0) {x a y : Q3} {d1 d2 : V3}
    (hx : h.side x = 0) (ha : h.side a = 0) (hy : h.side y = 0)
    (e1 : Along d1 x a) (e2 : Along d2 a y) (hxa : x ≠ a) (hay : a ≠ y)
    (hopp : ∀ μ : ℚ, μ < 0 → (∀ j, y j - a j = μ * (a j - x j)) → a dim - x dim ≠ 0) :
    mergeBlocked dim (h.n.comp i) ((d1.dropDimension i).cross (d2.dropDimension i)) d1 d2 = false ↔
      Turns (pr h i x) (pr h i a) (pr h i y) := by
  obtain ⟨c, c0, hc⟩ := cross_ar h hi e1 e2
  generalize (d1.dropDimension i).cross (d2.dropDimension i) = T at hc
  have hs := sg_cases h hi
  have hs0 : sg h i ≠ 0 := by rcases hs with ⟨e, _⟩ | ⟨e, _⟩ <;> rw [e] <;> norm_num
  have lift : ∀ μ : ℚ, (pr h i y).1 - (pr h i a).1 = μ * ((pr h i a).1 - (pr h i x).1) →
      (pr h i y).2 - (pr h i a).2 = μ * ((pr h i a).2 - (pr h i x).2) → ∀ j, y j - a j = μ * (a j - x j) := by
    intro μ m1 m2
    have : y = lerp3 (1 + μ) x a := by
      refine plane_ext h hi hy ?_ ?_ ?_
      · rw [side_lerp3, hx, ha]; ring
      · simp only [pr, px, lerp3] at *; linear_combination m1
      · simp only [pr, py, lerp3] at *; linear_combination m2
    intro j
    rw [this]; unfold lerp3; ring
  have hne : pr h i x ≠ pr h i a := by
    intro e
    exact hxa (plane_ext h hi hx ha (congrArg Prod.fst e) (congrArg Prod.snd e))
  unfold mergeBlocked
  by_cases hT : T = 0
  · rw [if_pos hT]
    have har : ar (pr h i x) (pr h i a) (pr h i y) = 0 := by
      rw [hT] at hc
      push_cast at hc
      rw [zero_mul] at hc
      exact (mul_eq_zero.1 hc.symm).resolve_left c0.ne'
    obtain ⟨s, s0, f⟩ := e1
    obtain ⟨t, t0, g⟩ := e2
    have fd := f dim
    have gd := g dim
    unfold V3.q at fd gd
    constructor
    · intro hb
      right
      obtain ⟨μ, m1, m2⟩ := collinear_mul hne har
      refine ⟨μ, ?_, m1, m2⟩
      have l := lift μ m1 m2
      by_contra hμ
      push Not at hμ
      rcases hμ.lt_or_eq with hμ | hμ
      · have hd := hopp μ hμ l
        rw [l dim] at gd
        have hb' : ¬ hasDifferentSign (d1.comp dim) (d2.comp dim) = true := by simp [hb]
        rw [hasDifferentSign_iff, not_not] at hb'
        have key : (d1.comp dim : ℚ) * (d2.comp dim : ℚ) < 0 := by
          rw [fd, gd]
          have : 0 < (a dim - x dim) * (a dim - x dim) := mul_self_pos.2 hd
          have : s * t * μ * ((a dim - x dim) * (a dim - x dim)) < 0 :=
            mul_neg_of_neg_of_pos (mul_neg_of_pos_of_neg (mul_pos s0 t0) hμ) this
          linarith
        have key' : d1.comp dim * d2.comp dim < 0 := by exact_mod_cast key
        rcases mul_neg_iff.1 key' with ⟨k1, k2⟩ | ⟨k1, k2⟩ <;> omega
      · apply hay
        funext j
        have := l j
        rw [hμ] at this
        linarith
    · rintro (h0 | ⟨μ, μ0, m1, m2⟩)
      · linarith
      · have l := lift μ m1 m2
        rw [l dim] at gd
        have : ¬ hasDifferentSign (d1.comp dim) (d2.comp dim) = true := by
          rw [hasDifferentSign_iff, not_not]
          have e : (d2.comp dim : ℚ) = (t * μ / s) * d1.comp dim := by
            rw [fd, gd]; field_simp
          have c0 : 0 < t * μ / s := by positivity
          have : (d1.comp dim : ℚ) < 0 ↔ (d2.comp dim : ℚ) < 0 := by
            rw [e]
            constructor
            · intro h1; exact mul_neg_of_pos_of_neg c0 h1
            · intro h1
              by_contra h2
              push Not at h2
              have := mul_nonneg c0.le h2
              linarith
          exact_mod_cast this
        simpa using this
  · rw [if_neg hT]
    have hne0 : ar (pr h i x) (pr h i a) (pr h i y) ≠ 0 := by
      intro e
      rw [e, mul_zero] at hc
      rcases mul_eq_zero.1 hc with e | e
      · exact hT (by exact_mod_cast e)
      · exact hs0 e
    have hT' : (T : ℚ) ≠ 0 := by exact_mod_cast hT
    have : Turns (pr h i x) (pr h i a) (pr h i y) ↔ 0 < ar (pr h i x) (pr h i a) (pr h i y) := by
      constructor
      · intro ht; exact lt_of_le_of_ne ht.nonneg hne0.symm
      · exact Or.inl
    rw [this]
    have h3 : hasDifferentSign T (h.n.comp i) = false ↔ (T < 0 ↔ h.n.comp i < 0) := by
      rw [← Bool.not_eq_true, hasDifferentSign_iff, not_not]
    rw [h3]
    have : (T < 0 ↔ h.n.comp i < 0) ↔ ((T : ℚ) < 0 ↔ (h.n.comp i : ℚ) < 0) := by
      constructor <;> intro k
      · exact_mod_cast k
      · exact_mod_cast k
    rw [this]
    rcases hs with ⟨e, k⟩ | ⟨e, k⟩ <;> rw [e] at hc
    · constructor
      · intro k1
        have : 0 < (T : ℚ) := lt_of_le_of_ne (not_lt.1 fun k2 => by have := k1.1 k2; linarith) (Ne.symm hT')
        exact (mul_pos_iff_of_pos_left c0).1 (by rw [← hc]; linarith)
      · intro k1
        have := mul_pos c0 k1
        exact ⟨fun _ => by linarith, fun _ => by linarith⟩
    · constructor
      · intro k1
        have := k1.2 k
        exact (mul_pos_iff_of_pos_left c0).1 (by rw [← hc]; linarith)
      · intro k1
        have := mul_pos c0 k1
        exact ⟨fun _ => k, fun _ => by linarith⟩

theorem EdgeLine.along {l : PL} {p q : Q3} (h : EdgeLine l p q) : Along l.d p q := h.dir

namespace Facing
variable {P Q : Polygon D}

theorem ring_at {P : Polygon D} {i : Nat} (hi : i < P.count) : ring2 P i = pr P.plane P.drop (P.pt i) := by
  unfold ring2; rw [Nat.mod_eq_of_lt hi]

/-- The test at the begin of the common edge. -/
theorem blocked (h : Facing P Q) {dim : Fin 3} (hd : P.pt 1 dim - P.pt 0 dim ≠ 0) :
    mergeBlocked dim (P.plane.n.comp P.drop) (((P.lineD (P.count - 1)).d.dropDimension P.drop).cross ((Q.lineD 1).d.dropDimension P.drop))
      (P.lineD (P.count - 1)).d (Q.lineD 1).d = false ↔ Turns (ring2 P (P.count - 1)) (ring2 Q 1) (ring2 Q 2) := by
  have n3 := h.p.three
  have m3 := h.q.three
  have e1 := h.p.line (P.count - 1) (by omega)
  have e2 := h.q.line 1 (by omega)
  rw [show P.count - 1 + 1 = P.count by omega, Nat.mod_self, h.a] at e1
  rw [Nat.mod_eq_of_lt (by omega)] at e2
  have hpl := h.plane
  have q1 := h.q.onPlane 1 (by omega)
  have q2 := h.q.onPlane 2 (by omega)
  have q0 := h.q.onPlane 0 (by omega)
  rw [hpl] at q0 q1 q2
  have hxa : P.pt (P.count - 1) ≠ Q.pt 1 := by
    rw [← h.a]; exact fun e => h.p.distinct 0 (P.count - 1) (by omega) (by omega) e.symm
  have key := blocked_iff P.plane (i := P.drop) (dim := dim) h.p.drop (h.p.onPlane (P.count - 1) (by omega)) q1 q2 e1.along e2.along
    hxa (h.q.distinct 1 2 (by omega) (by omega)) ?_
  · rw [key, ring_at (by omega), ring_at (by omega), ring_at (by omega), hpl, h.drop]
  · intro μ μ0 hμ
    have ts := h.p.ring.turns n3 (P.count - 1)
    rw [show P.count - 1 + 1 = 0 + P.count by omega, show P.count - 1 + 2 = 1 + P.count by omega, h.p.ring.per, h.p.ring.per] at ts
    have tq := (h.q.ring.turns m3 0).nonneg
    rw [Nat.zero_add, Nat.zero_add] at tq
    obtain ⟨r0, r1⟩ := h.ends
    rw [r0] at ts
    rw [r1] at tq
    rw [ring_at (by omega : P.count - 1 < P.count), ring_at (by omega : 1 < Q.count), ring_at (by omega : 1 < P.count), hpl, h.drop] at ts
    rw [ring_at (by omega : 1 < P.count), ring_at (by omega : 1 < Q.count), ring_at (by omega : 2 < Q.count), hpl, h.drop] at tq
    have hc : ar (pr P.plane P.drop (P.pt 1)) (pr P.plane P.drop (Q.pt 1)) (pr P.plane P.drop (Q.pt 2)) =
        μ * ar (pr P.plane P.drop (P.pt (P.count - 1))) (pr P.plane P.drop (Q.pt 1)) (pr P.plane P.drop (P.pt 1)) := by
      have m1 := hμ (P.drop + 1)
      have m2 := hμ (P.drop + 2)
      unfold ar pr px py
      linear_combination (Q.pt 1 (P.drop + 1) - P.pt 1 (P.drop + 1)) * sg P.plane P.drop * m2 -
        (Q.pt 1 (P.drop + 2) - P.pt 1 (P.drop + 2)) * sg P.plane P.drop * m1
    rcases ts with ts | ⟨κ, κ0, f1, f2⟩
    · exfalso
      rw [hc] at tq
      have := mul_neg_of_neg_of_pos μ0 ts
      linarith
    · have : P.pt 1 = lerp3 (1 + κ) (P.pt (P.count - 1)) (Q.pt 1) := by
        refine plane_ext P.plane h.p.drop (h.p.onPlane 1 (by omega)) ?_ ?_ ?_
        · rw [side_lerp3, h.p.onPlane (P.count - 1) (by omega), q1]; ring
        · simp only [pr, px, lerp3] at *; linear_combination f1
        · simp only [pr, py, lerp3] at *; linear_combination f2
      intro e0
      apply hd
      rw [this, h.a]
      unfold lerp3
      linear_combination κ * e0

theorem twist_zero (h : Facing P Q) :
    ((P.lineD (P.count - 1)).d.dropDimension P.drop).cross ((Q.lineD 1).d.dropDimension P.drop) = 0 ↔
      ar (ring2 P (P.count - 1)) (ring2 Q 1) (ring2 Q 2) = 0 := by
  have n3 := h.p.three
  have m3 := h.q.three
  have e1 := h.p.line (P.count - 1) (by omega)
  have e2 := h.q.line 1 (by omega)
  rw [show P.count - 1 + 1 = P.count by omega, Nat.mod_self, h.a] at e1
  rw [Nat.mod_eq_of_lt (by omega)] at e2
  obtain ⟨c, c0, hc⟩ := cross_ar P.plane h.p.drop e1.along e2.along
  have hs0 : sg P.plane P.drop ≠ 0 := by rcases sg_cases P.plane h.p.drop with ⟨e, _⟩ | ⟨e, _⟩ <;> rw [e] <;> norm_num
  rw [ring_at (by omega), ring_at (by omega), ring_at (by omega), h.plane, h.drop]
  constructor
  · intro e
    rw [e] at hc
    push_cast at hc
    rw [zero_mul] at hc
    exact (mul_eq_zero.1 hc.symm).resolve_left c0.ne'
  · intro e
    rw [e, mul_zero] at hc
    have := (mul_eq_zero.1 hc).resolve_right hs0
    exact_mod_cast this

end Facing

/-! ### The normals -/

theorem drop_ne {v : V3} {dim : Fin 3} {e : Q3} (he : e dim ≠ 0) (hv : dotQ v.q e = 0) (hv0 : v ≠ ⟨0, 0, 0⟩) :
    v.dropDimension dim ≠ ⟨0, 0⟩ := by
  intro hz
  apply hv0
  unfold V3.dropDimension at hz
  obtain ⟨h1, h2⟩ := V2.mk.injEq _ _ _ _ ▸ hz
  unfold dotQ at hv
  obtain rfl | rfl | rfl := fin3 dim <;> simp [V3.comp, fin3_eqs] at h1 h2 <;> simp [h1, h2, he] at hv <;> ext <;> assumption

/-- Two normals perpendicular to a vector with a component `dim` are multiples of each
other when they are without that component. -/
theorem same_normal {n m : V3} {dim : Fin 3} {e : Q3} (he : e dim ≠ 0) (hn : dotQ n.q e = 0) (hm : dotQ m.q e = 0)
    (hn0 : n ≠ ⟨0, 0, 0⟩) (hm0 : m ≠ ⟨0, 0, 0⟩) {r : Bool} (hr : (n.dropDimension dim).isSameDir (m.dropDimension dim) = some r) :
    r = true ↔ SameDir3 n m := by
  rw [isSameDir2_iff (drop_ne he hn hn0) (drop_ne he hm hm0) hr]
  constructor
  · rintro ⟨k, l, hk, hl, h⟩
    refine ⟨k, l, hk, hl, ?_⟩
    unfold V2.scale V3.dropDimension at h
    obtain ⟨h1, h2⟩ := V2.mk.injEq _ _ _ _ ▸ h
    have h1' : (n.comp (dim + 1) : ℚ) * k = m.comp (dim + 1) * l := by exact_mod_cast h1
    have h2' : (n.comp (dim + 2) : ℚ) * k = m.comp (dim + 2) * l := by exact_mod_cast h2
    have h0 : (n.comp dim : ℚ) * k = m.comp dim * l := by
      apply mul_right_cancel₀ he
      unfold dotQ at hn hm
      obtain rfl | rfl | rfl := fin3 dim <;> simp [V3.comp, fin3_eqs, -mul_eq_mul_right_iff] at h1' h2' hn hm ⊢
      · linear_combination (k : ℚ) * hn - (l : ℚ) * hm - e 1 * h1' - e 2 * h2'
      · linear_combination (k : ℚ) * hn - (l : ℚ) * hm - e 2 * h1' - e 0 * h2'
      · linear_combination (k : ℚ) * hn - (l : ℚ) * hm - e 0 * h1' - e 1 * h2'
    have h0 : n.comp dim * k = m.comp dim * l := by exact_mod_cast h0
    unfold V3.scale
    obtain rfl | rfl | rfl := fin3 dim <;> simp [V3.comp, fin3_eqs] at h1 h2 h0 <;> simp [h0, h1, h2]
  · rintro ⟨k, l, hk, hl, h⟩
    refine ⟨k, l, hk, hl, ?_⟩
    have hc : ∀ i, n.comp i * k = m.comp i * l := by
      intro i
      have := congrArg (fun v => V3.comp v i) h
      obtain rfl | rfl | rfl := fin3 i <;> simpa [V3.scale, V3.comp] using this
    unfold V2.scale V3.dropDimension
    simp [hc]

/-! ### Rotation -/

theorem IsConvexPolygon.isRotated {P : Polygon D} (h : IsConvexPolygon P) {l : List (Edge D)} (hl : P.edges ~r l) :
    IsConvexPolygon { P with edges := l } ∧ Polygon.region { P with edges := l } = P.region := by
  obtain ⟨k, hk, e⟩ := List.isRotated_iff_mod.1 hl
  rcases hk.lt_or_eq with hk | hk
  · have : ({ P with edges := l } : Polygon D) = P.rotateEdges k := by
      unfold Polygon.rotateEdges
      rw [← e, List.rotate_eq_drop_append_take hk.le]
    rw [this]
    exact ⟨h.rotate hk, rotate_region P hk⟩
  · rw [hk, List.rotate_length] at e
    subst e
    exact ⟨h, rfl⟩

/-! ### Areas -/

/-- Sum over the boundary, twice the signed area after dropping `k`. -/
def crsQ (k : Fin 3) (p q : Q3) : ℚ := p (k + 1) * q (k + 2) - q (k + 1) * p (k + 2)

/-- Twice the area enclosed by the edges. -/
def ringArea (k : Fin 3) (l : List (Edge D)) : ℚ := cSum (crsQ k) (l.map fun e => e.vertex.pt)

theorem cSum_isRotated {α : Type} (g : α → α → ℚ) {l l' : List α} (h : l ~r l') : cSum g l = cSum g l' := by
  obtain ⟨k, rfl⟩ := h
  induction k generalizing l with
  | zero => simp
  | succ k ih =>
    cases l with
    | nil => simp
    | cons a l =>
      rw [List.rotate_cons_succ, ← ih, cSum_rotate]

theorem ringArea_isRotated (k : Fin 3) {l l' : List (Edge D)} (h : l ~r l') : ringArea k l = ringArea k l' :=
  cSum_isRotated _ (h.map _)

theorem ringArea_omit {k : Fin 3} {e f g : Edge D} {t : List (Edge D)} {s : ℚ}
    (h : f.vertex.pt = lerp3 s e.vertex.pt g.vertex.pt) : ringArea k (e :: f :: g :: t) = ringArea k (e :: g :: t) := by
  unfold ringArea cSum
  simp only [List.map_cons, List.cons_append, pSum]
  rw [h]
  unfold crsQ lerp3
  ring

theorem ringArea_join (k : Fin 3) {ea na eb nb : Edge D} {M N : List (Edge D)} (ha : ea.vertex.pt = nb.vertex.pt)
    (hb : eb.vertex.pt = na.vertex.pt) :
    ringArea k (nb :: M ++ na :: N) = ringArea k (ea :: na :: N) + ringArea k (eb :: nb :: M) := by
  unfold ringArea cSum
  simp only [List.map_cons, List.map_append, List.cons_append, pSum]
  rw [ha, hb]
  have := pSum_append (crsQ k) (nb.vertex.pt :: M.map fun e => e.vertex.pt) ((N.map fun e => e.vertex.pt) ++ [nb.vertex.pt]) na.vertex.pt
  simp only [List.cons_append] at this
  rw [List.append_assoc, List.cons_append, this]
  have e : crsQ k nb.vertex.pt na.vertex.pt = -crsQ k na.vertex.pt nb.vertex.pt := by unfold crsQ; ring
  rw [e]; ring

end Walnut.Poly
