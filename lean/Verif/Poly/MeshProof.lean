/-
Proofs about the mesh functions of mesh.h.
-/
import Verif.Poly.AreaProof

namespace Walnut.Poly
open Walnut.Geom

variable {D : Type}

/-! ### Maximum searches -/

/-- A search that replaces the current best point when `B best p` holds. -/
theorem fold_max {B : HP3 → HP3 → Bool}
    (trans : ∀ a b c : HP3, a.w ≠ 0 → b.w ≠ 0 → c.w ≠ 0 → B a b = false → B b c = false → B a c = false)
    (asym : ∀ a b : HP3, a.w ≠ 0 → b.w ≠ 0 → B a b = true → B b a = false)
    (refl : ∀ a : HP3, a.w ≠ 0 → B a a = false) :
    ∀ (l : List HP3) (top : HP3), top.w ≠ 0 → (∀ p ∈ l, p.w ≠ 0) →
      let r := l.foldl (fun top p => if top.w = 0 ∨ B top p = true then p else top) top
      r.w ≠ 0 ∧ (r = top ∨ r ∈ l) ∧ B r top = false ∧ ∀ p ∈ l, B r p = false := by
  intro l
  induction l with
  | nil => intro top h _; simp [h, refl top h]
  | cons p l ih =>
    intro top h hl
    have hp := hl p (by simp)
    simp only [List.foldl_cons]
    by_cases hB : B top p = true
    · rw [if_pos (Or.inr hB)]
      obtain ⟨r0, r1, r2, r3⟩ := ih p hp (fun q hq => hl q (by simp [hq]))
      refine ⟨r0, Or.inr (by rcases r1 with r1 | r1 <;> simp [r1]), ?_, ?_⟩
      · exact trans _ _ _ r0 hp h r2 (asym _ _ h hp hB)
      · intro q hq
        rcases List.mem_cons.mp hq with rfl | hq
        · exact r2
        · exact r3 q hq
    · rw [if_neg (by tauto)]
      obtain ⟨r0, r1, r2, r3⟩ := ih top h (fun q hq => hl q (by simp [hq]))
      refine ⟨r0, by rcases r1 with r1 | r1 <;> simp [r1], r2, ?_⟩
      intro q hq
      rcases List.mem_cons.mp hq with rfl | hq
      · exact trans _ _ _ r0 h hp r2 (by simpa using hB)
      · exact r3 q hq

theorem fold_max_start {B : HP3 → HP3 → Bool}
    (trans : ∀ a b c : HP3, a.w ≠ 0 → b.w ≠ 0 → c.w ≠ 0 → B a b = false → B b c = false → B a c = false)
    (asym : ∀ a b : HP3, a.w ≠ 0 → b.w ≠ 0 → B a b = true → B b a = false)
    (refl : ∀ a : HP3, a.w ≠ 0 → B a a = false)
    (l : List HP3) (hl : ∀ p ∈ l, p.w ≠ 0) (hne : l ≠ []) (top : HP3) (h0 : top.w = 0) :
    let r := l.foldl (fun top p => if top.w = 0 ∨ B top p = true then p else top) top
    r ∈ l ∧ ∀ p ∈ l, B r p = false := by
  cases l with
  | nil => exact absurd rfl hne
  | cons p l =>
    simp only [List.foldl_cons]
    rw [if_pos (Or.inl h0)]
    obtain ⟨_, r1, r2, r3⟩ := fold_max trans asym refl l p (hl p (by simp)) (fun q hq => hl q (by simp [hq]))
    refine ⟨by rcases r1 with r1 | r1 <;> simp [r1], ?_⟩
    intro q hq
    rcases List.mem_cons.mp hq with rfl | hq
    · exact r2
    · exact r3 q hq

theorem foldl_flat {α β γ : Type} (f : β → γ → β) (g : α → List γ) : ∀ (l : List α) (b : β),
    l.foldl (fun b a => (g a).foldl f b) b = (l.flatMap g).foldl f b := by
  intro l
  induction l with
  | nil => intro b; rfl
  | cons a l ih => intro b; simp only [List.foldl_cons, List.flatMap_cons, List.foldl_append]; exact ih _

/-- The search for the farthest point keeps the distance of the best point. -/
theorem farthest_fold (v : V3) : ∀ (l : List HP3) (s : HP3 × Int), (s.1.w = 0 ∨ s.2 = s.1.v.dot v) →
    (l.foldl (fun s p => if s.1.w = 0 ∨ Rational.isLessThan s.2 s.1.w (p.v.dot v) p.w = true then (p, p.v.dot v) else s) s).1 =
    l.foldl (fun top p => if top.w = 0 ∨ Rational.isLessThan (top.v.dot v) top.w (p.v.dot v) p.w = true then p else top) s.1 := by
  intro l
  induction l with
  | nil => intro s _; rfl
  | cons p l ih =>
    intro s hs
    simp only [List.foldl_cons]
    by_cases h0 : s.1.w = 0
    · rw [if_pos (Or.inl h0), if_pos (Or.inl h0)]
      exact ih _ (Or.inr rfl)
    · have e : s.2 = s.1.v.dot v := by tauto
      rw [e]
      by_cases hc : Rational.isLessThan (s.1.v.dot v) s.1.w (p.v.dot v) p.w = true
      · rw [if_pos (Or.inr hc), if_pos (Or.inr hc)]
        exact ih _ (Or.inr rfl)
      · rw [if_neg (by tauto), if_neg (by tauto)]
        exact ih _ hs

/-! ### The common denominator of `GetCentroid` -/

/-- The product of the contributions. -/
def contrib (vs : List (Int × Int)) : Int := (vs.map (·.1)).prod

/-- Entry `i` turns the denominators of a triangle into the common denominator. -/
def Good (vs : List (Int × Int)) (k : Int × Int × Int) (i : Nat) : Prop :=
  ∃ c m, vs[i]? = some (c, m) ∧ m * (k.1 * k.2.1 * k.2.2) = contrib (vs.take (i + 1))

theorem Good.append {vs : List (Int × Int)} {k i} (h : Good vs k i) (ws : List (Int × Int)) : Good (vs ++ ws) k i := by
  obtain ⟨c, m, h1, h2⟩ := h
  have hi : i < vs.length := by
    by_contra hc
    rw [List.getElem?_eq_none (by omega)] at h1; cases h1
  refine ⟨c, m, ?_, ?_⟩
  · rw [List.getElem?_append_left hi]; exact h1
  · rw [h2, List.take_append_of_le_length (by omega)]

theorem Good.canonical {vs : List (Int × Int)} {k i} : Good vs (canonicalDenom k) i ↔ Good vs k i := by
  unfold Good canonicalDenom
  split
  · constructor <;> rintro ⟨c, m, h1, h2⟩ <;> refine ⟨c, m, h1, ?_⟩ <;> rw [← h2] <;> ring
  · rfl

/-- The invariant of the first loop. -/
structure DenomInv (s : DenomState) : Prop where
  lcm : s.lcm = contrib s.values
  map : ∀ e ∈ s.map, Good s.values e.1 e.2
  ne : s.lcm ≠ 0

theorem lookup_mem {m : List ((Int × Int × Int) × Nat)} {k : Int × Int × Int} {i : Nat} (h : m.lookup k = some i) :
    (k, i) ∈ m := by
  induction m with
  | nil => cases h
  | cons e m ih =>
    rw [List.lookup_cons] at h
    split at h
    · rename_i hk
      simp only [Option.some.injEq] at h
      have : k = e.1 := by simpa using hk
      subst this; subst h; simp
    · exact List.mem_cons_of_mem _ (ih h)

theorem denomStep_spec {s t : DenomState} {k : Int × Int × Int} (h : denomStep s k = some t) (hs : DenomInv s)
    (hk : k.1 * k.2.1 * k.2.2 ≠ 0) :
    DenomInv t ∧ (∃ ws, t.values = s.values ++ ws) ∧ ∃ i, t.indices = s.indices ++ [i] ∧ Good t.values k i := by
  unfold denomStep at h
  split at h
  · rename_i i hi
    simp only [Option.some.injEq] at h
    subst h
    exact ⟨⟨hs.lcm, hs.map, hs.ne⟩, ⟨[], by simp⟩, i, rfl, hs.map _ (lookup_mem hi)⟩
  · split at h
    · rename_i i hi
      simp only [Option.some.injEq] at h
      subst h
      have hg : Good s.values k i := Good.canonical.mp (hs.map _ (lookup_mem hi))
      refine ⟨⟨hs.lcm, ?_, hs.ne⟩, ⟨[], by simp⟩, i, rfl, hg⟩
      intro e he
      rcases List.mem_cons.mp he with rfl | he
      · exact hg
      · exact hs.map e he
    · simp only [Option.bind_eq_bind, Option.bind_eq_some_iff, Option.pure_def, Option.some.injEq] at h
      obtain ⟨g, hg, c, h1, m, h2, rfl⟩ := h
      obtain ⟨d1, d2⟩ := gcd?_dvd hg
      have e1 := div?_exact h1 d2
      have e2 := div?_exact h2 d1
      have hgood : Good (s.values ++ [(c, m)]) k s.values.length := by
        refine ⟨c, m, by simp, ?_⟩
        rw [List.take_of_length_le (by simp)]
        have : contrib (s.values ++ [(c, m)]) = contrib s.values * c := by simp [contrib]
        rw [this, ← hs.lcm, ← e1]
        rw [← e2]
        ring
      refine ⟨⟨?_, ?_, ?_⟩, ⟨_, rfl⟩, _, rfl, hgood⟩
      · simp [contrib, hs.lcm]
      · intro e he
        rcases List.mem_cons.mp he with rfl | he
        · exact hgood
        · rcases List.mem_cons.mp he with rfl | he
          · exact Good.canonical.mpr hgood
          · exact (hs.map e he).append _
      · apply mul_ne_zero hs.ne
        rintro rfl
        rw [zero_mul] at e1
        exact hk e1.symm

/-- The denominators of a triangle. -/
def denoms (t : HP3 × HP3 × HP3) : Int × Int × Int := (t.1.w, t.2.1.w, t.2.2.w)

/-- The triangle has finite corners. -/
def FiniteTri (t : HP3 × HP3 × HP3) : Prop := t.1.w ≠ 0 ∧ t.2.1.w ≠ 0 ∧ t.2.2.w ≠ 0

theorem denomLoop_spec : ∀ (l : List (HP3 × HP3 × HP3)) {s t : DenomState}, denomLoop l s = some t → DenomInv s →
    (∀ x ∈ l, FiniteTri x) →
    DenomInv t ∧ (∃ ws, t.values = s.values ++ ws) ∧
      ∃ is, t.indices = s.indices ++ is ∧ List.Forall₂ (fun x i => Good t.values (denoms x) i) l is := by
  intro l
  induction l with
  | nil =>
    intro s t h hs _
    simp only [denomLoop, Option.some.injEq] at h
    subst h
    exact ⟨hs, ⟨[], by simp⟩, [], by simp, List.Forall₂.nil⟩
  | cons x l ih =>
    intro s t h hs hl
    simp only [denomLoop, Option.bind_eq_bind, Option.bind_eq_some_iff] at h
    obtain ⟨s', h1, h2⟩ := h
    obtain ⟨f1, f2, f3⟩ := hl x (by simp)
    obtain ⟨hs', ⟨ws, hws⟩, i, hi, hg⟩ := denomStep_spec h1 hs (mul_ne_zero (mul_ne_zero f1 f2) f3)
    obtain ⟨ht, ⟨ws', hws'⟩, is, his, hF⟩ := ih h2 hs' (fun y hy => hl y (by simp [hy]))
    refine ⟨ht, ⟨ws ++ ws', by rw [hws', hws, List.append_assoc]⟩, i :: is, ?_, List.Forall₂.cons ?_ hF⟩
    · rw [his, hi, List.append_assoc]; rfl
    · rw [hws']; exact hg.append _

theorem multiples_prod (vs : List (Int × Int)) : (multiples vs).2 = contrib vs := by
  induction vs with
  | nil => rfl
  | cons e vs ih => simp only [multiples, ih, contrib, List.map_cons, List.prod_cons]; ring

theorem multiples_get : ∀ (vs : List (Int × Int)) (i : Nat) {c m : Int}, vs[i]? = some (c, m) →
    (multiples vs).1[i]? = some (m * contrib (vs.drop (i + 1))) := by
  intro vs
  induction vs with
  | nil => intro i c m h; simp at h
  | cons e vs ih =>
    intro i c m h
    cases i with
    | zero =>
      simp only [List.getElem?_cons_zero, Option.some.injEq] at h
      subst h
      simp [multiples, multiples_prod]
    | succ i =>
      simp only [List.getElem?_cons_succ] at h
      simp only [multiples, List.getElem?_cons_succ, List.drop_succ_cons]
      exact ih i h

theorem Good.multiple {vs : List (Int × Int)} {k i} (h : Good vs k i) :
    ∃ m, (multiples vs).1[i]? = some m ∧ m * (k.1 * k.2.1 * k.2.2) = contrib vs := by
  obtain ⟨c, m, h1, h2⟩ := h
  refine ⟨_, multiples_get vs i h1, ?_⟩
  have : contrib vs = contrib (vs.take (i + 1)) * contrib (vs.drop (i + 1)) := by
    unfold contrib
    rw [← List.prod_append, ← List.map_append, List.take_append_drop]
  rw [this, ← h2]
  ring

/-! ### Geometric sums -/

/-- Six times the signed volume of the tetrahedron `0 a b c`. -/
def det3 (a b c : Q3) : ℚ := dotQ a (crossQ b c)

/-- The area vector of a triangle times 2. -/
def areaVec (a b c : Q3) (k : Fin 3) : ℚ := crossQ a b k + crossQ b c k + crossQ c a k

/-- The term `GetCentroid` adds for a triangle. -/
def momTerm (a b c : Q3) (k : Fin 3) : ℚ :=
  areaVec a b c k * ((a k + b k) ^ 2 + (b k + c k) ^ 2 + (c k + a k) ^ 2)

theorem centroidTerm_spec {t : HP3 × HP3 × HP3} (ht : FiniteTri t) {m L : Int} (hm : m * (t.1.w * t.2.1.w * t.2.2.w) = L) :
    ((centroidTerm t m).1 : ℚ) = L * det3 t.1.pt t.2.1.pt t.2.2.pt ∧
    ∀ k, ((centroidTerm t m).2.comp k : ℚ) = L ^ 3 * momTerm t.1.pt t.2.1.pt t.2.2.pt k := by
  obtain ⟨a, b, c⟩ := t
  obtain ⟨f1, f2, f3⟩ := ht
  simp only at f1 f2 f3 hm
  have q1 : (a.w : ℚ) ≠ 0 := by exact_mod_cast f1
  have q2 : (b.w : ℚ) ≠ 0 := by exact_mod_cast f2
  have q3 : (c.w : ℚ) ≠ 0 := by exact_mod_cast f3
  have hL : (L : ℚ) = m * (a.w * b.w * c.w) := by exact_mod_cast hm.symm
  have ca : ∀ k : Fin 3, (a.v.comp k : ℚ) = a.pt k * a.w := fun k => by unfold HP3.pt; field_simp
  have cb : ∀ k : Fin 3, (b.v.comp k : ℚ) = b.pt k * b.w := fun k => by unfold HP3.pt; field_simp
  have cc : ∀ k : Fin 3, (c.v.comp k : ℚ) = c.pt k * c.w := fun k => by unfold HP3.pt; field_simp
  have ca0 : (a.v.x : ℚ) = a.pt 0 * a.w := ca 0
  have ca1 : (a.v.y : ℚ) = a.pt 1 * a.w := ca 1
  have ca2 : (a.v.z : ℚ) = a.pt 2 * a.w := ca 2
  have cb0 : (b.v.x : ℚ) = b.pt 0 * b.w := cb 0
  have cb1 : (b.v.y : ℚ) = b.pt 1 * b.w := cb 1
  have cb2 : (b.v.z : ℚ) = b.pt 2 * b.w := cb 2
  have cc0 : (c.v.x : ℚ) = c.pt 0 * c.w := cc 0
  have cc1 : (c.v.y : ℚ) = c.pt 1 * c.w := cc 1
  have cc2 : (c.v.z : ℚ) = c.pt 2 * c.w := cc 2
  constructor
  · simp only [centroidTerm, V3.dot, V3.cross, det3, dotQ, crossQ]
    push_cast
    rw [ca0, ca1, ca2, cb0, cb1, cb2, cc0, cc1, cc2, hL]
    simp
    ring
  · intro k
    have hk := fin3 k
    simp only [centroidTerm, V3.cross, V3.scale, V3.add, hadamard, momTerm, areaVec, crossQ]
    rw [hL]
    rcases hk with rfl | rfl | rfl
    · simp only [V3.comp, Matrix.cons_val]
      push_cast
      rw [ca0, ca1, ca2, cb0, cb1, cb2, cc0, cc1, cc2]
      ring
    · simp only [V3.comp, Matrix.cons_val]
      push_cast
      rw [ca0, ca1, ca2, cb0, cb1, cb2, cc0, cc1, cc2]
      ring
    · simp only [V3.comp, Matrix.cons_val]
      push_cast
      rw [ca0, ca1, ca2, cb0, cb1, cb2, cc0, cc1, cc2]
      ring

/-- Sum over triangles. -/
def triSum (f : Q3 → Q3 → Q3 → ℚ) (l : List (HP3 × HP3 × HP3)) : ℚ :=
  (l.map fun t => f t.1.pt t.2.1.pt t.2.2.pt).sum

theorem centroidSum_spec {vs : List (Int × Int)} : ∀ (l : List (HP3 × HP3 × HP3)) (is : List Nat) (s : Int × V3),
    List.Forall₂ (fun x i => Good vs (denoms x) i) l is → (∀ x ∈ l, FiniteTri x) →
    ∃ r, centroidSum (multiples vs).1 l is s = some r ∧
      (r.1 : ℚ) = s.1 + contrib vs * triSum det3 l ∧
      ∀ k, (r.2.comp k : ℚ) = s.2.comp k + (contrib vs : ℚ) ^ 3 * triSum (fun a b c => momTerm a b c k) l := by
  intro l
  induction l with
  | nil =>
    intro is s h _
    exact ⟨s, by simp [centroidSum], by simp [triSum], fun k => by simp [triSum]⟩
  | cons t l ih =>
    intro is s h hl
    cases h with
    | @cons _ i _ is hg hF =>
      obtain ⟨m, hm, hp⟩ := hg.multiple
      obtain ⟨t1, t2⟩ := centroidTerm_spec (hl t (by simp)) hp
      obtain ⟨r, e, r1, r2⟩ := ih is (s.1 + (centroidTerm t m).1, s.2.add (centroidTerm t m).2) hF
        (fun y hy => hl y (by simp [hy]))
      refine ⟨r, ?_, ?_, ?_⟩
      · simp only [centroidSum, hm]; exact e
      · rw [r1]
        push_cast
        rw [t1]
        simp only [triSum, List.map_cons, List.sum_cons]
        ring
      · intro k
        rw [r2 k]
        have ha : ∀ u v : V3, ((u.add v).comp k : ℚ) = u.comp k + v.comp k := by
          intro u v
          rcases fin3 k with rfl | rfl | rfl <;> simp [V3.add, V3.comp]
        rw [ha, t2 k]
        simp only [triSum, List.map_cons, List.sum_cons]
        ring

theorem denomLoop_defined : ∀ (l : List (HP3 × HP3 × HP3)) {s : DenomState},
    (∀ t ∈ l, 0 < t.1.w ∧ 0 < t.2.1.w ∧ 0 < t.2.2.w) → 0 < s.lcm → ∃ r, denomLoop l s = some r := by
  intro l
  induction l with
  | nil => intro s _ _; exact ⟨_, rfl⟩
  | cons t l ih =>
    intro s hl hs
    have hrest : ∀ u ∈ l, 0 < u.1.w ∧ 0 < u.2.1.w ∧ 0 < u.2.2.w := fun u hu => hl u (by simp [hu])
    suffices ∃ s', denomStep s (t.1.w, t.2.1.w, t.2.2.w) = some s' ∧ 0 < s'.lcm by
      obtain ⟨s', h1, h2⟩ := this
      simp only [denomLoop, h1, Option.bind_eq_bind, Option.bind_some]
      exact ih hrest h2
    obtain ⟨p1, p2, p3⟩ := hl t (by simp)
    unfold denomStep
    split
    · exact ⟨_, rfl, hs⟩
    · split
      · exact ⟨_, rfl, hs⟩
      · obtain ⟨g, nc, tc, e1, e2, e3, q1, q2, _⟩ := round_defined hs (mul_pos (mul_pos p1 p2) p3)
        simp only [e1, e2, e3, Option.bind_eq_bind, Option.bind_some, Option.pure_def]
        exact ⟨_, rfl, mul_pos hs q2⟩

/-! ### Closed meshes -/

/-- The directed edges of a closed chain of points. -/
def loopEdges (l : List Q3) : List (Q3 × Q3) := l.zip (l.tail ++ l.head?.toList)

theorem fan_sum_eq (f : Q3 → Q3 → Q3 → ℚ) (a : HP3) (l : List HP3) :
    triSum f (fan (a :: l)) = fanSum (fun a b c => f a.pt b.pt c.pt) a l := by
  unfold triSum fan
  simp only
  induction l with
  | nil => simp [fanSum]
  | cons b l ih =>
    cases l with
    | nil => simp [fanSum]
    | cons c l =>
      simp only [List.tail_cons, List.zip_cons_cons, List.map_cons, List.sum_cons, fanSum] at ih ⊢
      rw [ih]

theorem edge_sum (f : Q3 → Q3 → ℚ) (z : HP3) : ∀ (l : List HP3) (a : HP3),
    ((((a :: l).map HP3.pt).zip (l.map HP3.pt ++ [z.pt])).map fun e => f e.1 e.2).sum =
      pairSum (fun a b => f a.pt b.pt) (a :: l) + f ((a :: l).getLast (by simp)).pt z.pt := by
  intro l
  induction l with
  | nil => intro a; simp [pairSum]
  | cons b l ih =>
    intro a
    have := ih b
    simp only [List.map_cons, List.cons_append, List.zip_cons_cons, List.sum_cons, pairSum] at this ⊢
    rw [this, List.getLast_cons (List.cons_ne_nil b l) (a := a)]
    ring

/-- A function of the directed edges that changes sign with their direction has, summed
over the triangles of a polygon, the same value as summed over its edges. -/
theorem fan_edges (f : Q3 → Q3 → ℚ) (h0 : ∀ a b, f a b = -f b a) (l : List HP3) :
    triSum (fun a b c => f a b + f b c + f c a) (fan l) = ((loopEdges (l.map HP3.pt)).map fun e => f e.1 e.2).sum := by
  cases l with
  | nil => simp [triSum, fan, loopEdges]
  | cons a l =>
    rw [fan_sum_eq]
    unfold loopEdges
    simp only [List.map_cons, List.tail_cons, List.head?_cons, Option.toList_some]
    have e := edge_sum f a l a
    simp only [List.map_cons] at e
    rw [e]
    cases l with
    | nil =>
      have := h0 a.pt a.pt
      simp [fanSum, pairSum]; linarith
    | cons b l =>
      rw [← closed_fan (f := fun a b => f a.pt b.pt) (g := fun a b c => f a.pt b.pt + f b.pt c.pt + f c.pt a.pt)
        (fun a b => h0 _ _) (fun a b c => rfl) a b l, List.getLast_cons (List.cons_ne_nil b l) (a := a)]

theorem triSum_flat {α : Type} (f : Q3 → Q3 → Q3 → ℚ) (g : α → List (HP3 × HP3 × HP3)) (l : List α) :
    triSum f (l.flatMap g) = (l.map fun a => triSum f (g a)).sum := by
  induction l with
  | nil => rfl
  | cons a l ih =>
    simp only [List.flatMap_cons, List.map_cons, List.sum_cons]
    rw [← ih]
    simp [triSum]

theorem triSum_add (f g : Q3 → Q3 → Q3 → ℚ) (l : List (HP3 × HP3 × HP3)) :
    triSum (fun a b c => f a b c + g a b c) l = triSum f l + triSum g l := by
  unfold triSum
  induction l with
  | nil => simp
  | cons a l ih => simp only [List.map_cons, List.sum_cons] at *; rw [ih]; ring

theorem triSum_mul (k : ℚ) (f : Q3 → Q3 → Q3 → ℚ) (l : List (HP3 × HP3 × HP3)) :
    triSum (fun a b c => k * f a b c) l = k * triSum f l := by
  unfold triSum
  induction l with
  | nil => simp
  | cons a l ih => simp only [List.map_cons, List.sum_cons] at *; rw [ih]; ring

theorem fan_finite {l : List HP3} (h : ∀ p ∈ l, p.w ≠ 0) : ∀ t ∈ fan l, FiniteTri t := by
  intro t ht
  cases l with
  | nil => simp [fan] at ht
  | cons a l =>
    simp only [fan, List.mem_map] at ht
    obtain ⟨p, hp, rfl⟩ := ht
    have h1 := List.of_mem_zip (a := p.1) (b := p.2) hp
    exact ⟨h a (by simp), h _ (by simp [h1.1]), h _ (List.mem_cons_of_mem _ (List.mem_of_mem_tail h1.2))⟩

theorem fan_positive {l : List HP3} (h : ∀ p ∈ l, 0 < p.w) : ∀ t ∈ fan l, 0 < t.1.w ∧ 0 < t.2.1.w ∧ 0 < t.2.2.w := by
  intro t ht
  cases l with
  | nil => simp [fan] at ht
  | cons a l =>
    simp only [fan, List.mem_map] at ht
    obtain ⟨p, hp, rfl⟩ := ht
    have h1 := List.of_mem_zip (a := p.1) (b := p.2) hp
    exact ⟨h a (by simp), h _ (by simp [h1.1]), h _ (List.mem_cons_of_mem _ (List.mem_of_mem_tail h1.2))⟩

end Walnut.Poly
