/-
Facets whose half-edges are connected and merged in rounds: which half-edges are without
partners, and which of the original half-edges they consist of.
-/
import Verif.Poly.LinkLoop

namespace Walnut.Poly
open Walnut.Geom Walnut.Props Walnut.Mono

/-- The same line, in the same direction. -/
def Aligned (l l' : PL) : Prop := ∃ c : ℚ, 0 < c ∧ (∀ i, l'.d.q i = c * l.d.q i) ∧ ∀ i, l'.m.q i = c * l.m.q i

theorem Aligned.refl (l : PL) : Aligned l l := ⟨1, one_pos, fun i => by ring, fun i => by ring⟩

theorem Aligned.symm {l l' : PL} (h : Aligned l l') : Aligned l' l := by
  obtain ⟨c, c0, h1, h2⟩ := h
  exact ⟨c⁻¹, inv_pos.2 c0, fun i => by rw [h1, ← mul_assoc, inv_mul_cancel₀ c0.ne', one_mul], fun i => by rw [h2, ← mul_assoc, inv_mul_cancel₀ c0.ne', one_mul]⟩

theorem Aligned.trans {l l' l'' : PL} (h : Aligned l l') (h' : Aligned l' l'') : Aligned l l'' := by
  obtain ⟨c, c0, h1, h2⟩ := h
  obtain ⟨c', c0', h1', h2'⟩ := h'
  exact ⟨c' * c, mul_pos c0' c0, fun i => by rw [h1', h1]; ring, fun i => by rw [h2', h2]; ring⟩

theorem crossQ_scale {p a b : Q3} {c : ℚ} (h : ∀ i, b i = c * a i) : ∀ i, crossQ p b i = c * crossQ p a i := by
  intro i
  obtain rfl | rfl | rfl := fin3 i
  · rw [crossQ_zero, crossQ_zero, h, h]; ring
  · rw [crossQ_one, crossQ_one, h, h]; ring
  · rw [crossQ_two, crossQ_two, h, h]; ring

theorem aligned_of {l l' : PL} {p : Q3} (h : OnLine l p) (h' : OnLine l' p) {c : ℚ} (c0 : 0 < c) (hd : ∀ i, l'.d.q i = c * l.d.q i) : Aligned l l' := by
  refine ⟨c, c0, hd, fun i => ?_⟩
  unfold OnLine at h h'
  rw [← h, ← h']
  exact crossQ_scale hd i

theorem Aligned.onLine {l l' : PL} (h : Aligned l l') (p : Q3) : OnLine l p ↔ OnLine l' p := by
  have one : ∀ {l l' : PL}, Aligned l l' → OnLine l p → OnLine l' p := by
    intro l l' h hp
    obtain ⟨c, c0, h1, h2⟩ := h
    unfold OnLine at hp ⊢
    funext i
    rw [crossQ_scale h1, h2, hp]
  exact ⟨one h, one h.symm⟩

theorem sameDir_q {a b : V3} (h : SameDir3 a b) : ∃ c : ℚ, 0 < c ∧ ∀ i, b.q i = c * a.q i := by
  obtain ⟨k, l, k0, l0, e⟩ := h
  have k0' : (0 : ℚ) < k := by exact_mod_cast k0
  have l0' : (0 : ℚ) < l := by exact_mod_cast l0
  refine ⟨k / l, by positivity, fun i => ?_⟩
  rw [v3_ext_comp] at e
  have := e i
  rw [comp_scale, comp_scale] at this
  have e' : a.q i * k = b.q i * l := by unfold V3.q; exact_mod_cast this
  field_simp
  linear_combination -e'

theorem EdgeLine.onLine {l : PL} {p q : Q3} (h : EdgeLine l p q) : OnLine l p ∧ OnLine l q := by
  refine ⟨h.on, ?_⟩
  obtain ⟨s, s0, hd⟩ := h.dir
  unfold OnLine
  rw [← h.on]
  apply q3_ext <;> simp only [crossQ_zero, crossQ_one, crossQ_two, hd] <;> ring

/-- The edges of polygons that the code found to go straight on have aligned lines. -/
theorem straight_aligned {e f : Edge Nat} {C : Q3} (he : e.line.d ≠ ⟨0, 0, 0⟩) (hf : EdgeLine f.line f.vertex.pt C) (hne : f.vertex.pt ≠ C)
    (m1 : NoMin3 e.line.d) (m2 : NoMin3 f.line.d) (hw : f.vertex.w ≠ 0) (hs : World.straight e f = true) : Aligned e.line f.line := by
  obtain ⟨r, hr, hr'⟩ := C19_same_dir_partial _ _ he (hf.d_ne hne) m1 m2
  unfold World.straight at hs
  rw [Bool.and_eq_true, hr, isCoincident_iff _ _ hw] at hs
  have : r = true := by simpa using hs.1
  obtain ⟨c, c0, hc⟩ := sameDir_q (hr'.1 this)
  exact aligned_of hs.2 hf.on c0 hc

/-- The location `t` is over the segment, on a line ordered by the component `k`. -/
def Over (A B : Q3) (k : Fin 3) (t : ℚ) : Prop := min (A k) (B k) ≤ t ∧ t < max (A k) (B k)

theorem over_beyond {A B C : Q3} (h : Beyond A B C) {k : Fin 3} (hne : A k ≠ C k) :
    A k ≠ B k ∧ B k ≠ C k ∧ ∀ t, Over A C k t ↔ Over A B k t ∨ Over B C k t := by
  obtain ⟨μ, μ0, e⟩ := h
  have ek := e k
  have h1 : A k ≠ B k := by
    intro h0
    rw [h0, sub_self, mul_zero] at ek
    exact hne (by linarith)
  unfold Over
  rcases lt_or_gt_of_ne h1 with c | c
  · have : B k < C k := by nlinarith
    refine ⟨h1, this.ne, fun t => ?_⟩
    rw [min_eq_left c.le, min_eq_left this.le, min_eq_left (c.trans this).le, max_eq_right c.le, max_eq_right this.le, max_eq_right (c.trans this).le]
    constructor
    · rintro ⟨a, b⟩
      rcases lt_or_ge t (B k) with h | h
      · exact Or.inl ⟨a, h⟩
      · exact Or.inr ⟨h, b⟩
    · rintro (⟨a, b⟩ | ⟨a, b⟩) <;> constructor <;> linarith
  · have : C k < B k := by nlinarith
    refine ⟨h1, this.ne', fun t => ?_⟩
    rw [min_eq_right c.le, min_eq_right this.le, min_eq_right (this.trans c).le, max_eq_left c.le, max_eq_left this.le, max_eq_left (this.trans c).le]
    constructor
    · rintro ⟨a, b⟩
      rcases lt_or_ge t (B k) with h | h
      · exact Or.inr ⟨a, h⟩
      · exact Or.inl ⟨h, b⟩
    · rintro (⟨a, b⟩ | ⟨a, b⟩) <;> constructor <;> linarith

/-- The original half-edges, the facets they belong to, and the rounds in which they are
connected.  `under k i` says that round `k` is about the facet `i`. -/
structure Plan where
  n : Nat
  fac : Nat → Nat
  line : Nat → PL
  start : Nat → Q3
  stop : Nat → Q3
  call : Nat → Nat
  under : Nat → Nat → Prop

namespace Plan

/-- The rounds are about nested sets of facets.  Of the half-edges on a line, all that belong
to facets of a round are connected in this round or later, if one of them is in this round. -/
structure Good (X : Plan) : Prop where
  inside : ∀ z < X.n, X.under (X.call z) (X.fac z)
  nested : ∀ k k' i j, k ≤ k' → X.under k i → X.under k' i → X.under k j → X.under k' j
  last : ∀ z < X.n, ∀ z' < X.n, X.under (X.call z) (X.fac z') → Aligned (X.line z) (X.line z') → X.call z ≤ X.call z'

/-- The facets can have been connected before round `m`. -/
def Near (X : Plan) (m i j : Nat) : Prop := i = j ∨ ∃ k < m, X.under k i ∧ X.under k j

variable {X : Plan}

theorem Near.symm {m i j : Nat} (h : X.Near m i j) : X.Near m j i := by
  rcases h with rfl | ⟨k, k1, h1, h2⟩
  · exact Or.inl rfl
  · exact Or.inr ⟨k, k1, h2, h1⟩

theorem Near.trans (hX : X.Good) {m i j l : Nat} (h : X.Near m i j) (h' : X.Near m j l) : X.Near m i l := by
  rcases h with rfl | ⟨k, k1, h1, h2⟩
  · exact h'
  · rcases h' with rfl | ⟨k', k1', h1', h2'⟩
    · exact Or.inr ⟨k, k1, h1, h2⟩
    · rcases le_total k k' with c | c
      · exact Or.inr ⟨k', k1', hX.nested k k' j i c h2 h1' h1, h2'⟩
      · exact Or.inr ⟨k, k1, h1, hX.nested k' k j l c h1' h2 h2'⟩

theorem Near.mono {m m' i j : Nat} (hm : m ≤ m') (h : X.Near m i j) : X.Near m' i j := by
  rcases h with rfl | ⟨k, k1, h1, h2⟩
  · exact Or.inl rfl
  · exact Or.inr ⟨k, lt_of_lt_of_le k1 hm, h1, h2⟩

theorem Near.under (hX : X.Good) {k i j : Nat} (h : X.Near (k + 1) i j) (hi : X.under k i) : X.under k j := by
  rcases h with rfl | ⟨k', k1, h1, h2⟩
  · exact hi
  · exact hX.nested k' k i j (by omega) h1 hi h2

/-- The half-edges `O` without partners are made of the original half-edges of round `m` and
later; `lab` says which. -/
structure Tiled (X : Plan) (m : Nat) (O : Nat → Q3 → Q3 → Prop) (G lab : Nat → Nat) : Prop where
  cover : ∀ x A B, O x A B → ∀ k, A k ≠ B k → ∀ t, Over A B k t ↔ ∃ z < X.n, m ≤ X.call z ∧ lab z = x ∧ Over (X.start z) (X.stop z) k t
  exist : ∀ z < X.n, m ≤ X.call z → ∃ A B, O (lab z) A B
  same : ∀ z < X.n, m ≤ X.call z → Aligned (X.line (lab z)) (X.line z) ∧ X.call z = X.call (lab z) ∧ G (X.fac z) = G (X.fac (lab z))
  along : ∀ x A B, O x A B → EdgeLine (X.line x) A B ∧ A ≠ B
  uniq : ∀ x A B A' B', O x A B → O x A' B' → A = A' ∧ B = B'

/-- The state before round `m`: `W0` are the facets, `G` is the polygon that a facet became a
part of, `org` the original half-edge that a half-edge is a part of. -/
structure Inv (X : Plan) (W0 : World) (m : Nat) (W : World) (G org lab : Nat → Nat) : Prop where
  linked : Linked W
  small : NoMinWorld W
  orgs : ∀ p, ∀ e ∈ (W.polys p).edges, org e.data < X.n ∧ e.line = X.line (org e.data) ∧ G (X.fac (org e.data)) = p ∧
    (W.partner e.data = none ↔ m ≤ X.call (org e.data)) ∧ (W.partner e.data = none → e.data < X.n)
  base : ∀ x < X.n, org x = x
  group : ∀ i j, G i = G j → X.Near m i j
  near : ∀ i j, Adj W (G i) (G j) → X.Near m i j
  tiled : X.Tiled m (Open W) G lab
  groups : Groups W0 W G
  planes : ∀ p, (W.polys p).plane = (W0.polys p).plane

theorem edge_of_half {W : World} {p x : Nat} {A B : Q3} (h : (x, A, B) ∈ halfEdges (W.polys p).edges) : ∃ e ∈ (W.polys p).edges, e.data = x ∧ e.vertex.pt = A := by
  obtain ⟨i, e, ge, h1, h2, -⟩ := mem_halfEdges.1 h
  dsimp only at h1 h2
  exact ⟨e, List.mem_of_getElem? ge, h1, by rw [← (pt_get ge).1]; exact h2⟩

namespace Inv
variable {W0 W : World} {m : Nat} {G org lab : Nat → Nat}

theorem open_edge (h : X.Inv W0 m W G org lab) {x : Nat} {A B : Q3} (hx : Open W x A B) :
    x < X.n ∧ m ≤ X.call x ∧ G (X.fac x) = W.owner x := by
  obtain ⟨⟨p, hx⟩, ho⟩ := hx
  obtain ⟨e, he, rfl, -⟩ := edge_of_half hx
  obtain ⟨h1, h2, h3, h4, h5⟩ := h.orgs p e he
  have hb := h.base _ (h5 ho)
  rw [hb] at h1 h3 h4
  exact ⟨h1, h4.1 ho, by rw [h3, h.linked.own _ _ _ _ hx]⟩

/-- All facets of the polygons that meet at an edge of round `k`. -/
theorem under_all (hX : X.Good) {k : Nat} (h : X.Inv W0 (k + 1) W G org lab) {x : Nat} (hx : x < X.n) (hk : X.call x = k) {p q : Nat} {e : Edge Nat}
    (he : e ∈ (W.polys p).edges) (hex : e.data = x) (hadj : Adj W p q) : ∀ i, G i = p ∨ G i = q → X.under k i := by
  obtain ⟨h1, h2, h3, h4, h5⟩ := h.orgs p e he
  rw [hex, h.base x hx] at h3
  have hu := hX.inside x hx
  rw [hk] at hu
  rintro i (rfl | rfl)
  · exact (h.group _ _ h3).under hX hu
  · exact (h.near (X.fac x) i (by rw [h3]; exact hadj)).under hX hu

/-- Two edges on a line of polygons of a round. -/
theorem same_round (hX : X.Good) {k : Nat} (h : X.Inv W0 (k + 1) W G org lab) {p q : Nat} (hu : ∀ i, G i = p ∨ G i = q → X.under k i)
    {e f : Edge Nat} {p' q' : Nat} (hp : p' = p ∨ p' = q) (hq : q' = p ∨ q' = q) (he : e ∈ (W.polys p').edges) (hf : f ∈ (W.polys q').edges)
    (ha : Aligned e.line f.line) (ho : W.partner e.data = none) : X.call (org e.data) ≤ X.call (org f.data) := by
  obtain ⟨h1, h2, h3, h4, h5⟩ := h.orgs p' e he
  obtain ⟨k1, k2, k3, k4, k5⟩ := h.orgs q' f hf
  have ue : X.under k (X.fac (org e.data)) := hu _ (by rw [h3]; exact hp)
  have uf : X.under k (X.fac (org f.data)) := hu _ (by rw [k3]; exact hq)
  rw [h2, k2] at ha
  refine hX.last _ h1 _ k1 ?_ ha
  exact hX.nested k _ _ _ (by have := h4.1 ho; omega) ue (hX.inside _ h1) uf

theorem even (hX : X.Good) {k : Nat} (h : X.Inv W0 (k + 1) W G org lab) {p q : Nat} (hu : ∀ i, G i = p ∨ G i = q → X.under k i)
    {e f : Edge Nat} {p' q' : Nat} (hp : p' = p ∨ p' = q) (hq : q' = p ∨ q' = q) (he : e ∈ (W.polys p').edges) (hf : f ∈ (W.polys q').edges)
    (ha : Aligned e.line f.line) : W.partner e.data = none ↔ W.partner f.data = none := by
  obtain ⟨-, -, -, h4, -⟩ := h.orgs p' e he
  obtain ⟨-, -, -, k4, -⟩ := h.orgs q' f hf
  constructor
  · intro ho
    have := same_round hX h hu hp hq he hf ha ho
    exact k4.2 ((h4.1 ho).trans this)
  · intro ho
    have := same_round hX h hu hq hp hf he ha.symm ho
    exact h4.2 ((k4.1 ho).trans this)

end Inv

/-- The polygons of two joined half-edges. -/
theorem Tiled.join {m : Nat} {O O' : Nat → Q3 → Q3 → Prop} {G lab : Nat → Nat} (h : X.Tiled m O G lab) {e f : Nat} (hj : OpenJoin O O' e f)
    (hen : e < X.n) (hem : m ≤ X.call e) (hcall : X.call e = X.call f) (hG : G (X.fac e) = G (X.fac f)) :
    ∃ lab', X.Tiled m O' G lab' := by
  obtain ⟨A, B, C, oe, of, hne, hb, iff⟩ := hj
  obtain ⟨le, ne⟩ := h.along _ _ _ oe
  obtain ⟨lf, nf⟩ := h.along _ _ _ of
  have al : Aligned (X.line e) (X.line f) := by
    obtain ⟨s, s0, hs⟩ := le.dir
    obtain ⟨t, t0, ht⟩ := lf.dir
    obtain ⟨μ, μ0, hμ⟩ := hb
    refine aligned_of le.onLine.2 lf.onLine.1 (c := t * μ / s) (by positivity) fun i => ?_
    rw [ht, hs, hμ]
    field_simp
  refine ⟨fun z => if lab z = f then e else lab z, ?_, ?_, ?_, ?_, ?_⟩
  · intro x P Q hx k hk t
    rcases (iff x P Q).1 hx with ⟨rfl, rfl, rfl⟩ | ⟨hx, x1, x2⟩
    · obtain ⟨k1, k2, ov⟩ := over_beyond hb hk
      rw [ov, h.cover _ _ _ oe k k1, h.cover _ _ _ of k k2]
      constructor
      · rintro (⟨z, z1, z2, z3, z4⟩ | ⟨z, z1, z2, z3, z4⟩)
        · exact ⟨z, z1, z2, by rw [if_neg (by rw [z3]; exact hne), z3], z4⟩
        · exact ⟨z, z1, z2, by rw [if_pos z3], z4⟩
      · rintro ⟨z, z1, z2, z3, z4⟩
        split_ifs at z3 with hz
        · exact Or.inr ⟨z, z1, z2, hz, z4⟩
        · exact Or.inl ⟨z, z1, z2, z3, z4⟩
    · rw [h.cover x P Q hx k hk]
      constructor
      · rintro ⟨z, z1, z2, z3, z4⟩
        exact ⟨z, z1, z2, by rw [if_neg (by rw [z3]; exact x2), z3], z4⟩
      · rintro ⟨z, z1, z2, z3, z4⟩
        split_ifs at z3 with hz
        · exact absurd z3.symm x1
        · exact ⟨z, z1, z2, z3, z4⟩
  · intro z z1 z2
    obtain ⟨P, Q, hz⟩ := h.exist z z1 z2
    by_cases c1 : lab z = f
    · simp only [if_pos c1]
      exact ⟨A, C, (iff _ _ _).2 (Or.inl ⟨rfl, rfl, rfl⟩)⟩
    · simp only [if_neg c1]
      by_cases c2 : lab z = e
      · exact ⟨A, C, (iff _ _ _).2 (Or.inl ⟨c2, rfl, rfl⟩)⟩
      · exact ⟨P, Q, (iff _ _ _).2 (Or.inr ⟨hz, c2, c1⟩)⟩
  · intro z z1 z2
    obtain ⟨s1, s2, s3⟩ := h.same z z1 z2
    by_cases c1 : lab z = f
    · simp only [if_pos c1]
      rw [c1] at s1 s2 s3
      exact ⟨al.trans s1, s2.trans hcall.symm, s3.trans hG.symm⟩
    · simp only [if_neg c1]
      exact ⟨s1, s2, s3⟩
  · intro x P Q hx
    rcases (iff x P Q).1 hx with ⟨rfl, rfl, rfl⟩ | ⟨hx, -, -⟩
    · obtain ⟨μ, μ0, hμ⟩ := hb
      obtain ⟨s, s0, hs⟩ := le.dir
      have hPQ : ∀ i, Q i - P i = (1 + μ) * (B i - P i) := fun i => by linear_combination hμ i
      refine ⟨⟨le.on, s / (1 + μ), by positivity, fun i => ?_⟩, fun h0 => ne ?_⟩
      · rw [hs, hPQ]; field_simp
      · funext i
        have := hPQ i
        have h0' : P i = Q i := congrFun h0 i
        rw [← h0', sub_self] at this
        have : B i - P i = 0 := (mul_eq_zero.1 this.symm).resolve_left (by positivity)
        linarith
    · exact h.along x P Q hx
  · intro x P Q P' Q' hx hx'
    rcases (iff x P Q).1 hx with ⟨h1, h2, h3⟩ | ⟨hx, x1, x2⟩
    · rcases (iff x P' Q').1 hx' with ⟨h1', h2', h3'⟩ | ⟨hx', x1, x2⟩
      · rw [h2, h3, h2', h3']; exact ⟨rfl, rfl⟩
      · exact absurd h1 x1
    · rcases (iff x P' Q').1 hx' with ⟨h1', h2', h3'⟩ | ⟨hx', -, -⟩
      · exact absurd h1' x1
      · exact h.uniq x P Q P' Q' hx hx'

theorem Tiled.mapG {m : Nat} {O : Nat → Q3 → Q3 → Prop} {G lab : Nat → Nat} (h : X.Tiled m O G lab) (g : Nat → Nat) : X.Tiled m O (g ∘ G) lab :=
  ⟨h.cover, h.exist, fun z z1 z2 => ⟨(h.same z z1 z2).1, (h.same z z1 z2).2.1, congrArg g (h.same z z1 z2).2.2⟩, h.along, h.uniq⟩

theorem movedTo_eq {p q s s' : Nat} (h : movedTo p q true s = movedTo p q true s') : s = s' ∨ ((s = p ∨ s = q) ∧ (s' = p ∨ s' = q)) := by
  unfold movedTo at h
  by_cases h1 : s = q
  · by_cases h2 : s' = q
    · exact Or.inl (h1.trans h2.symm)
    · simp only [h1, h2, and_self, if_true, and_false, if_false] at h
      exact Or.inr ⟨Or.inr h1, Or.inl h.symm⟩
  · by_cases h2 : s' = q
    · simp only [h1, h2, and_self, if_true, and_false, if_false] at h
      exact Or.inr ⟨Or.inl h, Or.inr h2⟩
    · simp only [h1, h2, and_false, if_false] at h
      exact Or.inl h

/-- The group map of a merge. -/
theorem merged_groups {W W' : World} {p q : Nat} (h : Merged W W' p q true) : Groups W W' (movedTo p q true) := by
  have hpq := h.ne rfl
  refine ⟨fun s => ?_, fun s => ?_⟩
  · ext z
    simp only [Set.mem_iUnion, Set.mem_ofPred_eq, exists_prop, movedTo, true_and]
    by_cases k1 : s = p
    · subst k1
      rw [h.union rfl]
      constructor
      · rintro (hz | hz)
        · exact ⟨s, by rw [if_neg hpq], hz⟩
        · exact ⟨q, by rw [if_pos rfl], hz⟩
      · rintro ⟨t, ht, hz⟩
        split_ifs at ht with h0
        · subst h0; exact Or.inr hz
        · subst ht; exact Or.inl hz
    · by_cases k2 : s = q
      · subst k2
        rw [region_empty (h.gone rfl)]
        simp only [Set.mem_empty_iff_false, false_iff, not_exists, not_and]
        rintro t ht
        split_ifs at ht with h0
        · exact absurd ht hpq
        · exact absurd ht h0
      · rw [h.regions s k1 k2]
        constructor
        · intro hz; exact ⟨s, by rw [if_neg k2], hz⟩
        · rintro ⟨t, ht, hz⟩
          split_ifs at ht with h0
          · exact absurd ht.symm k1
          · subst ht; exact hz
  · rw [h.planes]
    unfold movedTo
    by_cases h0 : s = q
    · subst h0; simpa using h.same rfl
    · simp only [h0, and_false, if_false]; exact SameDir3.refl _

namespace Inv
variable {W0 W : World} {G org lab : Nat → Nat}

/-- Merging two polygons of a round keeps the invariant. -/
theorem merge (hX : X.Good) {k : Nat} (h : X.Inv W0 (k + 1) W G org lab) {p q : Nat} (hu : ∀ i, G i = p ∨ G i = q → X.under k i) {W' : World}
    (hm : Merged W W' p q true) : ∃ lab', X.Inv W0 (k + 1) W' (movedTo p q true ∘ G) org lab' := by
  have nearG : ∀ i t j, G j = t → (movedTo p q true t = movedTo p q true (G i)) → X.Near (k + 1) i j := by
    intro i t j hj e
    rcases movedTo_eq e with e | ⟨e1, e2⟩
    · exact h.group i j (by rw [← e, hj])
    · exact Or.inr ⟨k, by omega, hu i e2, hu j (by rw [hj]; exact e1)⟩
  obtain ⟨lab', ht⟩ : ∃ lab', X.Tiled (k + 1) (Open W') (movedTo p q true ∘ G) lab' := by
    have key : ∀ O, Relation.ReflTransGen (JoinIn W p q) (Open W) O → (∃ lab', X.Tiled (k + 1) O (movedTo p q true ∘ G) lab') ∧ ∀ x A B, O x A B → ∃ A' B', Open W x A' B' := by
      intro O hO
      induction hO with
      | refl => exact ⟨⟨lab, h.tiled.mapG _⟩, fun x A B hx => ⟨A, B, hx⟩⟩
      | tail _ hj ih =>
        obtain ⟨⟨lab', ht⟩, sub⟩ := ih
        obtain ⟨e, f, he, hf, hj⟩ := hj
        have hj' := hj
        obtain ⟨A, B, C, oe, of, hne, hb, iff⟩ := hj'
        obtain ⟨A1, B1, we⟩ := sub _ _ _ oe
        obtain ⟨A2, B2, wf⟩ := sub _ _ _ of
        obtain ⟨e1, e2, e3⟩ := h.open_edge we
        obtain ⟨f1, f2, f3⟩ := h.open_edge wf
        have ue : X.under k (X.fac e) := hu _ (by rw [e3]; exact he)
        have uf : X.under k (X.fac f) := hu _ (by rw [f3]; exact hf)
        obtain ⟨le, ne⟩ := ht.along _ _ _ oe
        obtain ⟨lf, nf⟩ := ht.along _ _ _ of
        have al : Aligned (X.line e) (X.line f) := by
          obtain ⟨s, s0, hs⟩ := le.dir
          obtain ⟨t, t0, ht⟩ := lf.dir
          obtain ⟨μ, μ0, hμ⟩ := hb
          refine aligned_of le.onLine.2 lf.onLine.1 (c := t * μ / s) (by positivity) fun i => ?_
          rw [ht, hs, hμ]
          field_simp
        have c1 := hX.last e e1 f f1 (hX.nested k _ _ _ (by omega) ue (hX.inside e e1) uf) al
        have c2 := hX.last f f1 e e1 (hX.nested k _ _ _ (by omega) uf (hX.inside f f1) ue) al.symm
        refine ⟨ht.join hj e1 e2 (le_antisymm c1 c2) ?_, ?_⟩
        · show movedTo p q true (G (X.fac e)) = movedTo p q true (G (X.fac f))
          rw [e3, f3]
          have hpq := hm.ne rfl
          unfold movedTo
          rcases he with he | he <;> rcases hf with hf | hf <;> simp [he, hf]
        · intro x P Q hx
          rcases (iff x P Q).1 hx with ⟨rfl, -, -⟩ | ⟨hx, -, -⟩
          · exact ⟨A1, B1, we⟩
          · exact sub x P Q hx
    exact (key _ hm.opens).1
  refine ⟨lab', hm.linked, hm.small, ?_, h.base, ?_, ?_, ht, h.groups.trans (merged_groups hm), fun s => (hm.planes s).trans (h.planes s)⟩
  · intro s e he
    obtain ⟨s', h1, h2, h3⟩ := hm.moved s e he
    obtain ⟨k1, k2, k3, k4, k5⟩ := h.orgs s' e h1
    exact ⟨k1, k2, by rw [Function.comp, k3, h2], h3.trans k4, fun ho => k5 (h3.1 ho)⟩
  · intro i j e
    exact nearG i (G j) j rfl e.symm
  · intro i j ha
    obtain ⟨t, t', a1, a2, a3⟩ := hm.adj _ _ ha
    obtain ⟨x, A, B, y, hx, hy, hoy⟩ := a1
    obtain ⟨e, he, rfl, -⟩ := edge_of_half hx
    obtain ⟨t1, t2⟩ := h.linked.twin _ _ _ _ _ hx hy
    obtain ⟨f, hf, rfl, -⟩ := edge_of_half t1
    obtain ⟨-, -, g1, -⟩ := h.orgs t e he
    obtain ⟨-, -, g2, -⟩ := h.orgs _ f hf
    rw [hoy] at g2
    have n1 := nearG i t _ g1 a2
    have n2 := nearG j t' _ g2 a3
    have n3 := h.near (X.fac (org e.data)) (X.fac (org f.data)) (by rw [g1, g2]; exact ⟨_, A, B, _, hx, hy, hoy⟩)
    exact (n1.trans hX n3).trans hX n2.symm

/-- The edges of `W'` are edges of `W`, and polygons without edges stay so. -/
def Within (W W' : World) : Prop := ∀ s, ∀ e ∈ (W'.polys s).edges, (W.polys s).edges ≠ [] ∧ ∃ s', e ∈ (W.polys s').edges

theorem Within.refl (W : World) : Within W W := fun s e he => ⟨List.ne_nil_of_mem he, s, he⟩

theorem Within.trans {W W' W'' : World} (h : Within W W') (h' : Within W' W'') : Within W W'' := by
  intro s e he
  obtain ⟨h1, s', h2⟩ := h' s e he
  obtain ⟨f, hf⟩ := List.exists_mem_of_ne_nil _ h1
  exact ⟨(h s f hf).1, (h s' e h2).2⟩

/-- One step of the loop over the edges of a round. -/
theorem mergeAt (hX : X.Good) {k : Nat} (h : X.Inv W0 (k + 1) W G org lab) {drop : Fin 3} {n : V3} {x : Nat} (hx : x < X.n) (hk : X.call x = k)
    (hn : n.comp drop ≠ 0) (hp : n.dot (X.line x).d = 0) :
    ∃ W', World.mergeAt drop W x = some W' ∧ Within W W' ∧ ∃ G' lab', X.Inv W0 (k + 1) W' G' org lab' := by
  have hL := h.linked
  have hM := h.small
  have keep : World.mergeAt drop W x = some W → ∃ W', World.mergeAt drop W x = some W' ∧ Within W W' ∧ ∃ G' lab', X.Inv W0 (k + 1) W' G' org lab' := fun hk =>
    ⟨W, hk, Within.refl W, G, lab, h⟩
  cases hi : W.index x with
  | none => exact keep (by unfold World.mergeAt; rw [hi])
  | some i =>
    obtain ⟨e, ge, rfl⟩ : ∃ e, (W.polys (W.owner x)).edges[i]? = some e ∧ e.data = x := by
      unfold World.index at hi
      rw [List.findIdx?_eq_some_iff_getElem] at hi
      obtain ⟨h1, h2, -⟩ := hi
      exact ⟨_, List.getElem?_eq_getElem h1, by simpa using h2⟩
    have he : W.edge e.data = some e := by
      unfold World.edge; rw [hi]; exact ge
    cases hy : W.partner e.data with
    | none => exact keep (by unfold World.mergeAt; rw [hi, he, hy])
    | some y =>
      have hh : (e.data, (W.polys (W.owner e.data)).pt i, (W.polys (W.owner e.data)).pt ((i + 1) % (W.polys (W.owner e.data)).count)) ∈ halfEdges (W.polys (W.owner e.data)).edges :=
        mem_halfEdges.2 ⟨i, e, ge, rfl, rfl, rfl⟩
      obtain ⟨t1, t2⟩ := hL.twin _ _ _ _ _ hh hy
      obtain ⟨j, f, gf, df, -, -⟩ := mem_halfEdges.1 t1
      dsimp only at df
      have hj : W.index y = some j := by rw [← df]; exact (hL.index_eq gf).1
      have ne : ∀ {K : Polygon Nat} {i : Nat}, IsConvexPolygon K → i < K.count → K.pt i ≠ K.pt ((i + 1) % K.count) := by
        intro K i hK hi
        have n3 := hK.three
        by_cases c : i + 1 < K.count
        · rw [Nat.mod_eq_of_lt c]; exact hK.distinct _ _ (by omega) c
        · rw [show i + 1 = K.count by omega, Nat.mod_self]
          exact (hK.distinct 0 i (by omega) hi).symm
      have hd : ∀ {p i : Nat} {e : Edge Nat}, (W.polys p).edges[i]? = some e →
          ∃ C, EdgeLine e.line e.vertex.pt C ∧ e.vertex.pt ≠ C ∧ e.vertex.w ≠ 0 := by
        intro p i e ge
        have cp := hL.convex_of ge
        have li : i < (W.polys p).count := (List.getElem?_eq_some_iff.1 ge).1
        have l := cp.line i li
        have d := ne cp li
        have w := cp.finite i li
        rw [(pt_get ge).2.2] at l
        rw [(pt_get ge).1] at l d
        rw [(pt_get ge).2.1] at w
        exact ⟨_, l, d, w⟩
      have hal : ∀ {p q i j : Nat} {e f : Edge Nat}, (W.polys p).edges[i]? = some e → (W.polys q).edges[j]? = some f → World.straight e f = true →
          Aligned e.line f.line := by
        intro p q i j e f ge gf hs
        obtain ⟨C, l1, d1, -⟩ := hd ge
        obtain ⟨C', l2, d2, w2⟩ := hd gf
        exact straight_aligned (l1.d_ne d1) l2 d2 ((hM p).2 e (List.mem_of_getElem? ge)) ((hM q).2 f (List.mem_of_getElem? gf)) w2 hs
      have hu := h.under_all hX hx hk (List.mem_of_getElem? ge) rfl ⟨_, _, _, y, hh, hy, rfl⟩
      obtain ⟨C, l1, d1, -⟩ := hd ge
      have hpe : n.dot e.line.d = 0 := by
        obtain ⟨-, o2, -⟩ := h.orgs _ e (List.mem_of_getElem? ge)
        rw [o2, h.base _ hx]; exact hp
      obtain ⟨r, W', h1, h2⟩ := polygon_merged hL hM ge gf (by rw [df]; exact hy)
        (edgeDimension_ne hn (l1.d_ne d1) hpe)
        (fun e f g1 g2 hs => h.even hX hu (Or.inl rfl) (Or.inr rfl) (List.mem_of_getElem? g1) (List.mem_of_getElem? g2) (hal g1 g2 hs))
        (fun e f g1 g2 hs => h.even hX hu (Or.inr rfl) (Or.inl rfl) (List.mem_of_getElem? g1) (List.mem_of_getElem? g2) (hal g1 g2 hs))
      refine ⟨W', ?_, ?_, ?_⟩
      · unfold World.mergeAt
        rw [hi, he, hy]
        dsimp only
        rw [hj, Option.bind_eq_bind, Option.bind_some, h1]; rfl
      · intro s g hg
        obtain ⟨s', m1, m2, -⟩ := h2.moved s g hg
        refine ⟨?_, s', m1⟩
        unfold movedTo at m2
        split_ifs at m2 with hc
        · rw [← m2]; exact List.ne_nil_of_mem (List.mem_of_getElem? ge)
        · rw [← m2]; exact List.ne_nil_of_mem m1
      · cases r with
        | false => rw [h2.stays rfl]; exact ⟨G, lab, h⟩
        | true => exact ⟨_, h.merge hX hu h2⟩

/-- The loop over the edges of a round. -/
theorem mergeList (hX : X.Good) {k : Nat} {drop : Fin 3} {n : V3} (hn : n.comp drop ≠ 0) (l : List Nat)
    (hl : ∀ x ∈ l, x < X.n ∧ X.call x = k ∧ n.dot (X.line x).d = 0) (h : X.Inv W0 (k + 1) W G org lab) :
    ∃ W', World.mergeList drop W l = some W' ∧ Within W W' ∧ ∃ G' lab', X.Inv W0 (k + 1) W' G' org lab' := by
  induction l generalizing W G lab with
  | nil => exact ⟨W, rfl, Within.refl W, G, lab, h⟩
  | cons x l ih =>
    obtain ⟨x1, x2, x3⟩ := hl x (by simp)
    obtain ⟨W1, h1, w1, G1, lab1, i1⟩ := h.mergeAt hX x1 x2 hn x3
    obtain ⟨W2, h2, w2, i2⟩ := ih (fun y hy => hl y (List.mem_cons_of_mem _ hy)) i1
    refine ⟨W2, ?_, w1.trans w2, i2⟩
    unfold World.mergeList at *
    rw [List.foldlM_cons, h1]
    exact h2

end Inv

end Plan

end Walnut.Poly
