/-
What the winding number code adds to a child: the corners of the facets in the cell.
-/
import Verif.Bsp.WindCorner
import Verif.Bsp.SettledProof

namespace Walnut.Bsp
open Walnut.Geom Walnut.Poly Walnut.Props Filter Topology

/-- The split plane of an ancestor, with the cell inside. -/
def outPl (a : PlaneRef × Bool) : Pl :=
  if a.2 then ⟨fun i => -a.1.plane.n.q i, -a.1.plane.d⟩ else ⟨a.1.plane.n.q, a.1.plane.d⟩

theorem outPl_val (a : PlaneRef × Bool) (x : Q3) : (outPl a).val x = (if a.2 then -1 else 1) * a.1.plane.side x := by
  unfold outPl
  rw [side_dot]
  split_ifs
  · unfold Pl.val dotQ; ring
  · unfold Pl.val; ring

theorem outPl_zero (a : PlaneRef × Bool) (x : Q3) : (outPl a).val x = 0 ↔ a.1.plane.side x = 0 := by
  rw [outPl_val]
  split_ifs <;> simp

theorem outPl_side (a : PlaneRef × Bool) (x : Q3) : (outPl a).val x ≤ 0 ↔ onSide a.1.plane a.2 x := by
  rw [outPl_val]
  unfold onSide
  split_ifs
  · constructor <;> intro h <;> linarith
  · rw [one_mul]

/-- The vector `c` sees the normals in the order of `RXYCompareBivector`. -/
def Sees (c : Q3) (l : List V3) : Prop := ∀ u ∈ l, ∀ v ∈ l, sgn (om c u.q v.q) = rxyCompareBivector u v

/-- The sign of a side. -/
def sd (b : Bool) : ℤ := if b then -1 else 1

theorem om_out {c : Q3} {l : List V3} (hc : Sees c l) {a b : PlaneRef × Bool} (ha : a.1.plane.n ∈ l) (hb : b.1.plane.n ∈ l) :
    sgn (om c (outPl a).n (outPl b).n) = rxyCompareBivector a.1.plane.n b.1.plane.n * (sd a.2 * sd b.2) := by
  rw [← hc _ ha _ hb]
  have key : ∀ u v : Q3, om c (fun i => -u i) v = -om c u v ∧ om c u (fun i => -v i) = -om c u v := by
    intro u v
    unfold om dotQ
    simp only [crossQ_zero, crossQ_one, crossQ_two]
    constructor <;> ring
  unfold outPl sd
  by_cases h1 : a.2 = true <;> by_cases h2 : b.2 = true <;> simp only [h1, h2, if_true, if_false, Bool.false_eq_true]
  · rw [(key _ _).1, (key _ _).2]; simp
  · rw [(key _ _).1, sgn_opp]; ring
  · rw [(key _ _).2, sgn_opp]; ring
  · ring

theorem det_out_sign (g : HS3) (r : PlaneRef) (pos : Bool) (a b : PlaneRef × Bool) (hg : r.plane = g) :
    sgn (det3 (outPl (r, pos)).n (outPl a).n (outPl b).n) = sd pos * (sd a.2 * sd b.2) * Int.sign (g.n.dot (a.1.plane.n.cross b.1.plane.n)) := by
  subst hg
  have key : ∀ u v w : Q3, det3 (fun i => -u i) v w = -det3 u v w ∧ det3 u (fun i => -v i) w = -det3 u v w ∧ det3 u v (fun i => -w i) = -det3 u v w := by
    intro u v w
    unfold det3 dotQ
    simp only [crossQ_zero, crossQ_one, crossQ_two]
    refine ⟨?_, ?_, ?_⟩ <;> ring
  have base : ∀ u v w : V3, sgn (det3 u.q v.q w.q) = Int.sign (u.dot (v.cross w)) := by
    intro u v w
    have e : det3 u.q v.q w.q = ((u.dot (v.cross w) : ℤ) : ℚ) := by
      unfold det3 dotQ
      simp only [crossQ_zero, crossQ_one, crossQ_two]
      simp [V3.q, V3.comp, V3.dot, V3.cross]
    rw [e]
    rcases lt_trichotomy (u.dot (v.cross w)) 0 with h | h | h
    · rw [Int.sign_eq_neg_one_of_neg h]; exact sgn_neg (by exact_mod_cast h)
    · rw [h]; simp [sgn_zero]
    · rw [Int.sign_eq_one_of_pos h]; exact sgn_pos (by exact_mod_cast h)
  unfold outPl sd
  cases pos <;> by_cases h1 : a.2 = true <;> by_cases h2 : b.2 = true <;>
    simp only [h1, h2, if_true, if_false, Bool.false_eq_true, (key _ _ _).1, (key _ _ _).2.1, (key _ _ _).2.2, sgn_opp, base] <;> ring

/-- What the effect adds to the child `pos`. -/
def gain (pos : Bool) (x : Int × Bool) : ℤ := if x.2 = pos then x.1 else 0

theorem effect_num2 (pos : Bool) {vc ec ve mult sm mm cm : ℤ} (hvc : vc = -1 ∨ vc = 0 ∨ vc = 1) (hve : ve = -1 ∨ ve = 0 ∨ ve = 1)
    (hmult : mult = 1 ∨ mult = -1) (ms : (mm < 0 ∧ sm = -1) ∨ (mm = 0 ∧ sm = 0) ∨ (0 < mm ∧ sm = 1)) {x : Int × Bool}
    (nz : 0 ≤ sd pos * cm → ve = sd pos * vc → -(sd pos * ec) = sd pos * vc → sd pos * vc ≠ 0 → sd pos * (mult * sm) ≠ 0)
    (h : (if ec + vc ≠ 0 then some ((0 : Int), false) else if ¬ ((ec < 0 ∧ 0 < vc) ∨ (0 < ec ∧ vc < 0)) then none
      else if ve = 0 then none else if ¬ (vc * ve = 1 ∨ vc * ve = -1) then none else if ¬ (ve = 1 ∨ ve = -1) then none
      else if vc * ve * cm ≥ 0 then
        (if (decide (mm < 0) != decide (vc < 0)) != decide (mult < 0) then some (0, false) else some (ve, decide (vc * ve = -1)))
      else some (0, false)) = some x) :
    gain pos x = (if ve = sd pos * vc ∧ -(sd pos * ec) = sd pos * vc ∧ sd pos * (mult * sm) = sd pos * vc then sd pos * vc else 0) *
      ind (0 ≤ sd pos * cm) := by
  have g0 : gain pos (0, false) = 0 := by unfold gain; simp
  split_ifs at h with h1 h2 h3 h4 h5 h6 h7
  · rw [← Option.some.inj h, g0, if_neg, zero_mul]
    rintro ⟨_, h2, _⟩
    apply h1
    unfold sd at h2
    cases pos <;> simp at h2 <;> omega
  · obtain rfl : ec = -vc := by omega
    rw [← Option.some.inj h, g0]
    rcases hmult with rfl | rfl <;> rcases hvc with rfl | rfl | rfl <;> rcases hve with rfl | rfl | rfl <;> rcases ms with ⟨m1, rfl⟩ | ⟨m1, rfl⟩ | ⟨m1, rfl⟩ <;>
      cases pos <;> simp_all [sd] <;> omega
  · obtain rfl : ec = -vc := by omega
    rw [← Option.some.inj h]
    rcases hmult with rfl | rfl <;> rcases hvc with rfl | rfl | rfl <;> rcases hve with rfl | rfl | rfl <;> rcases ms with ⟨m1, rfl⟩ | ⟨m1, rfl⟩ | ⟨m1, rfl⟩ <;>
      cases pos <;> simp_all [sd, gain, ind_true] <;> omega
  · obtain rfl : ec = -vc := by omega
    rw [← Option.some.inj h, g0]
    by_cases hi : 0 ≤ sd pos * cm
    · rw [if_neg, zero_mul]
      rintro ⟨e, _, _⟩
      rw [e] at h6
      apply h6
      rcases hvc with rfl | rfl | rfl <;> cases pos <;> simp_all [sd]
    · rw [ind_false_of hi, mul_zero]

/-- `GetPWNEffectAtVertex` tells whether the vertex that `c` points to comes to lie at this
corner. -/
theorem effect_tau {c : Q3} {l : List V3} (hc : Sees c l) {g : HS3} (hg : g.n ∈ l) {a b : PlaneRef × Bool} (ha : a.1.plane.n ∈ l) (hb : b.1.plane.n ∈ l)
    {r : PlaneRef} (hr : r.plane = g) {pos : Bool} {v : Edge EdgeInfo} (hv : v.data.vertexLast = ⟨some a.1, a.2⟩) (hw : v.vertex.w ≠ 0)
    (va : (outPl a).val v.vertex.pt = 0) (vb : (outPl b).val v.vertex.pt = 0) {q : Q3} (qa : (outPl a).val q < 0) (qb : (outPl b).val q < 0)
    (qg : (outPl (r, pos)).val q < 0) {x : Int × Bool} (h : pwnEffect g (rxyCompareBivector g.n b.1.plane.n * (if b.2 then -1 else 1)) ⟨some b.1, b.2⟩ v = some x) :
    gain pos x = tau c (outPl (r, pos)).n (outPl a).n (outPl b).n * ind (0 ≤ (outPl (r, pos)).val v.vertex.pt) := by
  have hr' : (r, pos).1.plane.n ∈ l := by rw [hr]; exact hg
  have o1 := om_out hc hr' ha
  have o2 := om_out hc ha hb
  have o3 := om_out hc hb hr'
  have d1 := det_out_sign g r pos a b hr
  have sw : rxyCompareBivector b.1.plane.n g.n = -rxyCompareBivector g.n b.1.plane.n := by rw [← hc _ hb _ hg, ← hc _ hg _ hb, om_swap, sgn_opp]
  simp only [hr] at o1 o3
  rw [sw] at o3
  have nz : 0 ≤ (outPl (r, pos)).val v.vertex.pt → sgn (om c (outPl a).n (outPl b).n) = sgn (om c (outPl (r, pos)).n (outPl a).n) →
      sgn (om c (outPl b).n (outPl (r, pos)).n) = sgn (om c (outPl (r, pos)).n (outPl a).n) → sgn (om c (outPl (r, pos)).n (outPl a).n) ≠ 0 →
      sgn (det3 (outPl (r, pos)).n (outPl a).n (outPl b).n) ≠ 0 := by
    intro h0 h1 h2 h3 h4
    have e := cramer c (outPl (r, pos)).n (outPl a).n (outPl b).n (fun i => q i - v.vertex.pt i)
    rw [sgn_eq_zero.1 h4, zero_mul] at e
    have dy : ∀ p : Pl, p.val q < 0 → 0 ≤ p.val v.vertex.pt → dotQ p.n (fun i => q i - v.vertex.pt i) < 0 := by
      intro p h h'
      unfold Pl.val at h h'
      unfold dotQ at *
      linarith
    have y1 := dy _ qg h0
    have y2 := dy _ qa va.ge
    have y3 := dy _ qb vb.ge
    rcases sgn_cases (om c (outPl (r, pos)).n (outPl a).n) with ⟨s, p⟩ | ⟨s, p⟩ | ⟨s, p⟩
    · rw [s] at h1 h2
      have p1 := sgn_eq_one.1 h1
      have p2 := sgn_eq_one.1 h2
      have := mul_neg_of_pos_of_neg p y3
      have := mul_neg_of_pos_of_neg p1 y1
      have := mul_neg_of_pos_of_neg p2 y2
      linarith
    · rw [s] at h1 h2
      have p1 := sgn_eq_neg.1 h1
      have p2 := sgn_eq_neg.1 h2
      have := mul_pos_of_neg_of_neg p y3
      have := mul_pos_of_neg_of_neg p1 y1
      have := mul_pos_of_neg_of_neg p2 y2
      linarith
    · exact h3 s
  have i0 : 0 ≤ (outPl (r, pos)).val v.vertex.pt ↔ 0 ≤ sd pos * g.compareHomo v.vertex := by
    obtain ⟨⟨c1, c2, c3⟩, _⟩ := C23_compare_homo g v.vertex hw
    rw [outPl_val, hr]
    unfold sd
    cases pos
    · simp only [Bool.false_eq_true, if_false, one_mul]
      rw [← not_lt, ← not_lt, c1]
    · simp only [if_true, neg_mul, one_mul, Left.nonneg_neg_iff]
      rw [← not_lt, ← not_lt, c3]
  have hm : (if a.2 != b.2 then -1 else 1 : ℤ) = sd a.2 * sd b.2 := by
    unfold sd; cases a.2 <;> cases b.2 <;> rfl
  have p1 : sgn (om c (outPl (r, pos)).n (outPl a).n) = sd pos * (rxyCompareBivector g.n a.1.plane.n * sd a.2) := by rw [o1]; ring
  have p3 : sgn (om c (outPl b).n (outPl (r, pos)).n) = -(sd pos * (rxyCompareBivector g.n b.1.plane.n * sd b.2)) := by rw [o3]; ring
  have p4 : sgn (det3 (outPl (r, pos)).n (outPl a).n (outPl b).n) = sd pos * (sd a.2 * sd b.2 * Int.sign (g.n.dot (a.1.plane.n.cross b.1.plane.n))) := by
    rw [d1]; ring
  unfold tau
  rw [p1, o2, p3, p4, i0] at nz
  rw [p1, o2, p3, p4, ind_congr i0]
  unfold pwnEffect compareSide at h
  rw [hv] at h
  simp only [Option.map_some, hm] at h
  have sdv : ∀ b, sd b = 1 ∨ sd b = -1 := by intro b; cases b <;> simp [sd]
  refine effect_num2 pos ?_ ?_ ?_ ?_ nz h
  · have := rxy_values g.n a.1.plane.n
    rcases sdv a.2 with e | e <;> rw [e] <;> omega
  · have := rxy_values a.1.plane.n b.1.plane.n
    rcases sdv a.2 with e | e <;> rcases sdv b.2 with e' | e' <;> rw [e, e'] <;> omega
  · rcases sdv a.2 with e | e <;> rcases sdv b.2 with e' | e' <;> rw [e, e'] <;> simp
  · rcases lt_trichotomy (g.n.dot (a.1.plane.n.cross b.1.plane.n)) 0 with h | h | h
    · exact Or.inl ⟨h, Int.sign_eq_neg_one_of_neg h⟩
    · exact Or.inr (Or.inl ⟨h, by rw [h]; rfl⟩)
    · exact Or.inr (Or.inr ⟨h, Int.sign_eq_one_of_pos h⟩)

/-! ### Indices -/

/-- The planes of the ancestors, by depth. -/
def ancPl (anc : Anc) (k : ℕ) : Pl := (anc[k]?).elim ⟨0, 0⟩ outPl

/-- `pl` starts with the planes of the ancestors. -/
def Starts (pl : ℕ → Pl) (anc : Anc) : Prop := ∀ k a, anc[k]? = some a → pl k = outPl a

theorem Starts.left {pl : ℕ → Pl} {anc r : Anc} (h : Starts pl (anc ++ r)) : Starts pl anc := by
  intro k a hk
  apply h k a
  rw [List.getElem?_append_left (List.getElem?_eq_some_iff.1 hk).1]
  exact hk

theorem Deepest_index {anc : Anc} {C : HS3 → Prop} {s : SplitSide} (h : Deepest anc C s) :
    (s.split = none ∧ ∀ a ∈ anc, ¬ C a.1.plane) ∨
      ∃ (k : ℕ) (a : PlaneRef × Bool), anc[k]? = some a ∧ C a.1.plane ∧ (∀ (i : ℕ) (b : PlaneRef × Bool), k < i → anc[i]? = some b → ¬ C b.1.plane) ∧ s = ⟨some a.1, a.2⟩ := by
  rcases h with h | ⟨l, a, r, rfl, h1, h2, h3⟩
  · exact Or.inl h
  · refine Or.inr ⟨l.length, a, by simp, h1, ?_, h3⟩
    intro i b hi hb
    apply h2
    rw [List.getElem?_append_right (by omega)] at hb
    obtain ⟨j, hj⟩ : ∃ j, i - l.length = j + 1 := ⟨i - l.length - 1, by omega⟩
    rw [hj, List.getElem?_cons_succ] at hb
    exact List.mem_of_getElem? hb

theorem deepV_of {pl : ℕ → Pl} {anc : Anc} (hpl : Starts pl anc) {P : Polygon EdgeInfo} {j k : ℕ} {a : PlaneRef × Bool} (ha : anc[k]? = some a)
    (h1 : AtVertex P j a.1.plane) (h2 : ∀ i b, k < i → anc[i]? = some b → ¬ AtVertex P j b.1.plane) : DeepV pl anc.length P j k := by
  refine ⟨(List.getElem?_eq_some_iff.1 ha).1, ?_, fun i hi hin => ?_⟩
  · rw [hpl k a ha, outPl_zero]; exact h1
  · have hb : anc[i]? = some anc[i] := List.getElem?_eq_getElem hin
    rw [hpl i _ hb, Ne, outPl_zero]
    exact h2 i _ hi hb

theorem deepE_of {pl : ℕ → Pl} {anc : Anc} (hpl : Starts pl anc) {P : Polygon EdgeInfo} {j k : ℕ} {a : PlaneRef × Bool} (ha : anc[k]? = some a)
    (h1 : AtEdge P j a.1.plane) (h2 : ∀ i b, k < i → anc[i]? = some b → ¬ AtEdge P j b.1.plane) : DeepE pl anc.length P j k := by
  refine ⟨(List.getElem?_eq_some_iff.1 ha).1, ?_, fun i hi hin => ?_⟩
  · rw [hpl k a ha, outPl_zero, outPl_zero]; exact h1
  · have hb : anc[i]? = some anc[i] := List.getElem?_eq_getElem hin
    rw [hpl i _ hb, outPl_zero, outPl_zero]
    exact h2 i _ hi hb

theorem not_deepE {pl : ℕ → Pl} {anc : Anc} (hpl : Starts pl anc) {P : Polygon EdgeInfo} {j k : ℕ} (h : ∀ a ∈ anc, ¬ AtEdge P j a.1.plane) :
    ¬ DeepE pl anc.length P j k := by
  rintro ⟨h1, h2, _⟩
  have hb : anc[k]? = some anc[k] := List.getElem?_eq_getElem h1
  rw [hpl k _ hb, outPl_zero, outPl_zero] at h2
  exact h _ (List.mem_of_getElem? hb) h2

theorem sum_pair {n a0 b0 : ℕ} (ha : a0 < n) (hb : b0 < n) {A B : ℕ → Prop} (hA : ∀ a, A a ↔ a = a0) (hB : ∀ b, B b ↔ b = b0) (T : ℕ → ℕ → ℤ) (h : Prop) :
    ∑ a ∈ Finset.range n, ∑ b ∈ Finset.range n, T a b * ind (A a ∧ B b ∧ h) = T a0 b0 * ind h := by
  rw [Finset.sum_eq_single a0, Finset.sum_eq_single b0]
  · congr 1
    apply ind_congr
    rw [hA, hB]; simp
  · intro b _ hb'
    rw [ind_false_of (fun x => hb' ((hB b).1 x.2.1)), mul_zero]
  · intro h'; exact absurd (Finset.mem_range.2 hb) h'
  · intro a _ ha'
    refine Finset.sum_eq_zero fun b _ => ?_
    rw [ind_false_of (fun x => ha' ((hA a).1 x.1)), mul_zero]
  · intro h'; exact absurd (Finset.mem_range.2 ha) h'

/-- What an edge adds to the child. -/
noncomputable def edgeGain (c : Q3) (pl : ℕ → Pl) (n : ℕ) (P : Polygon EdgeInfo) (j : ℕ) : ℤ :=
  ∑ a ∈ Finset.range n, ∑ b ∈ Finset.range n, tau c (pl n).n (pl a).n (pl b).n *
    (ind (DeepV pl n P j a ∧ DeepE pl n P j b ∧ 0 ≤ (pl n).val (P.pt j)) +
      ind (DeepE pl n P j a ∧ DeepV pl n P ((j + 1) % P.count) b ∧ 0 ≤ (pl n).val (P.pt ((j + 1) % P.count))))

theorem edgeGain_sum (c : Q3) (pl : ℕ → Pl) (n : ℕ) (P : Polygon EdgeInfo) : ∑ j ∈ Finset.range P.count, edgeGain c pl n P j =
    ∑ a ∈ Finset.range n, ∑ b ∈ Finset.range n, tau c (pl n).n (pl a).n (pl b).n * corners pl n P a b := by
  unfold edgeGain corners
  rw [Finset.sum_comm]
  refine Finset.sum_congr rfl fun a _ => ?_
  rw [Finset.sum_comm]
  refine Finset.sum_congr rfl fun b _ => ?_
  rw [Finset.mul_sum]

/-- The child's winding number of a content. -/
def pw (pos : Bool) (id : ℕ) (k : List Info × List Info) : ℤ := ((if pos then k.2 else k.1).getD id {}).pwn

theorem addPwn_gain {k k' : List Info × List Info} {id id' : ℕ} {x : Int × Bool} {s : ℤ} (h : addPwn k id' x s = some k') (pos : Bool) :
    pw pos id k' = pw pos id k + if id' = id then s * gain pos x else 0 := by
  unfold addPwn at h
  unfold pw gain
  split_ifs at h with h1 h2
  · rw [← Option.some.inj h, h1]; simp
  · obtain ⟨y, hy, rfl⟩ := Option.map_eq_some_iff.1 h
    cases pos
    · simp [h2]
    · simp only [if_true, h2, bump_getD hy id]
      by_cases e : id' = id <;> simp [e]
  · obtain ⟨y, hy, rfl⟩ := Option.map_eq_some_iff.1 h
    cases pos
    · simp only [Bool.false_eq_true, if_false, bump_getD hy id]
      by_cases e : id' = id <;> simp [e, h2]
    · simp [h2]

/-- The situation of a split: `c` sees all normals, and the point `q` is inside of the child. -/
structure Sit (c : Q3) (pl : ℕ → Pl) (anc : Anc) (r : PlaneRef) (pos : Bool) (q : Q3) : Prop where
  sees : Sees c (r.plane.n :: anc.map fun a => a.1.plane.n)
  starts : Starts pl (anc ++ [(r, pos)])
  inside : ∀ a ∈ anc ++ [(r, pos)], (outPl a).val q < 0

theorem Sit.last {c : Q3} {pl : ℕ → Pl} {anc : Anc} {r : PlaneRef} {pos : Bool} {q : Q3} (h : Sit c pl anc r pos q) : pl anc.length = outPl (r, pos) :=
  h.starts _ _ (by simp)

theorem pushEdgePwn_gain {c : Q3} {pl : ℕ → Pl} {anc : Anc} {r : PlaneRef} {pos : Bool} {q : Q3} (hs : Sit c pl anc r pos q)
    {P : Polygon EdgeInfo} (hP : IsConvexPolygon P) (hE : EdgesOK anc P) {i : ℕ} (hi : i < P.count) {e next : Edge EdgeInfo} (he : P.edges[i]? = some e)
    (hn : P.edges[(i + 1) % P.count]? = some next) {id id' : ℕ} {k k' : List Info × List Info} (h : pushEdgePwn r.plane id' e next k = some k') :
    pw pos id k' = pw pos id k + if id' = id then edgeGain c pl anc.length P i else 0 := by
  have hi' : (i + 1) % P.count < P.count := Nat.mod_lt _ (by omega)
  have hst := hs.starts.left
  have v1 : P.pt i = e.vertex.pt := by unfold Polygon.pt; rw [vertexD_of he]
  have v2 : P.pt ((i + 1) % P.count) = next.vertex.pt := by unfold Polygon.pt; rw [vertexD_of hn]
  have w1 : e.vertex.w ≠ 0 := by rw [← vertexD_of he]; exact hP.finite i hi
  have w2 : next.vertex.w ≠ 0 := by rw [← vertexD_of hn]; exact hP.finite _ hi'
  have ml : ∀ {k : ℕ} {a : PlaneRef × Bool}, anc[k]? = some a → a.1.plane.n ∈ r.plane.n :: anc.map fun a => a.1.plane.n := fun h =>
    List.mem_cons_of_mem _ (List.mem_map_of_mem (List.mem_of_getElem? h))
  have qi : ∀ {k : ℕ} {a : PlaneRef × Bool}, anc[k]? = some a → (outPl a).val q < 0 := fun h =>
    hs.inside _ (List.mem_append_left _ (List.mem_of_getElem? h))
  obtain ⟨dv, de, _, _⟩ := hE i e he
  obtain ⟨dv', _, _, _⟩ := hE _ next hn
  rcases Deepest_index de with ⟨z1, z2⟩ | ⟨kb, b, hb, b1, b2, b3⟩
  · unfold pushEdgePwn compareSide at h
    rw [z1] at h
    simp only [Option.map_none] at h
    rw [← Option.some.inj h]
    have : edgeGain c pl anc.length P i = 0 := by
      unfold edgeGain
      refine Finset.sum_eq_zero fun a _ => Finset.sum_eq_zero fun b _ => ?_
      rw [ind_false_of (fun x => not_deepE hst z2 x.2.1), ind_false_of (fun x => not_deepE hst z2 x.1)]; simp
    rw [this]; simp
  obtain ⟨ka, a, ha, a1, a2, a3⟩ : ∃ (k : ℕ) (a : PlaneRef × Bool), anc[k]? = some a ∧ AtVertex P i a.1.plane ∧
      (∀ (j : ℕ) (b : PlaneRef × Bool), k < j → anc[j]? = some b → ¬ AtVertex P i b.1.plane) ∧ e.data.vertexLast = ⟨some a.1, a.2⟩ := by
    rcases Deepest_index dv with ⟨_, z2⟩ | h
    · exact absurd b1.1 (z2 b (List.mem_of_getElem? hb))
    · exact h
  obtain ⟨kd, d, hd, d1, d2, d3⟩ : ∃ (k : ℕ) (a : PlaneRef × Bool), anc[k]? = some a ∧ AtVertex P ((i + 1) % P.count) a.1.plane ∧
      (∀ (j : ℕ) (b : PlaneRef × Bool), k < j → anc[j]? = some b → ¬ AtVertex P ((i + 1) % P.count) b.1.plane) ∧ next.data.vertexLast = ⟨some a.1, a.2⟩ := by
    rcases Deepest_index dv' with ⟨_, z2⟩ | h
    · exact absurd b1.2 (z2 b (List.mem_of_getElem? hb))
    · exact h
  have DB := deepE_of hst hb b1 b2
  have DA := deepV_of hst ha a1 a2
  have DD := deepV_of hst hd d1 d2
  have eg : edgeGain c pl anc.length P i = tau c (outPl (r, pos)).n (outPl a).n (outPl b).n * ind (0 ≤ (outPl (r, pos)).val e.vertex.pt) -
      tau c (outPl (r, pos)).n (outPl d).n (outPl b).n * ind (0 ≤ (outPl (r, pos)).val next.vertex.pt) := by
    unfold edgeGain
    simp only [mul_add, Finset.sum_add_distrib]
    rw [sum_pair DA.1 DB.1 (fun x => ⟨fun y => y.unique DA, fun y => y ▸ DA⟩) (fun x => ⟨fun y => y.unique DB, fun y => y ▸ DB⟩),
      sum_pair DB.1 DD.1 (fun x => ⟨fun y => y.unique DB, fun y => y ▸ DB⟩) (fun x => ⟨fun y => y.unique DD, fun y => y ▸ DD⟩),
      hs.last, hst ka a ha, hst kb b hb, hst kd d hd, v1, v2, tau_swap c _ (outPl b).n (outPl d).n]
    ring
  have vb1 : (outPl b).val e.vertex.pt = 0 := by rw [outPl_zero, ← v1]; exact b1.1
  have vb2 : (outPl b).val next.vertex.pt = 0 := by rw [outPl_zero, ← v2]; exact b1.2
  have va : (outPl a).val e.vertex.pt = 0 := by rw [outPl_zero, ← v1]; exact a1
  have vd : (outPl d).val next.vertex.pt = 0 := by rw [outPl_zero, ← v2]; exact d1
  have qg : (outPl (r, pos)).val q < 0 := hs.inside _ (by simp)
  have hr0 : (r, pos).1.plane.n ∈ r.plane.n :: anc.map fun a => a.1.plane.n := by simp
  unfold pushEdgePwn compareSide at h
  rw [b3] at h
  simp only [Option.map_some] at h
  by_cases h0 : rxyCompareBivector r.plane.n b.1.plane.n * (if b.2 = true then -1 else 1) = 0
  · rw [if_pos h0] at h
    rw [← Option.some.inj h]
    have z : ∀ u, tau c (outPl (r, pos)).n u (outPl b).n = 0 := by
      intro u
      have o := om_out hs.sees (ml hb) hr0
      have sw : rxyCompareBivector b.1.plane.n r.plane.n = 0 := by
        have : rxyCompareBivector r.plane.n b.1.plane.n = 0 := by
          rcases mul_eq_zero.1 h0 with h | h
          · exact h
          · split_ifs at h <;> simp at h
        rw [← hs.sees _ (ml hb) _ hr0, om_swap, sgn_opp, hs.sees _ hr0 _ (ml hb), this, neg_zero]
      rw [sw, zero_mul] at o
      unfold tau
      rw [o]
      split_ifs with h
      · exact h.2.1.symm
      · rfl
    rw [eg, z, z]; simp
  · rw [if_neg h0] at h
    split at h
    · simp at h
    · rename_i x hx
      split at h
      · simp at h
      · rename_i k1 hk1
        split at h
        · simp at h
        · rename_i y hy
          have g1 := effect_tau hs.sees hr0 (ml ha) (ml hb) rfl a3 w1 va vb1 (qi ha) (qi hb) qg hx
          have g2 := effect_tau hs.sees hr0 (ml hd) (ml hb) rfl d3 w2 vd vb2 (qi hd) (qi hb) qg hy
          rw [addPwn_gain h pos, addPwn_gain hk1 pos, eg, ← g1, ← g2]
          split_ifs <;> ring

theorem pushPolyPwn_gain {c : Q3} {pl : ℕ → Pl} {anc : Anc} {r : PlaneRef} {pos : Bool} {q : Q3} (hs : Sit c pl anc r pos q)
    {P : Polygon EdgeInfo} (hP : IsConvexPolygon P) (hE : EdgesOK anc P) {first : Edge EdgeInfo} (hf : P.edges[0]? = some first) {id id' : ℕ} :
    ∀ (l pre : List (Edge EdgeInfo)) (k k' : List Info × List Info), P.edges = pre ++ l → pushPolyPwn r.plane id' first l k = some k' →
      pw pos id k' = pw pos id k + if id' = id then ∑ j ∈ Finset.Ico pre.length P.count, edgeGain c pl anc.length P j else 0 := by
  intro l
  induction l with
  | nil =>
    intro pre k k' hp h
    have : P.count = pre.length := by unfold Polygon.count; rw [hp]; simp
    rw [← Option.some.inj h, this]; simp
  | cons e l ih =>
    intro pre k k' hp h
    have hlen : P.count = pre.length + 1 + l.length := by unfold Polygon.count; rw [hp]; simp; omega
    have hj : P.edges[pre.length]? = some e := by rw [hp, List.getElem?_append_right (le_refl _)]; simp
    have hnext : P.edges[(pre.length + 1) % P.count]? = some (l.headD first) := by
      cases l with
      | nil =>
        rw [show (pre.length + 1) % P.count = 0 by rw [hlen]; simp]
        exact hf
      | cons e' l' =>
        rw [Nat.mod_eq_of_lt (by rw [hlen]; simp), hp, List.getElem?_append_right (by omega)]
        simp
    unfold pushPolyPwn at h
    split at h
    · simp at h
    · rename_i k1 hk1
      have g1 := pushEdgePwn_gain hs hP hE (by omega) hj hnext (id := id) hk1
      have g2 := ih (pre ++ [e]) k1 k' (by rw [hp]; simp) h
      rw [g2, g1, List.length_append, List.length_singleton, Finset.sum_eq_sum_Ico_succ_bot (show pre.length < P.count by omega)]
      split_ifs <;> ring

/-- What the corners of a polygon add to the child. -/
noncomputable def cornerGain (c : Q3) (pl : ℕ → Pl) (n : ℕ) (P : Polygon EdgeInfo) : ℤ :=
  ∑ a ∈ Finset.range n, ∑ b ∈ Finset.range n, tau c (pl n).n (pl a).n (pl b).n * corners pl n P a b

theorem pushPwn_gain {c : Q3} {pl : ℕ → Pl} {anc : Anc} {r : PlaneRef} {pos : Bool} {q : Q3} (hs : Sit c pl anc r pos q) {id : ℕ} :
    ∀ (l : List BPoly) (k k' : List Info × List Info), (∀ p ∈ l, IsConvexPolygon p.poly ∧ EdgesOK anc p.poly) → pushPwn r.plane l k = some k' →
      pw pos id k' = pw pos id k + ((l.filter fun p => p.id == id).map fun p => cornerGain c pl anc.length p.poly).sum := by
  intro l
  induction l with
  | nil => intro k k' _ h; rw [← Option.some.inj h]; simp
  | cons p l ih =>
    intro k k' hl h
    obtain ⟨hP, hE⟩ := hl p (by simp)
    have h3 := hP.three
    unfold pushPwn at h
    split at h
    · rename_i he
      unfold Polygon.count at h3
      rw [he] at h3
      simp at h3
    · rename_i e t he
      split at h
      · simp at h
      · rename_i k1 hk1
        have g1 := pushPolyPwn_gain hs hP hE (by rw [he]; rfl) (id := id) _ [] _ _ (by rw [he]; rfl) hk1
        have g2 := ih k1 k' (fun p hp => hl p (by simp [hp])) h
        rw [List.length_nil, ← Finset.range_eq_Ico, edgeGain_sum] at g1
        rw [g2, g1]
        by_cases e : p.id = id
        · rw [List.filter_cons_of_pos (by simp [e])]
          simp only [e, if_true, List.map_cons, List.sum_cons, cornerGain]; ring
        · rw [List.filter_cons_of_neg (by simp [e])]
          simp only [e, if_false]; ring

/-- The winding number of a content. -/
def pwnOf (d : NodeData) (id : ℕ) : ℤ := (d.infoFor id).pwn

theorem pushChildren_gain {c : Q3} {pl : ℕ → Pl} {anc : Anc} {r : PlaneRef} {pos : Bool} {q : Q3} (hs : Sit c pl anc r pos q) (id : ℕ)
    {d : NodeData} (hd : ∀ p ∈ d.contents, IsConvexPolygon p.poly ∧ EdgesOK anc p.poly) {k k' : NodeData × NodeData} (h : pushChildren r d k = some k') :
    pwnOf (if pos then k'.2 else k'.1) id = pwnOf (if pos then k.2 else k.1) id +
      ((d.contents.filter fun p => p.id == id).map fun p => cornerGain c pl anc.length p.poly).sum := by
  unfold pushChildren at h
  split at h
  · simp at h
  · rename_i i e
    have g := pushPwn_gain hs (id := id) _ _ _ hd e
    split at h
    · simp at h
    · rename_i k1 e1
      have b := pushAll_same2 (P := fun _ => True) (fun _ _ _ hk => pushContent_same2 hk) _ _ _ e1
      have c := pushAll_same2 (P := fun _ => True) (fun _ _ _ hk => pushBorder_same2 hk) _ _ _ h
      rw [show pwnOf (if pos = true then k.2 else k.1) id = pw pos id (k.1.info, k.2.info) by cases pos <;> rfl, ← g]
      cases pos
      · exact (c.1.2 id trivial).trans (b.1.2 id trivial)
      · exact (c.2.2 id trivial).trans (b.2.2 id trivial)

end Walnut.Bsp
