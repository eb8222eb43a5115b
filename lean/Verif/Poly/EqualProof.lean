/-
Proofs about equality and inversion of polygons.
-/
import Verif.Poly.Equal
import Verif.Poly.SplitShape

namespace Walnut.Poly
open Walnut.Geom

variable {D : Type}

/-! ### The reversal loops -/

/-- The three parts of an entry. -/
def partsOf (l : List (Edge D)) (k : Nat) : Option (HP3 × PL × D) := (l[k]?).map fun e => (e.vertex, e.line, e.data)

theorem swapVertex_length (l : List (Edge D)) (i j : Nat) : (swapVertex l i j).length = l.length := by
  unfold swapVertex; split <;> simp

theorem swapLine_length (l : List (Edge D)) (i j : Nat) : (swapLine l i j).length = l.length := by
  unfold swapLine; split <;> simp

theorem swapVertex_get {l : List (Edge D)} {i j : Nat} (hij : i < j) (hj : j < l.length) (k : Nat) :
    ((swapVertex l i j)[k]?).map (·.vertex) = (l[if k = i then j else if k = j then i else k]?).map (·.vertex) ∧
    ((swapVertex l i j)[k]?).map (·.line) = (l[k]?).map (·.line) ∧
    ((swapVertex l i j)[k]?).map (·.data) = (l[k]?).map (·.data) := by
  have hi : i < l.length := by omega
  unfold swapVertex
  rw [List.getElem?_eq_getElem hi, List.getElem?_eq_getElem hj]
  simp only [List.getElem?_set]
  by_cases h1 : k = j
  · subst h1
    have : k ≠ i := by omega
    simp [hj, hi, this]
  · by_cases h2 : k = i
    · subst h2
      have : ¬ j = k := by omega
      simp [hj, hi, this]
    · have a1 : ¬ j = k := fun h => h1 h.symm
      have a2 : ¬ i = k := fun h => h2 h.symm
      simp [h1, h2, a1, a2]

theorem swapLine_get {l : List (Edge D)} {i j : Nat} (hij : i < j) (hj : j < l.length) (k : Nat) :
    ((swapLine l i j)[k]?).map (·.line) = (l[if k = i then j else if k = j then i else k]?).map (·.line) ∧
    ((swapLine l i j)[k]?).map (·.vertex) = (l[k]?).map (·.vertex) ∧
    ((swapLine l i j)[k]?).map (·.data) = (l[k]?).map (·.data) := by
  have hi : i < l.length := by omega
  unfold swapLine
  rw [List.getElem?_eq_getElem hi, List.getElem?_eq_getElem hj]
  simp only [List.getElem?_set]
  by_cases h1 : k = j
  · subst h1
    have : k ≠ i := by omega
    simp [hj, hi, this]
  · by_cases h2 : k = i
    · subst h2
      have : ¬ j = k := by omega
      simp [hj, hi, this]
    · have a1 : ¬ j = k := fun h => h1 h.symm
      have a2 : ¬ i = k := fun h => h2 h.symm
      simp [h1, h2, a1, a2]

/-- A swap of one component (`f`), the others (`g`) unchanged, repeated from both ends
is a reversal. -/
theorem swapLoop_get {α β : Type} {swap : List (Edge D) → Nat → Nat → List (Edge D)} {f : Edge D → α} {g : Edge D → β}
    (hlen : ∀ l i j, (swap l i j).length = l.length)
    (hs : ∀ (l : List (Edge D)) i j, i < j → j < l.length → ∀ k,
      ((swap l i j)[k]?).map f = (l[if k = i then j else if k = j then i else k]?).map f ∧
      ((swap l i j)[k]?).map g = (l[k]?).map g) :
    ∀ (m : Nat) (l : List (Edge D)) (i j : Nat), j - i ≤ m → j < l.length → ∀ k,
      (swapLoop swap l i j).length = l.length ∧
      ((swapLoop swap l i j)[k]?).map f = (l[if i ≤ k ∧ k ≤ j then i + j - k else k]?).map f ∧
      ((swapLoop swap l i j)[k]?).map g = (l[k]?).map g := by
  intro m
  induction m with
  | zero =>
    intro l i j h hj k
    unfold swapLoop
    rw [dif_neg (by omega)]
    refine ⟨rfl, ?_, rfl⟩
    split
    · rw [show i + j - k = k by omega]
    · rfl
  | succ m ih =>
    intro l i j h hj k
    unfold swapLoop
    by_cases hij : i < j
    · rw [dif_pos hij]
      obtain ⟨r0, r1, r2⟩ := ih (swap l i j) (i + 1) (j - 1) (by omega) (by rw [hlen]; omega) k
      refine ⟨by rw [r0, hlen], ?_, ?_⟩
      · rw [r1, (hs l i j hij hj _).1]
        congr 2
        split_ifs <;> omega
      · rw [r2, (hs l i j hij hj k).2]
    · rw [dif_neg hij]
      refine ⟨rfl, ?_, rfl⟩
      split
      · rw [show i + j - k = k by omega]
      · rfl

/-! ### Inversion -/

theorem vertexD_map (P : Polygon D) (i : Nat) : P.vertexD i = ((P.edges[i]?).map (·.vertex)).getD ⟨⟨0, 0, 0⟩, 0⟩ := by
  unfold Polygon.vertexD; cases P.edges[i]? <;> rfl

theorem lineD_map (P : Polygon D) (i : Nat) : P.lineD i = ((P.edges[i]?).map (·.line)).getD ⟨⟨0, 0, 0⟩, ⟨0, 0, 0⟩⟩ := by
  unfold Polygon.lineD; cases P.edges[i]? <;> rfl

theorem invert_spec (P : Polygon D) :
    P.invert.count = P.count ∧ P.invert.drop = P.drop ∧ (P.count ≠ 0 → P.invert.plane = P.plane.neg) ∧
    ∀ k, k < P.count →
      (P.invert.edges[k]?).map (·.vertex) = (P.edges[(P.count - k) % P.count]?).map (·.vertex) ∧
      (P.invert.edges[k]?).map (·.line) = (P.edges[P.count - 1 - k]?).map (·.line.neg) ∧
      (P.invert.edges[k]?).map (·.data) = (P.edges[k]?).map (·.data) := by
  unfold Polygon.invert
  split
  · rename_i h; exact ⟨rfl, rfl, fun h' => absurd h h', fun k hk => by omega⟩
  · rename_i hn
    set l1 := swapLoop swapVertex P.edges 1 (P.count - 1) with hl1
    set l2 := swapLoop swapLine l1 0 (P.count - 1) with hl2
    have hlen : P.edges.length = P.count := rfl
    have A := swapLoop_get (D := D) (swap := swapVertex) (f := (·.vertex)) (g := fun e => (e.line, e.data)) swapVertex_length
      (fun l i j h1 h2 k => by
        obtain ⟨a, b, c⟩ := swapVertex_get h1 h2 k
        refine ⟨a, ?_⟩
        cases h : (swapVertex l i j)[k]? <;> cases h' : l[k]? <;> simp_all)
      _ P.edges 1 (P.count - 1) le_rfl (by omega)
    have L1 : l1.length = P.count := (A 0).1
    have B := swapLoop_get (D := D) (swap := swapLine) (f := (·.line)) (g := fun e => (e.vertex, e.data)) swapLine_length
      (fun l i j h1 h2 k => by
        obtain ⟨a, b, c⟩ := swapLine_get h1 h2 k
        refine ⟨a, ?_⟩
        cases h : (swapLine l i j)[k]? <;> cases h' : l[k]? <;> simp_all)
      _ l1 0 (P.count - 1) le_rfl (by omega)
    have L2 : l2.length = P.count := (B 0).1.trans L1
    refine ⟨(List.length_map _).trans L2, rfl, fun _ => rfl, fun k hk => ?_⟩
    obtain ⟨_, a1, a2⟩ := A k
    obtain ⟨_, b1, b2⟩ := B k
    rw [← hl1] at a1 a2
    rw [← hl2] at b1 b2
    simp only [List.getElem?_map, Option.map_map]
    have hk2 : k < l2.length := by omega
    have hk1 : k < l1.length := by omega
    have hk0 : k < P.edges.length := by omega
    rw [List.getElem?_eq_getElem hk2] at b1 b2 ⊢
    rw [List.getElem?_eq_getElem hk1] at a1 a2 b2
    rw [List.getElem?_eq_getElem hk0] at a2
    simp only [Option.map_some, Option.some.injEq, Prod.mk.injEq] at a2 b2
    refine ⟨?_, ?_, ?_⟩
    · simp only [Option.map_some, Function.comp]
      rw [b2.1]
      simp only [Option.map_some] at a1
      rw [a1]
      congr 2
      by_cases h0 : k = 0
      · subst h0; simp
      · rw [if_pos (by omega), Nat.mod_eq_of_lt (by omega)]; omega
    · rw [if_pos (by omega), show 0 + (P.count - 1) - k = P.count - 1 - k by omega] at b1
      have hk3 : P.count - 1 - k < l1.length := by omega
      have hk4 : P.count - 1 - k < P.edges.length := by omega
      obtain ⟨_, _, a2'⟩ := A (P.count - 1 - k)
      rw [← hl1, List.getElem?_eq_getElem hk3, List.getElem?_eq_getElem hk4] at a2'
      rw [List.getElem?_eq_getElem hk3] at b1
      rw [List.getElem?_eq_getElem hk4]
      simp only [Option.map_some, Option.some.injEq, Prod.mk.injEq, Function.comp] at a2' b1 ⊢
      rw [b1, a2'.1]
    · rw [List.getElem?_eq_getElem hk0]
      simp only [Option.map_some, Function.comp]
      rw [b2.2, a2.2]

theorem invert_vertexD (P : Polygon D) {k : Nat} (hk : k < P.count) :
    P.invert.vertexD k = P.vertexD ((P.count - k) % P.count) := by
  rw [vertexD_map, vertexD_map, ((invert_spec P).2.2.2 k hk).1]

theorem invert_lineD (P : Polygon D) {k : Nat} (hk : k < P.count) :
    P.invert.lineD k = (P.lineD (P.count - 1 - k)).neg := by
  rw [lineD_map, lineD_map, ((invert_spec P).2.2.2 k hk).2.1]
  have : P.count - 1 - k < P.edges.length := by unfold Polygon.count at *; omega
  rw [List.getElem?_eq_getElem this]; rfl

theorem invert_pt (P : Polygon D) {k : Nat} (hk : k < P.count) : P.invert.pt k = P.pt ((P.count - k) % P.count) := by
  unfold Polygon.pt; rw [invert_vertexD P hk]

theorem turn_rev (n a b c : Q3) : turn n a c b = -turn n a b c := by
  simp [turn, dotQ, crossQ]; ring

theorem turn_rot (n a b c : Q3) : turn n b c a = turn n a b c := by
  simp [turn, dotQ, crossQ]; ring

theorem turn_neg (v : V3) (a b c : Q3) : turn v.neg.q a b c = -turn v.q a b c := by
  simp [turn, dotQ, crossQ, V3.q, V3.neg, V3.comp]; ring

theorem EdgeLine.reverse {l : PL} {p q : Q3} (h : EdgeLine l p q) : EdgeLine l.neg q p := by
  obtain ⟨s, hs, hd⟩ := h.dir
  have hon := h.on
  have qn : ∀ v : V3, ∀ i, v.neg.q i = -v.q i := by
    intro v i; rcases fin3 i with rfl | rfl | rfl <;> simp [V3.q, V3.neg, V3.comp]
  refine ⟨?_, s, hs, fun i => ?_⟩
  · have h0 := congrFun hon 0
    have h1 := congrFun hon 1
    have h2 := congrFun hon 2
    simp only [crossQ, Matrix.cons_val] at h0 h1 h2
    apply q3_ext <;> simp only [crossQ, Matrix.cons_val, PL.neg, qn] <;> rw [hd, hd] <;> rw [hd, hd] at *
    · linear_combination -h0
    · linear_combination -h1
    · linear_combination -h2
  · unfold PL.neg
    rw [qn, hd]; ring

theorem neg_side (h : HS3) (q : Q3) : h.neg.side q = -(h.side q) := by
  simp [HS3.side_eq, HS3.neg, V3.neg]; ring

theorem IsConvexPolygon.invert {P : Polygon D} (h : IsConvexPolygon P) : IsConvexPolygon P.invert := by
  obtain ⟨ec, ed, ep, _⟩ := invert_spec P
  have hn := h.count_pos
  have ep := ep (by omega)
  have idx : ∀ i, i < P.count → (P.count - i) % P.count = if i = 0 then 0 else P.count - i := by
    intro i hi
    split
    · rename_i h0; rw [h0]; simp
    · rw [Nat.mod_eq_of_lt (by omega)]
  refine ⟨?_, fun i hi => ?_, fun i hi => ?_, fun i hi => ?_, fun i j k h1 h2 h3 => ?_, fun i j h1 h2 => ?_, ?_⟩
  · rw [ep, ed]
    have := h.drop
    intro h0
    apply this
    have : ∀ i, P.plane.neg.n.comp i = -P.plane.n.comp i := by
      intro i; rcases fin3 i with rfl | rfl | rfl <;> simp [HS3.neg, V3.neg, V3.comp]
    rw [this] at h0; omega
  · rw [ec] at hi
    rw [invert_vertexD P hi]
    exact h.finite _ (Nat.mod_lt _ hn)
  · rw [ec] at hi
    rw [ep, neg_side, invert_pt P hi, h.onPlane _ (Nat.mod_lt _ hn), neg_zero]
  · rw [ec] at hi ⊢
    rw [invert_lineD P hi, invert_pt P hi, invert_pt P (Nat.mod_lt _ hn)]
    have e := (h.line (P.count - 1 - i) (by omega)).reverse
    have e1 : (P.count - 1 - i + 1) % P.count = (P.count - i) % P.count := by congr 1; omega
    have e2 : (P.count - (i + 1) % P.count) % P.count = P.count - 1 - i := by
      by_cases hl : i + 1 = P.count
      · rw [hl, Nat.mod_self]; simp; omega
      · rw [Nat.mod_eq_of_lt (by omega : i + 1 < P.count), Nat.mod_eq_of_lt (by omega)]; omega
    rw [e1] at e
    rw [e2]; exact e
  · rw [ec] at h3
    rw [ep, invert_pt P (by omega), invert_pt P (by omega), invert_pt P (by omega), idx i (by omega), idx j (by omega), idx k (by omega),
      if_neg (by omega : ¬ j = 0), if_neg (by omega : ¬ k = 0)]
    show 0 ≤ turn P.plane.n.neg.q _ _ _
    rw [turn_neg]
    split
    · rw [← turn_rev]
      exact h.ccw _ _ _ (by omega) (by omega) (by omega)
    · rw [← turn_rot, ← turn_rot, ← turn_rev]
      have := h.ccw (P.count - k) (P.count - j) (P.count - i) (by omega) (by omega) (by omega)
      rw [← turn_rot, ← turn_rot] at this
      rw [← turn_rot]
      rw [← turn_rot] at this
      first | (rw [turn_rot] at this ⊢; exact this) | (rw [turn_rot]; exact this)
  · rw [ec] at h2
    rw [invert_pt P (by omega), invert_pt P (by omega), idx i (by omega), idx j (by omega), if_neg (by omega : ¬ j = 0)]
    split
    · exact h.distinct _ _ (by omega) (by omega)
    · exact fun e => h.distinct (P.count - j) (P.count - i) (by omega) (by omega) e.symm
  · obtain ⟨i, j, k, h1, h2, h3, h4⟩ := h.proper
    rw [ep, ec]
    by_cases h0 : i = 0
    · refine ⟨0, P.count - k, P.count - j, by omega, by omega, by omega, ?_⟩
      rw [invert_pt P (by omega), invert_pt P (by omega), invert_pt P (by omega), idx _ (by omega), idx _ (by omega), idx _ (by omega),
        if_pos rfl, if_neg (by omega), if_neg (by omega), show P.count - (P.count - k) = k by omega,
        show P.count - (P.count - j) = j by omega]
      show 0 < turn P.plane.n.neg.q _ _ _
      rw [turn_neg, ← turn_rev]
      subst h0; exact h4
    · refine ⟨P.count - k, P.count - j, P.count - i, by omega, by omega, by omega, ?_⟩
      rw [invert_pt P (by omega), invert_pt P (by omega), invert_pt P (by omega), idx _ (by omega), idx _ (by omega), idx _ (by omega),
        if_neg (by omega), if_neg (by omega), if_neg (by omega), show P.count - (P.count - k) = k by omega,
        show P.count - (P.count - j) = j by omega, show P.count - (P.count - i) = i by omega]
      show 0 < turn P.plane.n.neg.q _ _ _
      rw [turn_neg, ← turn_rev, turn_rot] 
      first | exact h4 | (rw [turn_rot]; exact h4)

theorem region_congr {P Q : Polygon D} (hc : Q.count = P.count) (f : Nat → Nat) (hf : ∀ i, i < P.count → f i < P.count)
    (hs : ∀ j, j < P.count → ∃ i, i < P.count ∧ f i = j) (hp : ∀ i, i < P.count → Q.pt i = P.pt (f i)) :
    Q.region = P.region := by
  unfold Polygon.region
  congr 1
  ext q
  constructor
  · rintro ⟨i, hi, rfl⟩
    rw [hc] at hi
    exact ⟨f i, hf i hi, hp i hi⟩
  · rintro ⟨j, hj, rfl⟩
    obtain ⟨i, hi, rfl⟩ := hs j hj
    exact ⟨i, hc ▸ hi, (hp i hi).symm⟩

theorem invert_region (P : Polygon D) : P.invert.region = P.region := by
  refine region_congr (invert_spec P).1 (fun i => (P.count - i) % P.count) (fun i hi => Nat.mod_lt _ (by omega)) (fun j hj => ?_)
    fun i hi => invert_pt P hi
  refine ⟨(P.count - j) % P.count, Nat.mod_lt _ (by omega), ?_⟩
  by_cases h0 : j = 0
  · subst h0; simp
  · rw [Nat.mod_eq_of_lt (by omega : P.count - j < P.count), show P.count - (P.count - j) = j by omega, Nat.mod_eq_of_lt hj]

theorem PL.neg_neg (l : PL) : l.neg.neg = l := by simp [PL.neg, V3.neg]

theorem HS3.neg_neg (l : HS3) : l.neg.neg = l := by simp [HS3.neg, V3.neg]

theorem edge_ext {x y : Edge D} (h1 : x.vertex = y.vertex) (h2 : x.line = y.line) (h3 : x.data = y.data) : x = y := by
  cases x; cases y; simp_all

theorem polygon_ext {P Q : Polygon D} (h1 : P.plane = Q.plane) (h2 : P.drop = Q.drop) (h3 : P.edges = Q.edges) : P = Q := by
  cases P; cases Q; simp_all

theorem invert_invert (P : Polygon D) : P.invert.invert = P := by
  by_cases hn : P.count = 0
  · have : P.invert = P := by unfold Polygon.invert; rw [if_pos hn]
    rw [this, this]
  obtain ⟨c1, d1, p1, g1⟩ := invert_spec P
  obtain ⟨c2, d2, p2, g2⟩ := invert_spec P.invert
  have hp : P.invert.invert.plane = P.plane := by
    rw [p2 (by rw [c1]; exact hn), p1 hn, HS3.neg_neg]
  have hd : P.invert.invert.drop = P.drop := d2.trans d1
  have he : P.invert.invert.edges = P.edges := by
    apply List.ext_getElem?
    intro k
    by_cases hk : k < P.count
    · obtain ⟨a1, a2, a3⟩ := g2 k (by rw [c1]; exact hk)
      rw [c1] at a1 a2
      have e1 : (P.count - (P.count - k) % P.count) % P.count = k := by
        by_cases h0 : k = 0
        · subst h0; simp
        · rw [Nat.mod_eq_of_lt (by omega : P.count - k < P.count), show P.count - (P.count - k) = k by omega, Nat.mod_eq_of_lt hk]
      rw [(g1 _ (Nat.mod_lt _ (by omega))).1, e1] at a1
      rw [(g1 k hk).2.2] at a3
      have b := (g1 (P.count - 1 - k) (by omega)).2.1
      rw [show P.count - 1 - (P.count - 1 - k) = k by omega] at b
      have a2' : (P.invert.invert.edges[k]?).map (·.line) = (P.edges[k]?).map (·.line) := by
        rw [a2]
        have : (P.invert.edges[P.count - 1 - k]?).map (·.line.neg) = ((P.invert.edges[P.count - 1 - k]?).map (·.line)).map PL.neg := by
          rw [Option.map_map]; rfl
        rw [this, b, Option.map_map]
        congr 1
        funext e
        exact PL.neg_neg _
      have h1 : k < P.edges.length := hk
      have h2 : k < P.invert.invert.edges.length := by
        have : P.invert.invert.edges.length = P.count := c2.trans c1
        omega
      rw [List.getElem?_eq_getElem h1, List.getElem?_eq_getElem h2] at *
      simp only [Option.map_some, Option.some.injEq] at a1 a2' a3 ⊢
      exact edge_ext a1 a2' a3
    · have h2 : P.invert.invert.edges.length = P.count := c2.trans c1
      rw [List.getElem?_eq_none (by omega), List.getElem?_eq_none (by unfold Polygon.count at hk; omega)]
  exact polygon_ext hp hd he

/-! ### Rotation -/

theorem rotate_get (P : Polygon D) {k i : Nat} (hk : k < P.count) (hi : i < P.count) :
    (P.rotateEdges k).edges[i]? = P.edges[(i + k) % P.count]? := by
  have hl : P.edges.length = P.count := rfl
  unfold Polygon.rotateEdges
  dsimp only
  by_cases h : i < P.count - k
  · rw [List.getElem?_append_left (by rw [List.length_drop]; omega), List.getElem?_drop, Nat.mod_eq_of_lt (by omega), Nat.add_comm]
  · rw [List.getElem?_append_right (by rw [List.length_drop]; omega), List.length_drop, List.getElem?_take, if_pos (by omega)]
    congr 1
    rw [Nat.mod_eq_sub_mod (by omega), Nat.mod_eq_of_lt (by omega)]
    omega

theorem rotate_count (P : Polygon D) {k : Nat} (hk : k < P.count) : (P.rotateEdges k).count = P.count := by
  unfold Polygon.count Polygon.rotateEdges at *
  simp; omega

theorem rotate_vertexD (P : Polygon D) {k i : Nat} (hk : k < P.count) (hi : i < P.count) :
    (P.rotateEdges k).vertexD i = P.vertexD ((i + k) % P.count) := by
  unfold Polygon.vertexD; rw [rotate_get P hk hi]

theorem rotate_lineD (P : Polygon D) {k i : Nat} (hk : k < P.count) (hi : i < P.count) :
    (P.rotateEdges k).lineD i = P.lineD ((i + k) % P.count) := by
  unfold Polygon.lineD; rw [rotate_get P hk hi]

theorem rotate_pt (P : Polygon D) {k i : Nat} (hk : k < P.count) (hi : i < P.count) :
    (P.rotateEdges k).pt i = P.pt ((i + k) % P.count) := by
  unfold Polygon.pt; rw [rotate_vertexD P hk hi]

theorem rot_mod {n k i : Nat} (hk : k < n) (hi : i < n) : (i + k) % n = if i + k < n then i + k else i + k - n := by
  split
  · rw [Nat.mod_eq_of_lt (by assumption)]
  · rw [Nat.mod_eq_sub_mod (by omega), Nat.mod_eq_of_lt (by omega)]

theorem IsConvexPolygon.rotate {P : Polygon D} (h : IsConvexPolygon P) {k : Nat} (hk : k < P.count) :
    IsConvexPolygon (P.rotateEdges k) := by
  have ec := rotate_count P hk
  have hn := h.count_pos
  have hm : ∀ i, (i + k) % P.count < P.count := fun i => Nat.mod_lt _ hn
  refine ⟨h.drop, fun i hi => ?_, fun i hi => ?_, fun i hi => ?_, fun a b c h1 h2 h3 => ?_, fun i j h1 h2 => ?_, ?_⟩
  · rw [ec] at hi
    rw [rotate_vertexD P hk hi]; exact h.finite _ (hm i)
  · rw [ec] at hi
    rw [rotate_pt P hk hi]; exact h.onPlane _ (hm i)
  · rw [ec] at hi ⊢
    rw [rotate_lineD P hk hi, rotate_pt P hk hi, rotate_pt P hk (Nat.mod_lt _ hn)]
    have := h.line _ (hm i)
    rw [show ((i + k) % P.count + 1) % P.count = ((i + 1) % P.count + k) % P.count by
      rw [Nat.mod_add_mod, Nat.mod_add_mod, Nat.add_right_comm]] at this
    exact this
  · rw [ec] at h3
    rw [rotate_pt P hk (by omega), rotate_pt P hk (by omega), rotate_pt P hk (by omega), rot_mod hk (by omega), rot_mod hk (by omega),
      rot_mod hk (by omega)]
    show 0 ≤ turn P.plane.n.q _ _ _
    split_ifs
    · exact h.ccw _ _ _ (by omega) (by omega) (by omega)
    · rw [← turn_rot, ← turn_rot]; exact h.ccw _ _ _ (by omega) (by omega) (by omega)
    · omega
    · rw [← turn_rot]; exact h.ccw _ _ _ (by omega) (by omega) (by omega)
    · omega
    · omega
    · omega
    · exact h.ccw _ _ _ (by omega) (by omega) (by omega)
  · rw [ec] at h2
    rw [rotate_pt P hk (by omega), rotate_pt P hk (by omega), rot_mod hk (by omega), rot_mod hk (by omega)]
    split_ifs
    · exact h.distinct _ _ (by omega) (by omega)
    · exact fun e => h.distinct _ _ (by omega) (by omega) e.symm
    · omega
    · exact h.distinct _ _ (by omega) (by omega)
  · obtain ⟨a, b, c, h1, h2, h3, h4⟩ := h.proper
    have pre : ∀ i, i < P.count → (P.rotateEdges k).pt (if k ≤ i then i - k else i + P.count - k) = P.pt i := by
      intro i hi
      rw [rotate_pt P hk (by split <;> omega), rot_mod hk (by split <;> omega)]
      congr 1
      split_ifs <;> omega
    rw [ec, ← pre a (by omega), ← pre b (by omega), ← pre c (by omega)] at *
    by_cases ka : k ≤ a
    · exact ⟨_, _, _, by split_ifs <;> omega, by split_ifs <;> omega, by split_ifs <;> omega, h4⟩
    · by_cases kb : k ≤ b
      · rw [← turn_rot] at h4
        exact ⟨_, _, _, by split_ifs <;> omega, by split_ifs <;> omega, by split_ifs <;> omega, h4⟩
      · by_cases kc : k ≤ c
        · rw [← turn_rot, ← turn_rot] at h4
          exact ⟨_, _, _, by split_ifs <;> omega, by split_ifs <;> omega, by split_ifs <;> omega, h4⟩
        · exact ⟨_, _, _, by split_ifs <;> omega, by split_ifs <;> omega, by split_ifs <;> omega, h4⟩

theorem rotate_region (P : Polygon D) {k : Nat} (hk : k < P.count) : (P.rotateEdges k).region = P.region := by
  refine region_congr (rotate_count P hk) (fun i => (i + k) % P.count) (fun i hi => Nat.mod_lt _ (by omega)) (fun j hj => ?_)
    fun i hi => rotate_pt P hk hi
  refine ⟨if k ≤ j then j - k else j + P.count - k, by split <;> omega, ?_⟩
  rw [rot_mod hk (by split <;> omega)]
  split_ifs <;> omega

/-! ### Equality -/

theorem matchOffset_spec (P Q : Polygon D) : ∀ (m k : Nat),
    (∃ r, matchOffset P Q k m = some r ∧ k ≤ r ∧ r < k + m ∧ sameVertex P Q 0 r = true ∧ ∀ j, k ≤ j → j < r → sameVertex P Q 0 j = false) ∨
    (matchOffset P Q k m = none ∧ ∀ j, k ≤ j → j < k + m → sameVertex P Q 0 j = false) := by
  intro m
  induction m with
  | zero => intro k; exact Or.inr ⟨rfl, fun j h1 h2 => by omega⟩
  | succ m ih =>
    intro k
    unfold matchOffset
    by_cases h : sameVertex P Q 0 k = true
    · rw [if_pos h]
      exact Or.inl ⟨k, rfl, le_rfl, by omega, h, fun j h1 h2 => by omega⟩
    · rw [if_neg h]
      have hk : sameVertex P Q 0 k = false := by simpa using h
      rcases ih (k + 1) with ⟨r, e, h1, h2, h3, h4⟩ | ⟨e, h4⟩
      · refine Or.inl ⟨r, e, by omega, by omega, h3, fun j a b => ?_⟩
        rcases Nat.eq_or_lt_of_le a with rfl | a
        · exact hk
        · exact h4 j a b
      · refine Or.inr ⟨e, fun j a b => ?_⟩
        rcases Nat.eq_or_lt_of_le a with rfl | a
        · exact hk
        · exact h4 j a (by omega)

theorem matchRest_spec (deq : D → D → Bool) (P Q : Polygon D) (hc : P.count = Q.count) (hn : 0 < P.count) : ∀ (m i j : Nat), i + m ≤ P.count →
    ∃ r, matchRest deq P Q i j m = some r ∧ (r = true ↔ ∀ t, t < m → sameVertex P Q (i + t) ((j + t) % P.count) = true ∧
      ∃ a b, dataAt P (i + t) = some a ∧ dataAt Q ((j + t) % P.count) = some b ∧ deq a b = true) := by
  intro m
  induction m with
  | zero => intro i j _; exact ⟨true, rfl, by simp⟩
  | succ m ih =>
    intro i j hm
    unfold matchRest
    by_cases h : sameVertex P Q i (j % P.count) = true
    · have hd1 : ∃ a, dataAt P i = some a := by
        unfold dataAt
        rw [List.getElem?_eq_getElem (show i < P.edges.length from by unfold Polygon.count at *; omega)]
        exact ⟨_, rfl⟩
      have hd2 : ∃ a, dataAt Q (j % P.count) = some a := by
        unfold dataAt
        have : j % P.count < Q.edges.length := by rw [show Q.edges.length = P.count from hc.symm]; exact Nat.mod_lt _ hn
        rw [List.getElem?_eq_getElem this]
        exact ⟨_, rfl⟩
      obtain ⟨a, ea⟩ := hd1
      obtain ⟨b, eb⟩ := hd2
      rw [h, ea, eb]
      simp only [Bool.not_true, Bool.false_eq_true, if_false]
      by_cases hab : deq a b = true
      · rw [if_pos hab]
        obtain ⟨r, e, hr⟩ := ih (i + 1) (j + 1) (by omega)
        refine ⟨r, e, hr.trans ⟨fun H t ht => ?_, fun H t ht => ?_⟩⟩
        · rcases t with _ | t
          · exact ⟨h, a, b, ea, eb, hab⟩
          · have := H t (by omega)
            rwa [show i + 1 + t = i + (t + 1) by omega, show j + 1 + t = j + (t + 1) by omega] at this
        · have := H (t + 1) (by omega)
          rwa [show i + 1 + t = i + (t + 1) by omega, show j + 1 + t = j + (t + 1) by omega]
      · rw [if_neg hab]
        refine ⟨false, rfl, by simp, fun H => ?_⟩
        obtain ⟨_, a', b', ea', eb', h'⟩ := H 0 (by omega)
        simp only [Nat.add_zero] at ea' eb'
        rw [ea] at ea'; rw [eb] at eb'
        cases ea'; cases eb'
        exact absurd h' hab
    · have hk : sameVertex P Q i (j % P.count) = false := by simpa using h
      rw [hk]
      refine ⟨false, rfl, by simp, fun H => ?_⟩
      have := (H 0 (by omega)).1
      simp only [Nat.add_zero] at this
      exact absurd this h

end Walnut.Poly
