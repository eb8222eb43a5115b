/-
Property C58: equality, inversion and rotation of convex polygons.
-/
import Verif.Poly.EqualProof
import Verif.Props.Planes
import Verif.Props.Rational
import Verif.Props.Split

namespace Walnut.Props
open Walnut.Geom Walnut.Poly

variable {D : Type}

theorem sameVertex_iff {P Q : Polygon D} (hP : IsConvexPolygon P) (hQ : IsConvexPolygon Q)
    (hpl : ∀ q, P.plane.side q = 0 ↔ Q.plane.side q = 0) {i j : Nat} (hi : i < P.count) (hj : j < Q.count) :
    sameVertex P Q i j = true ↔ P.pt i = Q.pt j := by
  unfold sameVertex
  rw [C20_eq2 _ _ (hP.finite i hi) (hQ.finite j hj), pt_drop, pt_drop]
  constructor
  · intro h
    have h0 := congrFun h 0
    have h1 := congrFun h 1
    simp only [Matrix.cons_val_zero, Matrix.cons_val_one] at h0 h1
    refine plane_ext P.plane hP.drop (hP.onPlane i hi) ((hpl _).2 (hQ.onPlane j hj)) ?_ ?_
    · exact h0
    · unfold py
      rw [show P.pt i (P.drop + 2) = Q.pt j (P.drop + 2) from h1]
  · intro h
    show ![P.pt i (P.drop + 1), P.pt i (P.drop + 2)] = _
    rw [h]; rfl

/-- The half-spaces above the two polygons are the same. -/
def SameHalfSpace (P Q : Polygon D) : Prop := ∀ q, 0 < P.plane.side q ↔ 0 < Q.plane.side q

/-- Vertex `i` of `P` is vertex `i + k` of `Q`, cyclically. -/
def SameCycle (P Q : Polygon D) (k : Nat) : Prop :=
  P.count = Q.count ∧ k < P.count ∧ ∀ i, i < P.count → P.pt i = Q.pt ((i + k) % P.count)

/-- The edge data of vertex `i` of `P` equals (`deq`) that of vertex `i + k` of `Q`. -/
def SameData (deq : D → D → Bool) (P Q : Polygon D) (k i : Nat) : Prop :=
  ∃ a b, dataAt P i = some a ∧ dataAt Q ((i + k) % P.count) = some b ∧ deq a b = true

theorem normal_ne {P : Polygon D} (h : IsConvexPolygon P) : P.plane.n ≠ ⟨0, 0, 0⟩ := by
  intro e
  apply h.drop
  rw [e]
  rcases fin3 P.drop with h | h | h <;> rw [h] <;> rfl

/-- C58: `==` holds exactly when the polygons face the same way in the same plane, their
vertex cycles are equal up to a rotation `k`, and the edge data agrees for all vertices
but the first.  Missing: the documentation promises to compare the data of every edge
(see `C58_first_edge_data_false`). -/
theorem C58_eq_partial (deq : D → D → Bool) (P Q : Polygon D) (hP : IsConvexPolygon P) (hQ : IsConvexPolygon Q)
    (mP : NoMinPlane P.plane) (mQ : NoMinPlane Q.plane) :
    ∃ r, P.eq deq Q = some r ∧ (r = true ↔ SameHalfSpace P Q ∧ ∃ k, SameCycle P Q k ∧
      ∀ i, 0 < i → i < P.count → SameData deq P Q k i) := by
  obtain ⟨s, es, hs⟩ := C24_eq_partial P.plane Q.plane (normal_ne hP) (normal_ne hQ) mP mQ
  have hn := hP.count_pos
  unfold Polygon.eq
  rw [es]
  cases s with
  | false => exact ⟨false, rfl, by simp, fun h => absurd (hs.2 h.1) (by simp)⟩
  | true =>
    have hh : SameHalfSpace P Q := hs.1 rfl
    have hpl : ∀ q, P.plane.side q = 0 ↔ Q.plane.side q = 0 := by
      obtain ⟨k, l, hk, hl, hp⟩ := (half_iff (normal_ne hP) (normal_ne hQ)).2 hh
      exact (plane_iff (normal_ne hP) (normal_ne hQ)).1 ⟨k, l, hk.ne', hl.ne', hp⟩
    simp only
    by_cases hc : P.count = Q.count
    · rw [if_neg (by simpa using hc)]
      have sv : ∀ {i j}, i < P.count → j < P.count → (sameVertex P Q i j = true ↔ P.pt i = Q.pt j) :=
        fun hi hj => sameVertex_iff hP hQ hpl hi (hc ▸ hj)
      rcases matchOffset_spec P Q P.count 0 with ⟨k, e, _, hk, h0, _⟩ | ⟨e, hno⟩
      · rw [e]
        simp only
        have hk : k < P.count := by omega
        obtain ⟨r, er, hr⟩ := matchRest_spec deq P Q hc hn (P.count - 1) 1 (k + 1) (by omega)
        refine ⟨r, er, hr.trans ⟨fun H => ⟨hh, k, ⟨hc, hk, fun i hi => ?_⟩, fun i h1 h2 => ?_⟩, ?_⟩⟩
        · by_cases hi0 : i = 0
          · subst hi0
            rw [Nat.zero_add, Nat.mod_eq_of_lt hk]
            exact (sv hn hk).1 h0
          · have := (H (i - 1) (by omega)).1
            rw [show 1 + (i - 1) = i by omega, show k + 1 + (i - 1) = i + k by omega] at this
            exact (sv hi (Nat.mod_lt _ hn)).1 this
        · have := (H (i - 1) (by omega)).2
          rwa [show 1 + (i - 1) = i by omega, show k + 1 + (i - 1) = i + k by omega] at this
        · rintro ⟨_, k', ⟨_, hk', hcy⟩, hd⟩ t ht
          have ek : k = k' := by
            have a1 := (sv hn hk).1 h0
            have a2 := hcy 0 hn
            rw [Nat.zero_add, Nat.mod_eq_of_lt hk'] at a2
            rw [a1] at a2
            by_contra hne
            rcases Nat.lt_or_gt_of_ne hne with h | h
            · exact hQ.distinct k k' h (hc ▸ hk') a2
            · exact hQ.distinct k' k h (hc ▸ hk) a2.symm
          subst ek
          have h1 := hcy (1 + t) (by omega)
          have h2 := hd (1 + t) (by omega) (by omega)
          unfold SameData at h2
          rw [show 1 + t + k = k + 1 + t by omega] at h1 h2
          exact ⟨(sv (by omega) (Nat.mod_lt _ hn)).2 h1, h2⟩
      · rw [e]
        refine ⟨false, rfl, by simp, ?_⟩
        rintro ⟨_, k', ⟨_, hk', hcy⟩, _⟩
        have a2 := hcy 0 hn
        rw [Nat.zero_add, Nat.mod_eq_of_lt hk'] at a2
        have := hno k' (by omega) (by omega)
        rw [(sv hn hk').2 a2] at this
        simp at this
    · rw [if_pos (by simpa using hc)]
      refine ⟨false, rfl, by simp, ?_⟩
      rintro ⟨_, k', ⟨h, _, _⟩, _⟩
      exact absurd h hc

/-- C58: a polygon equals every rotation of itself. -/
theorem C58_rotation (deq : D → D → Bool) (hd : ∀ a, deq a a = true) (P : Polygon D) (hP : IsConvexPolygon P)
    (mP : NoMinPlane P.plane) {k : Nat} (hk : k < P.count) :
    P.eq deq (P.rotateEdges k) = some true ∧ (P.rotateEdges k).eq deq P = some true := by
  have hR := hP.rotate hk
  have hc := rotate_count P hk
  have hn := hP.count_pos
  have get : ∀ {i}, i < P.count → ∃ a, dataAt P i = some a := by
    intro i hi
    unfold dataAt
    rw [List.getElem?_eq_getElem (show i < P.edges.length from hi)]; exact ⟨_, rfl⟩
  have key : ∀ i, i < P.count → (i + (P.count - k) % P.count + k) % P.count = i := by
    intro i hi
    by_cases h0 : k = 0
    · subst h0; simp [Nat.mod_eq_of_lt hi]
    · rw [Nat.mod_eq_of_lt (by omega : P.count - k < P.count), show i + (P.count - k) + k = i + P.count by omega,
        Nat.add_mod_right, Nat.mod_eq_of_lt hi]
  have key' : ∀ i, ((i + (P.count - k) % P.count) % P.count + k) % P.count = (i + (P.count - k) % P.count + k) % P.count :=
    fun i => Nat.mod_add_mod _ _ _
  constructor
  · obtain ⟨r, e, hr⟩ := C58_eq_partial deq P (P.rotateEdges k) hP hR mP mP
    rw [e]
    congr 1
    refine hr.2 ⟨fun q => Iff.rfl, (P.count - k) % P.count, ⟨hc.symm, Nat.mod_lt _ hn, fun i hi => ?_⟩, fun i _ hi => ?_⟩
    · rw [rotate_pt P hk (Nat.mod_lt _ hn), key', key i hi]
    · obtain ⟨a, ea⟩ := get hi
      refine ⟨a, a, ea, ?_, hd a⟩
      unfold dataAt
      rw [rotate_get P hk (Nat.mod_lt _ hn), key', key i hi]
      exact ea
  · obtain ⟨r, e, hr⟩ := C58_eq_partial deq (P.rotateEdges k) P hR hP mP mP
    rw [e]
    congr 1
    refine hr.2 ⟨fun q => Iff.rfl, k, ⟨hc, by omega, fun i hi => ?_⟩, fun i _ hi => ?_⟩
    · rw [hc] at hi ⊢
      exact rotate_pt P hk hi
    · rw [hc] at hi
      obtain ⟨a, ea⟩ := get (i := (i + k) % P.count) (Nat.mod_lt _ hn)
      refine ⟨a, a, ?_, ?_, hd a⟩
      · unfold dataAt
        rw [rotate_get P hk hi]
        exact ea
      · rw [hc]; exact ea

/-- C58: rotating and sorting the vertices give a convex polygon with the same plane, covering
the same points. -/
theorem C58_rotate_shape (P : Polygon D) (hP : IsConvexPolygon P) {k : Nat} (hk : k < P.count) :
    IsConvexPolygon (P.rotateEdges k) ∧ (P.rotateEdges k).plane = P.plane ∧ (P.rotateEdges k).region = P.region ∧
    (∀ i, i < P.count → (P.rotateEdges k).pt i = P.pt ((i + k) % P.count)) :=
  ⟨hP.rotate hk, rfl, rotate_region P hk, fun _ hi => rotate_pt P hk hi⟩

theorem minimumIndex_spec (P : Polygon D) (hP : IsConvexPolygon P) :
    P.minimumIndex < P.count ∧ ∀ i, i < P.count → ¬ LexLt (P.pt i) (P.pt P.minimumIndex) := by
  have hn := hP.count_pos
  have trans : ∀ a b c : Q3, LexLt a b → ¬ LexLt c b → ¬ LexLt c a := by
    intro a b c
    simp only [LexLt]
    intro h1 h2 h3
    apply h2
    rcases h1 with h1 | ⟨h1, h1' | ⟨h1', h1''⟩⟩ <;> rcases h3 with h3 | ⟨h3, h3' | ⟨h3', h3''⟩⟩
    · exact Or.inl (by linarith)
    · exact Or.inl (by linarith)
    · exact Or.inl (by linarith)
    · exact Or.inl (by linarith)
    · exact Or.inr ⟨by linarith, Or.inl (by linarith)⟩
    · exact Or.inr ⟨by linarith, Or.inl (by linarith)⟩
    · exact Or.inl (by linarith)
    · exact Or.inr ⟨by linarith, Or.inl (by linarith)⟩
    · exact Or.inr ⟨by linarith, Or.inr ⟨by linarith, by linarith⟩⟩
  have irr : ∀ a : Q3, ¬ LexLt a a := by intro a; simp [LexLt]
  have key : ∀ (m s min : Nat), min < s → s + m ≤ P.count → (∀ i, i < s → ¬ LexLt (P.pt i) (P.pt min)) →
      let r := (List.range' s m).foldl (fun min i => if (P.vertexD i).lexicographicallyLt (P.vertexD min) then i else min) min
      r < s + m ∧ ∀ i, i < s + m → ¬ LexLt (P.pt i) (P.pt r) := by
    intro m
    induction m with
    | zero => intro s min h1 _ h2; exact ⟨h1, h2⟩
    | succ m ih =>
      intro s min h1 h3 h2
      rw [List.range'_succ, List.foldl_cons]
      have hl := C21_lexicographically_lt (P.vertexD s) (P.vertexD min) (hP.finite s (by omega)) (hP.finite min (by omega))
      rw [show s + (m + 1) = s + 1 + m by omega]
      apply ih (s + 1) _ (by split <;> omega) (by omega)
      intro i hi
      by_cases h : (P.vertexD s).lexicographicallyLt (P.vertexD min) = true
      · rw [if_pos h]
        have hlt : LexLt (P.pt s) (P.pt min) := hl.1 h
        by_cases e : i = s
        · rw [e]; exact irr _
        · exact trans _ _ _ hlt (h2 i (by omega))
      · rw [if_neg h]
        by_cases e : i = s
        · rw [e]; exact fun h' => h (hl.2 h')
        · exact h2 i (by omega)
  have := key (P.count - 1) 1 0 (by omega) (by omega) (fun i hi => by rw [show i = 0 by omega]; exact irr _)
  rw [show 1 + (P.count - 1) = P.count by omega] at this
  exact this

/-- C58: `SortVertices` moves the lexicographically smallest vertex to the front and
otherwise only rotates. -/
theorem C58_sort (P : Polygon D) (hP : IsConvexPolygon P) :
    (∃ k, k < P.count ∧ P.sortVertices = P.rotateEdges k) ∧
    ∀ i, 0 < i → i < P.count → LexLt (P.sortVertices.pt 0) (P.sortVertices.pt i) := by
  obtain ⟨hk, hmin⟩ := minimumIndex_spec P hP
  refine ⟨⟨_, hk, rfl⟩, fun i h0 hi => ?_⟩
  unfold Polygon.sortVertices
  have hne := (hP.rotate hk).distinct 0 i h0 (by rw [rotate_count P hk]; exact hi)
  rw [rotate_pt P hk hi, rotate_pt P hk (by omega), Nat.zero_add, Nat.mod_eq_of_lt hk] at *
  have := hmin ((i + P.minimumIndex) % P.count) (Nat.mod_lt _ (by omega))
  generalize P.pt ((i + P.minimumIndex) % P.count) = a at *
  generalize P.pt P.minimumIndex = b at *
  simp only [LexLt] at *
  push Not at this
  obtain ⟨h1, h2⟩ := this
  rcases lt_or_eq_of_le h1 with h | h
  · exact Or.inl h
  · refine Or.inr ⟨h, ?_⟩
    obtain ⟨h3, h4⟩ := h2 h.symm
    rcases lt_or_eq_of_le h3 with h' | h'
    · exact Or.inl h'
    · refine Or.inr ⟨h', ?_⟩
      rcases lt_or_eq_of_le (h4 h'.symm) with h'' | h''
      · exact h''
      · exact absurd (q3_ext h h' h'') hne

/-- C58: `Invert` twice restores the polygon exactly, for every polygon. -/
theorem C58_invert_invert (P : Polygon D) : P.invert.invert = P := invert_invert P

/-- C58: `Invert` reverses the vertex cycle (keeping the first vertex), flips the half-space,
keeps the polygon convex and covers the same points. -/
theorem C58_invert (P : Polygon D) (hP : IsConvexPolygon P) :
    IsConvexPolygon P.invert ∧ P.invert.count = P.count ∧ P.invert.region = P.region ∧
    (∀ q, P.invert.plane.side q = -P.plane.side q) ∧
    (∀ i, i < P.count → P.invert.pt i = P.pt ((P.count - i) % P.count)) ∧
    (∀ i, i < P.count → dataAt P.invert i = dataAt P i) := by
  obtain ⟨c, d, p, g⟩ := invert_spec P
  refine ⟨hP.invert, c, invert_region P, fun q => ?_, fun i hi => invert_pt P hi, fun i hi => (g i hi).2.2⟩
  rw [p hP.count_pos.ne', neg_side]

/-! ### Where the code disagrees with its documentation -/

/-- The square with numbers on its edges. -/
def square4 (a b c d : Nat) : Polygon Nat where
  plane := square.plane
  drop := square.drop
  edges := square.edges.zipWith (fun e n => ⟨e.vertex, e.line, n⟩) [a, b, c, d]

/-- C58 (disagreement): the data of the edge after vertex 0 is never compared, so two
polygons with different data compare equal, although a rotated copy compares unequal. -/
theorem C58_first_edge_data_false :
    (square4 1 2 3 4).eq (fun a b => decide (a = b)) (square4 9 2 3 4) = some true ∧
    (square4 1 2 3 4).eq (fun a b => decide (a = b)) ((square4 9 2 3 4).rotateEdges 1) = some true ∧
    ((square4 1 2 3 4).rotateEdges 1).eq (fun a b => decide (a = b)) (square4 9 2 3 4) = some false := by
  decide +kernel

/-- C58 (disagreement): an empty polygon is not equal to itself. -/
theorem C58_empty_false (P : Polygon D) (h : P.edges = []) (deq : D → D → Bool) : P.eq deq P ≠ some true := by
  have hc : P.count = 0 := by simp [Polygon.count, h]
  unfold Polygon.eq
  split
  · simp
  · simp
  · simp [hc, matchOffset]

/-! ### The hypotheses are met -/

theorem square_noMin : NoMinPlane square.plane := by norm_num [NoMinPlane, NoMin3, square]

example : IsConvexPolygon square ∧ NoMinPlane square.plane ∧ 3 < square.count := ⟨square_convex, square_noMin, by decide⟩
example : square.eq (fun _ _ => true) (square.rotateEdges 3) = some true :=
  (C58_rotation _ (fun _ => rfl) square square_convex square_noMin (by decide)).1
example : square.eq (fun _ _ => true) square.invert = some false := by decide +kernel
example : square.invert.pt 1 = ![0, 2, 0] := by
  rw [(C58_invert square square_convex).2.2.2.2.1 1 (by decide)]; exact square_pt.2.2.2
example : (square.rotateEdges 2).sortVertices.pt 0 = ![0, 0, 0] := by
  have : (square.rotateEdges 2).sortVertices.vertexD 0 = square.vertexD 0 := by decide +kernel
  unfold Polygon.pt; rw [this]; exact square_pt.1
example : ∃ P : Polygon Nat, P.edges = [] := ⟨⟨⟨⟨0, 0, 0⟩, 0⟩, 0, []⟩, rfl⟩

end Walnut.Props
