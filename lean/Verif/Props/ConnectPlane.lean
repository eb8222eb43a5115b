/-
C53: connecting the half-edges of a plane.
-/
import Verif.Conn.PlaneSort

namespace Walnut.Props
open Walnut.Geom Walnut.Conn

/-! ## Example

A tetrahedron and the six half-edges in its lowest plane. -/

def tetPoints : List HP3 := [⟨⟨0, 0, 0⟩, 1⟩, ⟨⟨0, 2, 0⟩, 1⟩, ⟨⟨2, 0, 0⟩, 1⟩, ⟨⟨0, 0, 0⟩, 1⟩, ⟨⟨2, 0, 0⟩, 1⟩, ⟨⟨0, 0, 2⟩, 1⟩,
  ⟨⟨0, 0, 0⟩, 1⟩, ⟨⟨0, 0, 2⟩, 1⟩, ⟨⟨0, 2, 0⟩, 1⟩, ⟨⟨2, 0, 0⟩, 1⟩, ⟨⟨0, 2, 0⟩, 1⟩, ⟨⟨0, 0, 2⟩, 1⟩]

def tetPoint (i : Nat) : HP3 := tetPoints.getD i ⟨⟨0, 0, 0⟩, 1⟩

def tetNet : Net where
  count := 12
  vertex := tetPoint
  poly i := i / 3
  line i := PL.ofHomoPoints (tetPoint i) (tetPoint (i / 3 * 3 + (i + 1) % 3))
  partner _ := none
  cycle p := if p < 4 then [3 * p, 3 * p + 1, 3 * p + 2] else []
  normal p := [⟨0, 0, -1⟩, ⟨0, -1, 0⟩, ⟨-1, 0, 0⟩].getD p ⟨1, 1, 1⟩

def tetRange : List (Option Nat) := [some 3, none, some 0, some 9, some 2, some 8, some 1]

def tetPair (e : Nat) : List Nat := if e = 0 ∨ e = 8 then [8, 0] else if e = 1 ∨ e = 9 then [9, 1] else [2, 3]

def tetOrd (e : Nat) (t : ℚ) : List Nat := if 0 ≤ t ∧ t < 2 then tetPair e else []

theorem tetNet_ok : tetNet.Ok := by
  refine ⟨by decide +kernel, ?_, ?_, by decide +kernel, ?_, ?_⟩
  · intro p e he
    change e ∈ (if p < 4 then [3 * p, 3 * p + 1, 3 * p + 2] else []) at he
    change e < 12 ∧ e / 3 = p
    split at he
    · simp only [List.mem_cons, List.not_mem_nil, or_false] at he
      omega
    · cases he
  · intro p
    change (if p < 4 then [3 * p, 3 * p + 1, 3 * p + 2] else []).Nodup
    split
    · simp
    · exact List.nodup_nil
  · intro e f h; cases h
  · intro e f h; cases h

theorem tetRange_mem {e : Nat} (h : some e ∈ tetRange) : e ∈ [3, 0, 9, 2, 8, 1] := by
  simpa [tetRange] using h

theorem tetNet_edge : ∀ e, some e ∈ tetRange → EdgeIn tetNet ⟨0, 0, 1⟩ 0 e := by
  intro e he
  have hm := tetRange_mem he
  clear he
  refine ⟨?_, ?_, ?_, ?_, ⟨1, by decide, ?_⟩, ?_, ?_⟩
  · revert e; decide +kernel
  · revert e; decide +kernel
  · revert e; decide +kernel
  · refine (isCoincident_iff _ _ ?_).1 ?_ <;> revert e <;> decide +kernel
  · revert e; decide +kernel
  · revert e; decide +kernel
  · revert e; decide +kernel

theorem tetNet_input : PlaneInput 2 tetNet tetRange :=
  ⟨tetNet_ok, by decide +kernel, fun _ _ => rfl, ⟨0, 0, 1⟩, 0, by decide, tetNet_edge⟩

theorem closed_pair {N : Net} {k : Fin 3} {a b : Nat} (hab : a ≠ b) (ha : N.lo k a = 0 ∧ N.hi k a = 2) (hb : N.lo k b = 0 ∧ N.hi k b = 2)
    (hk : keyLess (keyOf N k a) (keyOf N k b) = some true ∧ keyLess (keyOf N k b) (keyOf N k a) = some false)
    (hp : N.isPositive k a ≠ N.isPositive k b) : Closed k [a, b] N (fun t => if 0 ≤ t ∧ t < 2 then [a, b] else []) := by
  have mem : ∀ e, e ∈ [a, b] → N.lo k e = 0 ∧ N.hi k e = 2 := by
    intro e he
    simp only [List.mem_cons, List.not_mem_nil, or_false] at he
    rcases he with rfl | rfl
    · exact ha
    · exact hb
  refine ⟨?_, ?_, ?_⟩
  · intro t e
    constructor
    · intro h
      split at h
      · rw [(mem e h).1, (mem e h).2]; exact ⟨h, by assumption⟩
      · cases h
    · rintro ⟨h1, h2⟩
      rw [(mem e h1).1, (mem e h1).2] at h2
      rw [if_pos h2]; exact h1
  · intro t
    split
    · simpa using hk
    · exact List.Pairwise.nil
  · intro t e f h
    split at h
    · have hm := succIn_mem h
      simp only [List.mem_cons, List.not_mem_nil, or_false] at hm
      rcases hm.1 with rfl | rfl
      · simp [succIn] at h
        rcases hm.2 with rfl | rfl
        · exact absurd h.symm hab
        · exact hp
      · rcases hm.2 with rfl | rfl
        · exact hp.symm
        · simp [succIn, List.idxOf_cons, beq_eq_false_iff_ne.2 hab] at h
          exact absurd h hab
    · simp [succIn] at h

/-- The surface of the tetrahedron is closed along the three lines in its lowest plane. -/
theorem tetNet_closed : ∀ e, some e ∈ tetRange → (∀ f, f ∈ tetPair e ↔ some f ∈ tetRange ∧ SameLine3 tetNet e f) ∧
    Closed (sortedDim tetNet 2 e) (tetPair e) tetNet (tetOrd e) := by
  intro e he
  have hm := tetRange_mem he
  have key : ∀ e ∈ [3, 0, 9, 2, 8, 1], ∀ f ∈ [3, 0, 9, 2, 8, 1],
      (f ∈ tetPair e ↔ ((tetNet.line f).project2D 2).hasSameLine ((tetNet.line e).project2D 2) = true) := by decide +kernel
  have sub : ∀ e ∈ [3, 0, 9, 2, 8, 1], ∀ f ∈ tetPair e, some f ∈ tetRange := by decide +kernel
  refine ⟨?_, ?_⟩
  · intro f
    constructor
    · intro hf
      have hf' := sub e hm f hf
      refine ⟨hf', ?_⟩
      have h2 : (⟨0, 0, 1⟩ : V3).comp 2 ≠ 0 := by decide
      exact (lineEq_iff (tetNet_edge e he) (tetNet_edge f hf') h2).1 ((hasSameLine_iff (tetNet_edge e he) (tetNet_edge f hf') h2).1
        ((key e hm f (tetRange_mem hf')).1 hf))
    · rintro ⟨hf', hl⟩
      have h2 : (⟨0, 0, 1⟩ : V3).comp 2 ≠ 0 := by decide
      exact (key e hm f (tetRange_mem hf')).2 ((hasSameLine_iff (tetNet_edge e he) (tetNet_edge f hf') h2).2
        ((lineEq_iff (tetNet_edge e he) (tetNet_edge f hf') h2).2 hl))
  · simp only [List.mem_cons, List.not_mem_nil, or_false] at hm
    rcases hm with rfl | rfl | rfl | rfl | rfl | rfl <;>
    exact closed_pair (by decide) (by decide +kernel) (by decide +kernel) (by decide +kernel) (by decide +kernel)

/-! ## Theorems -/

variable {S : SortFn} {o : HeapFns} {drop : Fin 3} {N N' : Net} {range : List (Option Nat)} {n : Nat}

/-- The comparison that is passed to `std::sort` is defined on all deeds of a plane and is a strict weak ordering of them.  It puts
empty deeds first, keeps the edges of a line together and sorts those by where they begin. -/
theorem C53_order (hi : PlaneInput drop N range) :
    (∀ a ∈ range, ∀ b ∈ range, ∃ r, deedLess N drop a b = some r) ∧
    StrictWeak (fun a b => decide (deedLess N drop a b = some true)) range ∧
    (∀ e, deedLess N drop none (some e) = some true ∧ deedLess N drop (some e) none = some false) ∧
    (∀ e f g, some e ∈ range → some f ∈ range → some g ∈ range → deedLess N drop (some e) (some f) = some true →
      deedLess N drop (some f) (some g) = some true → SameLine3 N e g → SameLine3 N e f) ∧
    ∀ e f, some e ∈ range → some f ∈ range → SameLine3 N e f → (N.line e).d.comp (sortedDim N drop e) ≠ 0 ∧
      (deedLess N drop (some e) (some f) = some true ↔ N.lo (sortedDim N drop e) e < N.lo (sortedDim N drop e) f) := by
  obtain ⟨n, c, hn, hp⟩ := hi.plane
  obtain ⟨h1, h2⟩ := deedLess_strictWeak hi.ok hn hp
  have ee : ∀ e f, some e ∈ range → some f ∈ range → (deedLess N drop (some e) (some f) = some true ↔ EdgeLt N drop e f) := by
    intro e f he hf
    obtain ⟨b, h1, h2⟩ := edgeLess_iff hi.ok (hp e he) (hp f hf) hn
    simp only [deedLess, h1, Option.some.injEq]
    exact h2
  refine ⟨fun a ha b hb => Option.ne_none_iff_exists'.1 (h1 a ha b hb), ?_, fun e => ⟨rfl, rfl⟩, ?_, ?_⟩
  · have : (fun a b => decide (deedLess N drop a b = some true)) = fun a b => (deedLess N drop a b).getD false := by
      funext a b
      rcases deedLess N drop a b with _ | _ | _ <;> rfl
    rw [this]
    exact h2
  · intro e f g he hf hg h1 h2 hl
    rw [ee e f he hf] at h1
    rw [ee f g hf hg] at h2
    have leg := (lineEq_iff (hp e he) (hp g hg) hn).2 hl
    rw [← lineEq_iff (hp e he) (hp f hf) hn]
    rcases h1 with h1 | h1
    · rcases h2 with h2 | h2
      · exact absurd leg ((h1.trans (hp e he) (hp f hf) (hp g hg) hn h2).not_eq (hp e he) (hp g hg) hn)
      · exact absurd leg ((h1.eq (hp e he) (hp f hf) (hp g hg) hn h2.1).not_eq (hp e he) (hp g hg) hn)
    · exact h1.1
  · intro e f he hf hl
    refine ⟨(hp e he).dim hn, ?_⟩
    have lef := (lineEq_iff (hp e he) (hp f hf) hn).2 hl
    rw [ee e f he hf]
    unfold EdgeLt Conn.low
    rw [← lef.1.dim]
    constructor
    · rintro (h | h)
      · exact absurd lef (h.not_eq (hp e he) (hp f hf) hn)
      · exact h.2
    · intro h; exact .inr ⟨lef, h⟩

/-- Whenever connecting the half-edges of a plane ends: partners are mutual, and the partner of a piece of a given edge is a piece of
a given edge with the same two end points in the opposite order. -/
theorem C53_plane_partners (hS : SortOk S) (ho : HeapOk o) (hi : PlaneInput drop N range)
    (h : connectUnsorted S o drop N range = some (N', n)) :
    (∀ e f, N'.partner e = some f → N'.partner f = some e) ∧
    ∀ e f, PlanePiece N N' range e → N'.partner e = some f → PlanePiece N N' range f ∧ f ≠ e ∧
      (N'.vertex e).pt = (N'.target f).pt ∧ (N'.target e).pt = (N'.vertex f).pt := by
  obtain ⟨nn, c, hn, hp⟩ := hi.plane
  obtain ⟨l, l1, l2, l3⟩ := connectUnsorted_eq hS hi hn hp
  rw [l3] at h
  obtain ⟨R, _⟩ := connectLines_spec ho hn _ _ _ _ _ l1 h
  refine ⟨R.ok.sym, ?_⟩
  intro e f he hef
  obtain ⟨r1, r2, r3, r4⟩ := R.link e f (he.imp_left (l2 e).2) hef
  refine ⟨r1.imp_left (l2 f).1, ?_, r3, r4⟩
  rintro rfl
  exact r2 rfl

/-- Connecting the half-edges of a plane only adds vertices to the polygons, strictly inside given edges; it keeps the lines and start
vertices of all edges and changes neither the ends nor the partners of other edges. -/
theorem C53_plane_frame (hS : SortOk S) (ho : HeapOk o) (hi : PlaneInput drop N range)
    (h : connectUnsorted S o drop N range = some (N', n)) :
    N'.Ok ∧ N.count ≤ N'.count ∧ N'.normal = N.normal ∧ (∀ p, (N.cycle p).Sublist (N'.cycle p)) ∧
    (∀ e < N.count, N'.line e = N.line e ∧ N'.vertex e = N.vertex e ∧ N'.poly e = N.poly e) ∧
    (∀ e < N.count, some e ∉ range → N'.target e = N.target e ∧ N'.partner e = N.partner e) ∧
    (∀ e, N.count ≤ e → e < N'.count → ∃ r, some r ∈ range ∧ N'.poly e = N.poly r ∧ N'.line e = N.line r ∧
      OnLine (N.line r) (N'.vertex e).pt ∧ ∃ k, (N.line r).d.comp k ≠ 0 ∧ N.lo k r < (N'.vertex e).pt k ∧ (N'.vertex e).pt k < N.hi k r) := by
  obtain ⟨nn, c, hn, hp⟩ := hi.plane
  obtain ⟨l, l1, l2, l3⟩ := connectUnsorted_eq hS hi hn hp
  rw [l3] at h
  obtain ⟨R, _⟩ := connectLines_spec ho hn _ _ _ _ _ l1 h
  refine ⟨R.ok, R.cnt, R.normal, R.sub, R.same, fun e he hr => R.other e he (fun hc => hr ((l2 e).1 hc)), ?_⟩
  intro e h1 h2
  obtain ⟨r, r1, r2⟩ := R.fresh e h1 h2
  exact ⟨r, (l2 r).1 r1, r2⟩

/-- If connecting the half-edges of a plane reports no error then every piece of a given edge has a partner. -/
theorem C53_plane_no_error (hS : SortOk S) (ho : HeapOk o) (hi : PlaneInput drop N range)
    (h : connectUnsorted S o drop N range = some (N', 0)) : ∀ e, PlanePiece N N' range e → ∃ f, N'.partner e = some f := by
  obtain ⟨nn, c, hn, hp⟩ := hi.plane
  obtain ⟨l, l1, l2, l3⟩ := connectUnsorted_eq hS hi hn hp
  rw [l3] at h
  obtain ⟨_, R⟩ := connectLines_spec ho hn _ _ _ _ _ l1 h
  intro e he
  exact R rfl e (he.imp_left (l2 e).2)

/-- If the surface is closed along every line of the given half-edges then connecting them is defined and reports no error; every
piece has a partner, which over the whole length of the piece is the neighbour around the line. -/
theorem C53_plane_closed (hS : SortOk S) (ho : HeapOk o) (hi : PlaneInput drop N range) {R : Nat → List Nat} {Ord : Nat → ℚ → List Nat}
    (hc : ∀ e, some e ∈ range → (∀ f, f ∈ R e ↔ some f ∈ range ∧ SameLine3 N e f) ∧ Closed (sortedDim N drop e) (R e) N (Ord e)) :
    ∃ N', connectUnsorted S o drop N range = some (N', 0) ∧ (∀ e, PlanePiece N N' range e → ∃ f, N'.partner e = some f) ∧
      ∃ org : Nat → Nat, (∀ e, PlanePiece N N' range e → some (org e) ∈ range ∧ N'.poly e = N.poly (org e) ∧ N'.line e = N.line (org e) ∧
          N.lo (sortedDim N' drop e) (org e) ≤ N'.lo (sortedDim N' drop e) e ∧
          N'.lo (sortedDim N' drop e) e < N'.hi (sortedDim N' drop e) e ∧
          N'.hi (sortedDim N' drop e) e ≤ N.hi (sortedDim N' drop e) (org e)) ∧
        ∀ e f, PlanePiece N N' range e → N'.partner e = some f →
          ∀ t, N'.lo (sortedDim N' drop e) e ≤ t → t < N'.hi (sortedDim N' drop e) e →
          if N'.isPositive (sortedDim N' drop e) e then succIn (Ord (org e) t) (org f) = some (org e)
          else succIn (Ord (org e) t) (org e) = some (org f) := by
  obtain ⟨nn, c, hn, hp⟩ := hi.plane
  obtain ⟨l, l1, l2, l3⟩ := connectUnsorted_eq hS hi hn hp
  obtain ⟨N', h, org, o1, o2⟩ := connectLines_closed ho hn R Ord _ N l l1 le_rfl (by
    intro e he
    have he' := (l2 e).1 he
    obtain ⟨c1, c2⟩ := hc e he'
    refine ⟨?_, c2⟩
    intro f
    rw [c1, l2]
    constructor
    · rintro ⟨h1, h2⟩; exact ⟨h1, (lineEq_iff (hp e he') (hp f h1) hn).2 h2⟩
    · rintro ⟨h1, h2⟩; exact ⟨h1, (lineEq_iff (hp e he') (hp f h1) hn).1 h2⟩)
  rw [← l3] at h
  refine ⟨N', h, C53_plane_no_error hS ho hi h, org, ?_, ?_⟩
  · intro e he
    obtain ⟨r1, r2⟩ := o1 e (he.imp_left (l2 e).2)
    exact ⟨(l2 _).1 r1, r2⟩
  · intro e f he
    exact o2 e f (he.imp_left (l2 e).2)

/-- The example meets the hypotheses. -/
example : PlaneInput 2 tetNet tetRange ∧ SortOk insertionSort ∧ HeapOk sortHeap ∧
    (∀ e, some e ∈ tetRange → (∀ f, f ∈ tetPair e ↔ some f ∈ tetRange ∧ SameLine3 tetNet e f) ∧
      Closed (sortedDim tetNet 2 e) (tetPair e) tetNet (tetOrd e)) ∧
    ∃ N', connectUnsorted insertionSort sortHeap 2 tetNet tetRange = some (N', 0) ∧
      N'.partner 0 = some 8 ∧ N'.partner 1 = some 9 ∧ N'.partner 2 = some 3 ∧ N'.partner 4 = none := by
  refine ⟨tetNet_input, insertionSort_ok, sortHeap_ok, tetNet_closed, ?_⟩
  have h : (connectUnsorted insertionSort sortHeap 2 tetNet tetRange).any (fun r => r.2 = 0 ∧
    r.1.partner 0 = some 8 ∧ r.1.partner 1 = some 9 ∧ r.1.partner 2 = some 3 ∧ r.1.partner 4 = none) = true := by decide +kernel
  cases hr : connectUnsorted insertionSort sortHeap 2 tetNet tetRange with
  | none => rw [hr] at h; simp at h
  | some r =>
    rw [hr] at h
    simp only [Option.any_some, decide_eq_true_eq] at h
    obtain ⟨h0, h'⟩ := h
    exact ⟨r.1, by rw [← h0], h'⟩

end Walnut.Props
