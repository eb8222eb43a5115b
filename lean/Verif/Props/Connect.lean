/-
C53: connecting the half-edges on a line.
-/
import Verif.Conn.Init
import Verif.Conn.Heap

namespace Walnut.Props
open Walnut.Geom Walnut.Conn

/-! ## Example

A triangle with an edge from 0 to 2 on the x-axis, and two triangles with edges from 1 to 0 and from 2 to 1. -/

def connPoints : List HP3 := [⟨⟨0, 0, 0⟩, 1⟩, ⟨⟨2, 0, 0⟩, 1⟩, ⟨⟨0, 2, 0⟩, 1⟩, ⟨⟨1, 0, 0⟩, 1⟩, ⟨⟨0, 0, 0⟩, 1⟩, ⟨⟨0, 0, 2⟩, 1⟩,
  ⟨⟨2, 0, 0⟩, 1⟩, ⟨⟨1, 0, 0⟩, 1⟩, ⟨⟨1, 0, 2⟩, 1⟩]

def connPoint (i : Nat) : HP3 := connPoints.getD i ⟨⟨0, 0, 0⟩, 1⟩

def connNet : Net where
  count := 9
  vertex := connPoint
  poly i := i / 3
  line i := PL.ofHomoPoints (connPoint i) (connPoint (i / 3 * 3 + (i + 1) % 3))
  partner _ := none
  cycle p := if p < 3 then [3 * p, 3 * p + 1, 3 * p + 2] else []
  normal p := if p = 0 then ⟨0, 0, -1⟩ else ⟨0, -1, 0⟩

def connOrd (t : ℚ) : List Nat := if 0 ≤ t ∧ t < 1 then [3, 0] else if 1 ≤ t ∧ t < 2 then [6, 0] else []

theorem connNet_ok : connNet.Ok := by
  refine ⟨by decide +kernel, ?_, ?_, by decide +kernel, ?_, ?_⟩
  · intro p e he
    change e ∈ (if p < 3 then [3 * p, 3 * p + 1, 3 * p + 2] else []) at he
    change e < 9 ∧ e / 3 = p
    split at he
    · simp only [List.mem_cons, List.not_mem_nil, or_false] at he
      omega
    · cases he
  · intro p
    change (if p < 3 then [3 * p, 3 * p + 1, 3 * p + 2] else []).Nodup
    split
    · simp
    · exact List.nodup_nil
  · intro e f h; cases h
  · intro e f h; cases h

theorem connNet_input : LineInput 0 connNet [0, 3, 6] := by
  refine ⟨connNet_ok, by decide +kernel, by decide +kernel, by decide +kernel, by decide +kernel, by decide +kernel, fun _ _ => rfl,
    by decide +kernel⟩

theorem connNet_open : LineInput 0 connNet [0, 3] := by
  refine ⟨connNet_ok, by decide +kernel, by decide +kernel, by decide +kernel, by decide +kernel, by decide +kernel, fun _ _ => rfl,
    by decide +kernel⟩

theorem connNet_closed : Closed 0 [0, 3, 6] connNet connOrd := by
  have e0 : connNet.lo 0 0 = 0 ∧ connNet.hi 0 0 = 2 := by decide +kernel
  have e3 : connNet.lo 0 3 = 0 ∧ connNet.hi 0 3 = 1 := by decide +kernel
  have e6 : connNet.lo 0 6 = 1 ∧ connNet.hi 0 6 = 2 := by decide +kernel
  refine ⟨?_, ?_, ?_⟩
  · intro t e
    simp only [List.mem_cons, List.not_mem_nil, or_false]
    unfold connOrd
    constructor
    · intro h
      split at h
      · rename_i ht
        simp only [List.mem_cons, List.not_mem_nil, or_false] at h
        rcases h with rfl | rfl
        · rw [e3.1, e3.2]; exact ⟨by simp, ht⟩
        · rw [e0.1, e0.2]; exact ⟨by simp, ht.1, by linarith [ht.2]⟩
      · split at h
        · rename_i ht
          simp only [List.mem_cons, List.not_mem_nil, or_false] at h
          rcases h with rfl | rfl
          · rw [e6.1, e6.2]; exact ⟨by simp, ht⟩
          · rw [e0.1, e0.2]; exact ⟨by simp, by linarith [ht.1], ht.2⟩
        · cases h
    · rintro ⟨h1, h2, h3⟩
      rcases h1 with rfl | rfl | rfl
      · rw [e0.1] at h2; rw [e0.2] at h3
        by_cases h : t < 1
        · rw [if_pos ⟨h2, h⟩]; simp
        · rw [if_neg (fun hc => h hc.2), if_pos ⟨not_lt.1 h, h3⟩]; simp
      · rw [e3.1] at h2; rw [e3.2] at h3
        rw [if_pos ⟨h2, h3⟩]; simp
      · rw [e6.1] at h2; rw [e6.2] at h3
        rw [if_neg (fun hc => absurd hc.2 (not_lt.2 h2)), if_pos ⟨h2, h3⟩]; simp
  · intro t
    unfold connOrd
    split
    · decide +kernel
    · split
      · decide +kernel
      · exact List.Pairwise.nil
  · intro t e f h
    have key : ∀ l : List Nat, (∀ e ∈ l, ∀ f, succIn l e = some f → connNet.isPositive 0 e ≠ connNet.isPositive 0 f) →
        succIn l e = some f → connNet.isPositive 0 e ≠ connNet.isPositive 0 f := fun l hl hf => hl e (succIn_mem hf).1 f hf
    revert h
    unfold connOrd
    have m3 : ∀ e ∈ [3, 0], ∀ f, succIn [3, 0] e = some f → connNet.isPositive 0 e ≠ connNet.isPositive 0 f := by
      intro e he f hf
      have hm := (succIn_mem hf).2
      revert hf; revert f; revert e
      decide +kernel
    have m6 : ∀ e ∈ [6, 0], ∀ f, succIn [6, 0] e = some f → connNet.isPositive 0 e ≠ connNet.isPositive 0 f := by
      intro e he f hf
      have hm := (succIn_mem hf).2
      revert hf; revert f; revert e
      decide +kernel
    split
    · exact key _ m3
    · split
      · exact key _ m6
      · intro h; simp [succIn] at h

/-! ## Theorems -/

variable {o : HeapFns} {k : Fin 3} {N N' : Net} {range : List Nat} {n : Nat}

/-- Whenever connecting the half-edges on a line ends, whether or not there were errors: partners are mutual, and the partner of a
piece of a given edge is a piece with the opposite polarity that has the same two end points. -/
theorem C53_partners (ho : HeapOk o) (hi : LineInput k N range) (h : connectLine o k N range = some (N', n)) :
    (∀ e f, N'.partner e = some f → N'.partner f = some e) ∧
    ∀ e f, Piece N N' range e → N'.partner e = some f → Piece N N' range f ∧ N'.isPositive k e ≠ N'.isPositive k f ∧
      (N'.vertex e).pt = (N'.target f).pt ∧ (N'.target e).pt = (N'.vertex f).pt := by
  obtain ⟨x0, hx0⟩ := exists_below (N.lo k) range
  unfold connectLine at h
  obtain ⟨s, hs, he⟩ := Option.map_eq_some_iff.1 h
  obtain ⟨x, b, ord⟩ := connectLoop_safe hi.lined ho _ _ _ _ _ _ (hi.bnd hx0) hs
  obtain ⟨rfl, rfl⟩ := Prod.mk.inj he
  have nv := b.core.net
  refine ⟨nv.ok.sym, ?_⟩
  intro e f hp hf
  have inE : InE N range e := hp.imp_right fun h => h.1
  obtain ⟨l1, l2, l3, l4⟩ := nv.link e f inE hf
  have hs := nv.ok.sym _ _ hf
  have d1 : s.net.hi k e ≤ x := (b.core.done e f inE hf).resolve_left (by rw [ord]; simp)
  have d2 : s.net.hi k f ≤ x := (b.core.done f e l1 hs).resolve_left (by rw [ord]; simp)
  rw [min_eq_left d1, min_eq_left d2] at l4
  have he := nv.ok.exist _ _ hf
  have hfl := nv.ok.exist _ _ hs
  obtain ⟨o1, o2, o3⟩ := nv.on e inE he
  obtain ⟨p1, p2, p3⟩ := nv.on f l1 hfl
  have eq : ∀ p q, onC N range p → onC N range q → p.pt k = q.pt k → p.pt = q.pt := fun p q hp hq hpq =>
    (C20_eq p q hp.1 hq.1).1 ((hi.lined.eq_iff o1 hp hq).2 hpq)
  refine ⟨l1.imp_right fun h => ⟨h, hfl⟩, l2, ?_⟩
  unfold Net.lo Net.loPt at l3
  unfold Net.hi Net.hiPt at l4
  cases h1 : s.net.isPositive k e <;> cases h2 : s.net.isPositive k f <;> rw [h1, h2] at l2 l3 l4
  · exact absurd rfl l2
  · exact ⟨eq _ _ o2 p3 l4, eq _ _ o3 p2 l3⟩
  · exact ⟨eq _ _ o2 p3 l3, eq _ _ o3 p2 l4⟩
  · exact absurd rfl l2

/-- Connecting the half-edges on a line only adds vertices to the polygons, strictly inside given edges; it keeps the lines and start
vertices of all edges and changes neither the ends nor the partners of other edges. -/
theorem C53_frame (ho : HeapOk o) (hi : LineInput k N range) (h : connectLine o k N range = some (N', n)) :
    N'.Ok ∧ N.count ≤ N'.count ∧ N'.normal = N.normal ∧ (∀ p, (N.cycle p).Sublist (N'.cycle p)) ∧
    (∀ e < N.count, N'.line e = N.line e ∧ N'.vertex e = N.vertex e ∧ N'.poly e = N.poly e) ∧
    (∀ e < N.count, e ∉ range → N'.target e = N.target e ∧ N'.partner e = N.partner e) ∧
    (∀ e, N.count ≤ e → e < N'.count → ∃ r ∈ range, N'.poly e = N.poly r ∧ N'.line e = N.line r ∧
      N.lo k r < (N'.vertex e).pt k ∧ (N'.vertex e).pt k < N.hi k r ∧ OnLine (N.line r) (N'.vertex e).pt) := by
  obtain ⟨x0, hx0⟩ := exists_below (N.lo k) range
  unfold connectLine at h
  obtain ⟨s, hs, he⟩ := Option.map_eq_some_iff.1 h
  obtain ⟨x, b, ord⟩ := connectLoop_safe hi.lined ho _ _ _ _ _ _ (hi.bnd hx0) hs
  obtain ⟨rfl, rfl⟩ := Prod.mk.inj he
  have nv := b.core.net
  refine ⟨nv.ok, nv.cnt, nv.normal, nv.sub, nv.frame, ?_, ?_⟩
  · intro e he hr
    exact nv.other e (by rintro (h | h); exacts [hr h, absurd he (by omega)])
  · intro e h1 h2
    obtain ⟨r, r1, r2, r3, r4, r5⟩ := nv.fresh e h1 h2
    exact ⟨r, r1, r2, r3, r4, r5, (nv.on e (.inr h1) h2).2.1.2 r r1⟩

/-- If connecting the half-edges on a line reports no error then every piece of a given edge has a partner. -/
theorem C53_no_error (ho : HeapOk o) (hi : LineInput k N range) (h : connectLine o k N range = some (N', 0)) :
    ∀ e, Piece N N' range e → ∃ f, N'.partner e = some f := by
  obtain ⟨x0, hx0⟩ := exists_below (N.lo k) range
  unfold connectLine at h
  obtain ⟨s, hs, he⟩ := Option.map_eq_some_iff.1 h
  have bnd := hi.bnd hx0
  obtain ⟨x, b, ord⟩ := connectLoop_safe hi.lined ho _ _ _ _ _ _ bnd hs
  obtain ⟨rfl, herr⟩ := Prod.mk.inj he
  obtain ⟨x', w⟩ := (connectLoop_err hi.lined ho _ _ _ _ _ _ bnd hs).2 herr (by intro g hg; cases hg) (hi.whole hx0 _)
  intro e hp
  have inE : InE N range e := hp.imp_right fun h => h.1
  have hlt : e < s.net.count := by
    rcases hp with hp | hp
    · exact lt_of_lt_of_le (hi.lt e hp) b.core.net.cnt
    · exact hp.2
  have := w.full e inE hlt (by
    by_contra hc
    rcases w.start e inE hlt (not_lt.1 hc) with h | ⟨g, hg, _⟩
    · cases h
    · rw [ord] at hg; cases hg)
  exact Option.ne_none_iff_exists'.1 this

/-- If the surface is closed along the line then connecting the half-edges on it is defined and reports no error; every piece has a
partner, and over the whole length of the piece the edge that the partner is a piece of is the neighbour around the line of the
edge that the piece is a piece of: the previous one for edges in the positive direction, the next one for the others. -/
theorem C53_closed (ho : HeapOk o) (hi : LineInput k N range) {Ord : ℚ → List Nat} (hc : Closed k range N Ord) :
    ∃ N', connectLine o k N range = some (N', 0) ∧ (∀ e, Piece N N' range e → ∃ f, N'.partner e = some f) ∧
      ∃ org : Nat → Nat, (∀ e, Piece N N' range e → org e ∈ range ∧ N'.poly e = N.poly (org e) ∧ N'.line e = N.line (org e) ∧
          N.lo k (org e) ≤ N'.lo k e ∧ N'.lo k e < N'.hi k e ∧ N'.hi k e ≤ N.hi k (org e)) ∧
        ∀ e f, Piece N N' range e → N'.partner e = some f → ∀ t, N'.lo k e ≤ t → t < N'.hi k e →
          if N'.isPositive k e then succIn (Ord t) (org f) = some (org e) else succIn (Ord t) (org e) = some (org f) := by
  obtain ⟨x0, hx0⟩ := exists_below (N.lo k) range
  have bnd := hi.bnd hx0
  obtain ⟨s, x, h1, h2, b, c, ord⟩ := connectLoop_closed hi.lined ho hc (2 * range.length + 1) none (St.init N) range x0 bnd (hi.cbnd hx0 Ord)
    (by intro p hp; cases hp) (by simp [St.init])
  have run : connectLine o k N range = some (s.net, 0) := by
    unfold connectLine
    rw [h1, Option.map_some, h2]
    rfl
  have nv := b.core.net
  have lt : ∀ e, Piece N s.net range e → InE N range e ∧ e < s.net.count := by
    intro e hp
    refine ⟨hp.imp_right fun h => h.1, ?_⟩
    rcases hp with hp | hp
    · exact lt_of_lt_of_le (hi.lt e hp) nv.cnt
    · exact hp.2
  refine ⟨s.net, run, C53_no_error ho hi run, ?_⟩
  obtain ⟨org, o1, o2, o3, o4⟩ := c.whole.org
  refine ⟨org, ?_, ?_⟩
  · intro e hp
    obtain ⟨p1, p2, p3, p4, p5⟩ := o3 e (lt e hp).1 (lt e hp).2
    exact ⟨p1, p2, p3, p4, nv.len e (lt e hp).1 (lt e hp).2, p5⟩
  · intro e f hp hf t ht1 ht2
    have hhi : s.net.hi k e ≤ x := (b.core.done e f (lt e hp).1 hf).resolve_left (by rw [ord]; simp)
    have := o4 e f (lt e hp).1 hf t ht1 ht2 (ht2.trans_le hhi)
    unfold ordRel neighbour at this
    split
    · rename_i hpos
      rw [if_pos hpos] at this
      exact (succIn_reverse_iff (hc.nodup t)).2 this
    · rename_i hpos
      rwa [if_neg hpos] at this

/-- The example meets the hypotheses; its first edge is split, and both pieces get partners. -/
example : LineInput 0 connNet [0, 3, 6] ∧ Closed 0 [0, 3, 6] connNet connOrd ∧ HeapOk sortHeap ∧
    ∃ N', connectLine sortHeap 0 connNet [0, 3, 6] = some (N', 0) ∧ N'.count = 10 ∧ N'.cycle 0 = [0, 9, 1, 2] ∧
      N'.partner 0 = some 3 ∧ N'.partner 3 = some 0 ∧ N'.partner 9 = some 6 ∧ N'.partner 6 = some 9 := by
  refine ⟨connNet_input, connNet_closed, sortHeap_ok, ?_⟩
  have h : (connectLine sortHeap 0 connNet [0, 3, 6]).any (fun r => r.2 = 0 ∧ r.1.count = 10 ∧ r.1.cycle 0 = [0, 9, 1, 2] ∧
    r.1.partner 0 = some 3 ∧ r.1.partner 3 = some 0 ∧ r.1.partner 9 = some 6 ∧ r.1.partner 6 = some 9) = true := by decide +kernel
  cases hr : connectLine sortHeap 0 connNet [0, 3, 6] with
  | none => rw [hr] at h; simp at h
  | some r =>
    rw [hr] at h
    simp only [Option.any_some, decide_eq_true_eq] at h
    obtain ⟨h0, h'⟩ := h
    exact ⟨r.1, by rw [← h0], h'⟩

/-- The header says that as many half-edges as possible are connected even if there are errors.  If the second of the triangles
with edges in the negative direction is missing then connecting fails: at the end of the other one's edge the remaining edge is put
into `need_partners_` twice (edge_line_connector.h 421-423), so that it is split twice at the same point, which the assertion in
`SplitEdge` excludes. -/
theorem C53_open_undefined : LineInput 0 connNet [0, 3] ∧ HeapOk sortHeap ∧ connectLine sortHeap 0 connNet [0, 3] = none := by
  refine ⟨connNet_open, sortHeap_ok, ?_⟩
  have h : (connectLine sortHeap 0 connNet [0, 3]).isNone = true := by decide +kernel
  exact Option.isNone_iff_eq_none.1 h

end Walnut.Props
