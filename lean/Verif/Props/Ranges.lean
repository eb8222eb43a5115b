/-
C51 (monotone ranges).

The statements are about `monotoneRange`, the model of `MonotoneRange::Build`, and
`MRange.chains`, the model of `GetChains`.  The input is the part of the vertex list `vs` from
the index `rb` to the index `re`; `r.first` and `r.last` are the two iterators on output.
-/
import Verif.Mono.CutProof
import Verif.Props.Monotone

namespace Walnut.Props
open Walnut.Geom Walnut.Mono

/-- The vertices of an iterator range. -/
abbrev slice (vs : List HP3) (i j : Nat) : List HP3 := (vs.take j).drop i

theorem pairwise_key {mono : Fin 3} {l : List HP3} : Ascending mono (l.map (·.pt)) ↔
    l.Pairwise fun a b => key mono 1 a ≤ key mono 1 b := by
  unfold Ascending
  rw [List.pairwise_map]
  simp only [key, Int.cast_one, one_mul]

theorem cut_ends {α : Type} {all c1 c2 rest : List α} (h : Cut all c1 c2 rest) :
    ∃ lo hi, c1.head? = some lo ∧ c1.getLast? = some hi ∧ c2.head? = some hi ∧ c2.getLast? = some lo := by
  obtain ⟨p1, p2, p3, p4, p5, lo, hi, hall, hc1, hlo, hhi, hc2, -⟩ := h
  refine ⟨lo, hi, hlo, hhi, ?_⟩
  rcases hc2 with rfl | ⟨ha, rfl⟩
  · exact ⟨rfl, by rw [List.getLast?_append]; rfl⟩
  · have : hi ∈ all := by
      have := List.mem_of_getLast? hhi
      rw [hc1] at this; rw [hall]; simp at this ⊢; tauto
    rw [ha] at this; simp at this; simp [this]

/-- C51: for any nonempty range, `Build` returns, and the range left over is a part of the
input range.  Both chains of `GetChains` ascend in the monotone dimension, and have their
first and their last vertex in common.  `Cut` says which vertices are taken: the chains are a
closed polyline that uses each vertex it takes, and it differs from the input polygon by the
polygon left over. -/
theorem C51_range (vs : List HP3) (mono : Fin 3) (rb re : Nat) (hw : ∀ v ∈ vs, v.w ≠ 0) (h1 : rb < re)
    (h2 : re ≤ vs.length) :
    ∃ r, monotoneRange vs mono rb re = some r ∧
      rb ≤ r.first ∧ r.first ≤ r.last ∧ r.last ≤ re ∧
      Ascending mono (r.chains.1.map (·.pt)) ∧ Ascending mono (r.chains.2.map (·.pt)) ∧
      (∃ lo hi, r.chains.1.head? = some lo ∧ r.chains.2.head? = some lo ∧
        r.chains.1.getLast? = some hi ∧ r.chains.2.getLast? = some hi) ∧
      Cut (slice vs rb re) r.chain1 r.chain2 (slice vs r.first r.last) := by
  obtain ⟨r, hr, hs⟩ := monotoneRange_spec mono hw h1 h2
  refine ⟨r, hr, ?_⟩
  have ends : Cut (slice vs rb re) r.chain1 r.chain2 (slice vs r.first r.last) →
      ∃ lo hi, r.chains.1.head? = some lo ∧ r.chains.2.head? = some lo ∧
        r.chains.1.getLast? = some hi ∧ r.chains.2.getLast? = some hi := by
    intro hc
    obtain ⟨lo, hi, e1, e2, e3, e4⟩ := cut_ends hc
    unfold MRange.chains
    split
    · exact ⟨lo, hi, e1, by simpa using e4, e2, by simpa using e3⟩
    · exact ⟨hi, lo, e3, by simpa using e2, e4, by simpa using e1⟩
  rcases hs with ⟨b3, b5, e6, e2, dir, hd, hs⟩ | ⟨hd, c1, hf, hl, c2, hk⟩
  · obtain ⟨s1, s2, s3⟩ := hs.shorter
    obtain ⟨t1, t2⟩ := hs.chains h2
    have hc := hs.cut h2
    have hdir : r.dir = dir := by rw [hs.res]
    refine ⟨s1, s2, s3, ?_, ?_, ends hc, hc⟩ <;> rw [pairwise_key] <;> unfold MRange.chains <;> rw [hdir] <;>
      rcases hd with rfl | rfl
    · exact t1
    · rw [if_neg (by norm_num)]
      simpa [key] using t2
    · rw [if_pos (by norm_num)]
      rw [List.pairwise_reverse]; exact t2
    · rw [if_neg (by norm_num)]
      simp only
      rw [List.pairwise_reverse]
      simpa [key] using t1
  · have get : ∀ i, i < vs.length → ∃ v, vs[i]? = some v := fun i hi => ⟨_, List.getElem?_eq_getElem hi⟩
    obtain ⟨x, hx⟩ := get rb (by omega)
    obtain ⟨y, hy⟩ := get (re - 1) (by omega)
    have hlast : seg vs (re - 1) re = [y] := by
      have := seg_one hy
      rwa [show re - 1 + 1 = re by omega] at this
    have hc : Cut (slice vs rb re) r.chain1 r.chain2 (slice vs r.first r.last) := by
      have hnil : slice vs r.first r.last = [] := by rw [hf, hl]; exact seg_nil (by omega)
      refine ⟨seg vs rb re, [], [], [], [], x, y, by simp [seg], by rw [c1]; simp, ?_, ?_, ?_, Or.inl ⟨rfl, hnil⟩⟩
      · rw [c1, seg_head h1 h2, hx]
      · rw [c1, seg_last h1 h2, hy]
      · rw [c2, hlast]
        by_cases hq : re - 1 = rb
        · right
          have e : x = y := by rw [hq, hx] at hy; simpa using hy
          subst e
          refine ⟨?_, by simp [hq]⟩
          have := seg_one hx
          rwa [show rb + 1 = re by omega] at this
        · left
          rw [if_pos hq, seg_one hx]; rfl
    have same : ∀ v ∈ seg vs rb re, key mono 1 v = K vs mono 1 (re - 1) := by
      intro v hv
      obtain ⟨n, hn⟩ := List.mem_iff_getElem?.1 hv
      have hlt : n < re - rb := by
        by_contra hc2
        rw [List.getElem?_eq_none (by rw [seg_length h2]; omega)] at hn; simp at hn
      rw [seg_get (by omega)] at hn
      rw [← K_eq hn]; exact hk _ (by omega) (by omega)
    have m1 : ∀ v ∈ r.chain1, key mono 1 v = K vs mono 1 (re - 1) := by rw [c1]; exact same
    have m2 : ∀ v ∈ r.chain2, key mono 1 v = K vs mono 1 (re - 1) := by
      intro v hv
      rw [c2, hlast] at hv
      have : v = x ∨ v = y := by
        by_cases hq : re - 1 = rb
        · simp [hq] at hv; exact Or.inr hv
        · rw [if_pos hq, seg_one hx] at hv; simp at hv; tauto
      rcases this with rfl | rfl
      · rw [← K_eq hx]; exact hk _ (by omega) (by omega)
      · rw [← K_eq hy]
    refine ⟨by omega, by omega, by omega, ?_, ?_, ends hc, hc⟩ <;> rw [pairwise_key] <;> unfold MRange.chains <;>
      rw [hd, if_pos le_rfl]
    · exact List.Pairwise.imp_of_mem (R := fun _ _ => True) (fun {a b} ha hb _ => by rw [m1 a ha, m1 b hb]) (List.pairwise_of_forall fun _ _ => trivial)
    · exact List.Pairwise.imp_of_mem (R := fun _ _ => True) (fun {a b} ha hb _ => by
        rw [m2 a (by simpa using ha), m2 b (by simpa using hb)])
        (List.pairwise_of_forall fun _ _ => trivial)

/-- C51: the boundary of the monotone polygon and the boundary of the polygon left over add up to
the boundary of the input polygon. -/
theorem C51_boundary (vs : List HP3) (mono : Fin 3) (rb re : Nat) (hw : ∀ v ∈ vs, v.w ≠ 0) (h1 : rb < re)
    (h2 : re ≤ vs.length) (r : MRange) (hr : monotoneRange vs mono rb re = some r) (f : Q3 → Q3 → ℚ)
    (hf : Antisymmetric f) :
    loopSum f ((slice vs rb re).map (·.pt)) =
      loopSum f ((r.chain1 ++ r.chain2).map (·.pt)) + loopSum f ((slice vs r.first r.last).map (·.pt)) := by
  obtain ⟨r', hr', -, -, -, -, -, -, hc⟩ := C51_range vs mono rb re hw h1 h2
  rw [hr] at hr'; simp only [Option.some.injEq] at hr'; subst hr'
  rw [loopSum_map, loopSum_map, loopSum_map]
  exact hc.sum _ fun a b => hf _ _

/-- C51, the part about the progress: at least one vertex is consumed, unless the second vertex, the
last one, the first one and the second last one strictly ascend or strictly descend in this order.
In that case nothing is consumed.

Not proved, because it is false (`C51_stuck_false`): that every call makes progress. -/
theorem C51_progress_partial (vs : List HP3) (mono : Fin 3) (rb re : Nat) (hw : ∀ v ∈ vs, v.w ≠ 0) (h1 : rb + 1 < re)
    (h2 : re ≤ vs.length) (r : MRange) (hr : monotoneRange vs mono rb re = some r)
    (x0 x1 y1 y0 : HP3) (hx0 : vs[rb]? = some x0) (hx1 : vs[rb + 1]? = some x1)
    (hy1 : vs[re - 2]? = some y1) (hy0 : vs[re - 1]? = some y0) :
    r.last - r.first < re - rb ↔
      ¬ (x1.pt mono < y0.pt mono ∧ y0.pt mono < x0.pt mono ∧ x0.pt mono < y1.pt mono) ∧
      ¬ (x1.pt mono > y0.pt mono ∧ y0.pt mono > x0.pt mono ∧ x0.pt mono > y1.pt mono) := by
  obtain ⟨r', hr', hs⟩ := monotoneRange_spec mono hw (show rb < re by omega) h2
  rw [hr] at hr'; simp only [Option.some.injEq] at hr'; subst hr'
  rcases hs with ⟨b3, b5, e6, e2, dir, hd, hs⟩ | ⟨hd, c1, hf, hl, c2, hk⟩
  · have hst := hs.stuck_iff
    have hu := hs.u2
    obtain ⟨s1, s2, s3⟩ := hs.shorter
    rw [K_eq hx0, K_eq hx1, K_eq hy1, K_eq hy0] at hst
    rw [K_eq hx0, K_eq hy0] at hu
    have e : r.last - r.first < re - rb ↔ ¬ (r.first = rb ∧ r.last = re) := by omega
    rw [e, hst]
    rcases hd with rfl | rfl <;> simp only [key, Int.cast_one, one_mul, Int.cast_neg, neg_mul, neg_lt_neg_iff,
      neg_le_neg_iff] at hu ⊢
    · constructor
      · intro h; exact ⟨h, fun h' => by linarith [h'.2.1]⟩
      · exact fun h => h.1
    · constructor
      · intro h; exact ⟨fun h' => by linarith [h'.2.1], h⟩
      · exact fun h => h.2
  · have e0 := hk rb le_rfl (by omega)
    rw [K_eq hx0, K_eq hy0] at e0
    simp only [key, Int.cast_one, one_mul] at e0
    constructor
    · intro _; exact ⟨fun h => by linarith [h.2.1], fun h => by linarith [h.2.1]⟩
    · intro _; omega

/-- C51: progress is false in general.  For the simple quadrilateral with the vertices (3,3), (0,0),
(5,-3) and (1,0), `Build` returns two chains of two vertices each, and the same range as
before.  (`ConvexPolygonFactory::Build` repeats the call until the range is empty.) -/
def dart : List HP3 := [⟨⟨3, 3, 0⟩, 1⟩, ⟨⟨0, 0, 0⟩, 1⟩, ⟨⟨5, -3, 0⟩, 1⟩, ⟨⟨1, 0, 0⟩, 1⟩]

theorem C51_stuck_false : ∃ r, monotoneRange dart 0 0 4 = some r ∧ r.first = 0 ∧ r.last = 4 ∧
    r.chain1.length = 2 ∧ r.chain2.length = 2 :=
  ⟨⟨1, [⟨⟨1, 0, 0⟩, 1⟩, ⟨⟨3, 3, 0⟩, 1⟩], [⟨⟨3, 3, 0⟩, 1⟩, ⟨⟨1, 0, 0⟩, 1⟩], 0, 4⟩, by decide +kernel, rfl, rfl, rfl, rfl⟩

/-- Seven vertices with two minima: the hypotheses of the theorems hold, and the range left over
is a triangle. -/
def zigzag : List HP3 := [⟨⟨0, 0, 0⟩, 1⟩, ⟨⟨2, -1, 0⟩, 1⟩, ⟨⟨9, 0, 0⟩, 1⟩, ⟨⟨5, 1, 0⟩, 1⟩, ⟨⟨7, 2, 0⟩, 1⟩, ⟨⟨4, 3, 0⟩, 1⟩,
  ⟨⟨2, 2, 0⟩, 2⟩]

example : (∀ v ∈ zigzag, v.w ≠ 0) ∧ monotoneRange zigzag 0 0 7 = some
    ⟨-1, [⟨⟨7, 2, 0⟩, 1⟩, ⟨⟨4, 3, 0⟩, 1⟩, ⟨⟨2, 2, 0⟩, 2⟩, ⟨⟨0, 0, 0⟩, 1⟩],
      [⟨⟨0, 0, 0⟩, 1⟩, ⟨⟨2, -1, 0⟩, 1⟩, ⟨⟨5, 1, 0⟩, 1⟩, ⟨⟨7, 2, 0⟩, 1⟩], 1, 4⟩ := by
  refine ⟨by decide, ?_⟩
  decide +kernel

end Walnut.Props
