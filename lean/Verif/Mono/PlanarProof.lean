/-
Lemmas for C52: what `PlanarRange::Build` does.
-/
import Verif.Mono.Planar
import Verif.Mono.CutProof
import Verif.Mono.DecomposeProof
import Verif.Props.Planes

namespace Walnut.Mono
open Walnut.Geom Walnut.Props

/-- The three points are on one line, if the first two are different. -/
def Aligned (a b v : Q3) : Prop := ∀ i, crossQ (subQ b a) (subQ v a) i = 0

theorem side_normal {h : HS3} {k : ℚ} {c a : Q3} (hs : ∀ q, h.side q = k * dotQ c (subQ q a)) :
    (h.n.x : ℚ) = k * c 0 ∧ (h.n.y : ℚ) = k * c 1 ∧ (h.n.z : ℚ) = k * c 2 := by
  have e0 := hs ![0, 0, 0]
  have e1 := hs ![1, 0, 0]
  have e2 := hs ![0, 1, 0]
  have e3 := hs ![0, 0, 1]
  simp [HS3.side_eq, dotQ, subQ] at e0 e1 e2 e3
  exact ⟨by linarith, by linarith, by linarith⟩

theorem valid_iff {p1 p2 p3 : HP3} (h1 : p1.w ≠ 0) (h2 : p2.w ≠ 0) (h3 : p3.w ≠ 0) (hm : p2.w ≠ -2 ^ 63) :
    ∃ h, HS3.ofHomoPoints p1 p2 p3 = some h ∧ (∃ k : ℚ, 0 < k ∧ ∀ q, h.side q = k * orient p1.pt p2.pt p3.pt q) ∧
      (planeValid h = false ↔ Aligned p1.pt p2.pt p3.pt) := by
  obtain ⟨h, hh, k, hk, hs⟩ := C23_of_homo_points_partial p1 p2 p3 h1 h2 h3 hm
  refine ⟨h, hh, ⟨k, hk, hs⟩, ?_⟩
  obtain ⟨e1, e2, e3⟩ := side_normal hs
  have z : ∀ x : ℚ, k * x = 0 ↔ x = 0 := fun x => by simp [hk.ne']
  have q1 : h.n.x = 0 ↔ (h.n.x : ℚ) = 0 := by norm_cast
  have q2 : h.n.y = 0 ↔ (h.n.y : ℚ) = 0 := by norm_cast
  have q3 : h.n.z = 0 ↔ (h.n.z : ℚ) = 0 := by norm_cast
  simp only [planeValid, V3.isZero, Bool.not_eq_false', decide_eq_true_eq, q1, q2, q3, e1, e2, e3, z, Aligned]
  rw [Fin.forall_fin_succ, Fin.forall_fin_succ, Fin.forall_fin_succ]
  simp

theorem orient_onLine {a b c v : Q3} (h : Aligned a b v) : orient a b c v = 0 := by
  have h0 := h 0
  have h1 := h 1
  have h2 := h 2
  simp only [crossQ_zero, crossQ_one, crossQ_two] at h0 h1 h2
  simp only [orient, dotQ, crossQ_zero, crossQ_one, crossQ_two]
  linear_combination -(subQ c a 0) * h0 - (subQ c a 1) * h1 - (subQ c a 2) * h2

theorem planeLoop_spec {p1 p2 : HP3} (h1 : p1.w ≠ 0) (h2 : p2.w ≠ 0) (hm : p2.w ≠ -2 ^ 63) (l : List HP3)
    (hw : ∀ v ∈ l, v.w ≠ 0) :
    (planeLoop p1 p2 l = some (none, l.length) ∧ ∀ v ∈ l, Aligned p1.pt p2.pt v.pt) ∨
    ∃ A p3 B h, l = A ++ p3 :: B ∧ planeLoop p1 p2 l = some (some h, A.length + 1) ∧
      (∀ v ∈ A, Aligned p1.pt p2.pt v.pt) ∧ planeValid h = true ∧
      ∃ k : ℚ, 0 < k ∧ ∀ q, h.side q = k * orient p1.pt p2.pt p3.pt q := by
  induction l with
  | nil => left; exact ⟨rfl, by simp⟩
  | cons p3 r ih =>
    obtain ⟨h, hh, hk, hv⟩ := valid_iff h1 h2 (hw p3 (by simp)) hm
    cases hval : planeValid h with
    | true =>
      right
      refine ⟨[], p3, r, h, rfl, ?_, by simp, hval, hk⟩
      simp [planeLoop, hh, hval]
    | false =>
      have hon := hv.1 hval
      rcases ih (fun v hv => hw v (by simp [hv])) with ⟨e, ha⟩ | ⟨A, q3, B, h', e1, e2, e3, e4, e5⟩
      · left
        refine ⟨by simp [planeLoop, hh, hval, e], ?_⟩
        intro v hv; simp at hv; rcases hv with rfl | hv
        · exact hon
        · exact ha v hv
      · right
        refine ⟨p3 :: A, q3, B, h', by rw [e1]; rfl, by simp [planeLoop, hh, hval, e2], ?_, e4, e5⟩
        intro v hv; simp at hv; rcases hv with rfl | hv
        · exact hon
        · exact e3 v hv

theorem CutMiddle.sum {all taken rest : List HP3} (h : CutMiddle all taken rest) (g : HP3 → HP3 → ℚ)
    (hg : ∀ a b, g a b = -g b a) : cSum g all = cSum g taken + cSum g rest := by
  obtain ⟨F, R, B, rfl, rfl, ⟨rfl, rfl⟩ | ⟨x, y, hx, hy, -, rfl⟩⟩ := h
  · simp [cSum]
  · obtain ⟨F', rfl⟩ := List.getLast?_eq_some_iff.1 hx
    obtain ⟨B', rfl⟩ : ∃ B', B = y :: B' := by
      cases B with
      | nil => simp at hy
      | cons b B' => simp at hy; subst hy; exact ⟨B', rfl⟩
    have e := cSum_replace g (M := x :: R ++ [y]) (M' := [x, y]) (c := pSum g (x :: R ++ [y]) - g x y) (x := x)
      (y := y) (by simp [pSum]) rfl rfl (by simp [List.getLast?_cons]) rfl F' B'
    have a1 : F' ++ [x] ++ R ++ y :: B' = F' ++ (x :: R ++ [y]) ++ B' := by simp
    have a2 : F' ++ [x] ++ y :: B' = F' ++ [x, y] ++ B' := by simp
    rw [a1, a2, e, cSum_snoc, hg y x]; ring

/-- What `Build` does on a range of at least two vertices. -/
theorem planarRange_spec {vs : List HP3} {rb re : Nat} (hw : ∀ v ∈ vs, v.w ≠ 0) (hm : ∀ v ∈ vs, v.w ≠ -2 ^ 63)
    (h1 : rb + 1 < re) (h2 : re ≤ vs.length) {p1 p2 : HP3} (hp1 : vs[re - 1]? = some p1) (hp2 : vs[rb]? = some p2) :
    ∃ r, planarRange vs rb re = some r ∧
      ((r.plane = zeroPlane ∧ r.verts = seg vs rb re ∧ r.size = r.verts.length ∧ r.first = re - 1 ∧ r.last = re - 1 ∧
        ∀ v ∈ seg vs rb re, Aligned p1.pt p2.pt v.pt) ∨
      (planeValid r.plane = true ∧ (∃ p3 ∈ seg vs rb re, ∃ k : ℚ, 0 < k ∧
          ∀ q, r.plane.side q = k * orient p1.pt p2.pt p3.pt q) ∧
        (∀ v ∈ r.verts, r.plane.side v.pt = 0) ∧ r.size = r.verts.length ∧
        ((r.verts = seg vs rb re ∧ r.first = re - 1 ∧ r.last = re - 1) ∨
          ∃ i j u v, rb + 2 ≤ i ∧ i < j ∧ j < re ∧ r.verts = seg vs rb i ++ seg vs j re ∧ r.first = i - 1 ∧
            r.last = j + 1 ∧ vs[i]? = some u ∧ vs[j - 1]? = some v ∧ r.plane.side u.pt ≠ 0 ∧
            r.plane.side v.pt ≠ 0))) := by
  have w1 := hw p1 (List.mem_of_getElem? hp1)
  have w2 := hw p2 (List.mem_of_getElem? hp2)
  have segmem : ∀ i j, ∀ v ∈ seg vs i j, v ∈ vs := fun i j v hv => List.mem_of_mem_take (List.mem_of_mem_drop hv)
  have hall : seg vs rb re = p2 :: seg vs (rb + 1) (re - 1) ++ [p1] := by
    rw [seg_cons hp2 (by omega) h2]
    have := seg_snoc (i := rb + 1) hp1 (by omega) (by omega)
    rw [show re - 1 + 1 = re by omega] at this
    rw [this]; rfl
  have l1 : Aligned p1.pt p2.pt p1.pt := by intro i; fin_cases i <;> simp [subQ]
  have l2 : Aligned p1.pt p2.pt p2.pt := by intro i; fin_cases i <;> simp [subQ] <;> ring
  have start : planarRange vs rb re = (planeLoop p1 p2 (seg vs (rb + 1) (re - 1))).bind fun q =>
      let b1 := rb + 1 + q.2
      match q.1 with
      | none => some ⟨seg vs rb re, 2 + q.2, zeroPlane, b1, re - 1⟩
      | some h => (seg? vs b1 (re - 1)).bind fun rest =>
        let k := (rest.takeWhile h.isCoincident).length
        if b1 + k = re - 1 then some ⟨seg vs rb re, 2 + q.2 + k, h, b1 + k, re - 1⟩
        else (seg? vs (b1 + k) (re - 1)).bind fun rest2 =>
          let j := (rest2.reverse.takeWhile h.isCoincident).length
          if j = rest2.length then none
          else (seg? vs rb (b1 + k)).bind fun front => (seg? vs (re - 1 - j) re).bind fun back =>
            some ⟨front ++ back, 2 + q.2 + k + j, h, b1 + k - 1, re - 1 - j + 1⟩ := by
    unfold planarRange
    rw [if_neg (by omega), dec?_eq (by omega)]
    simp only [Option.bind_eq_bind, Option.bind_some, hp1, hp2, seg?_eq (show rb ≤ re by omega) h2,
      seg?_eq (show rb + 1 ≤ re - 1 by omega) (show re - 1 ≤ vs.length by omega)]
    rw [if_neg (by omega)]
    rfl
  rw [start]
  have hlen : (seg vs (rb + 1) (re - 1)).length = re - 1 - (rb + 1) := seg_length (by omega)
  rcases planeLoop_spec w1 w2 (hm p2 (List.mem_of_getElem? hp2)) (seg vs (rb + 1) (re - 1))
    (fun v hv => hw v (segmem _ _ v hv)) with ⟨e, ha⟩ | ⟨A, p3, B, h, eAB, e, hA, hval, k, hk, hs⟩
  · rw [e]
    refine ⟨_, rfl, Or.inl ⟨rfl, rfl, ?_, ?_, rfl, ?_⟩⟩
    · simp only [hlen, seg_length h2]; omega
    · simp only [hlen]; omega
    · intro v hv
      rw [hall] at hv; simp at hv
      rcases hv with rfl | hv | rfl
      · exact l2
      · exact ha v hv
      · exact l1
  · rw [e]
    simp only [Option.bind_some]
    have lenAB : A.length + 1 + B.length = re - 1 - (rb + 1) := by rw [← hlen, eAB]; simp; omega
    set b1 := rb + 1 + (A.length + 1) with hb1
    have hb1e : b1 ≤ re - 1 := by omega
    rw [seg?_eq hb1e (by omega)]
    have hsplit : seg vs (rb + 1) (re - 1) = seg vs (rb + 1) b1 ++ seg vs b1 (re - 1) :=
      (seg_append (by omega) hb1e (by omega)).symm
    have hfrontlen : (seg vs (rb + 1) b1).length = A.length + 1 := by rw [seg_length (by omega)]; omega
    have hfr : seg vs (rb + 1) b1 = A ++ [p3] ∧ seg vs b1 (re - 1) = B := by
      have : A ++ [p3] ++ B = seg vs (rb + 1) b1 ++ seg vs b1 (re - 1) := by rw [← hsplit, eAB]; simp
      have := List.append_inj this (by simp [hfrontlen])
      exact ⟨this.1.symm, this.2.symm⟩
    have co : ∀ v ∈ vs, (h.isCoincident v = true ↔ h.side v.pt = 0) := fun v hv =>
      (C23_compare_homo h v (hw v hv)).2
    have s1 : h.side p1.pt = 0 := by rw [hs, orient_onLine l1, mul_zero]
    have s2 : h.side p2.pt = 0 := by rw [hs, orient_onLine l2, mul_zero]
    have s3 : h.side p3.pt = 0 := by
      rw [hs]; simp only [orient, dotQ, crossQ_zero, crossQ_one, crossQ_two]; ring
    have sA : ∀ v ∈ seg vs (rb + 1) b1, h.side v.pt = 0 := by
      rw [hfr.1]; intro v hv; simp at hv
      rcases hv with hv | rfl
      · rw [hs, orient_onLine (hA v hv), mul_zero]
      · exact s3
    have mem3 : p3 ∈ seg vs rb re := by rw [hall, eAB]; simp
    simp only [Option.bind_some]
    obtain ⟨t1, t2, t3⟩ := takeWhile_facts (p := h.isCoincident) (seg vs b1 (re - 1))
    set kk := ((seg vs b1 (re - 1)).takeWhile h.isCoincident).length with hkk
    have lr : (seg vs b1 (re - 1)).length = re - 1 - b1 := seg_length (by omega)
    rw [lr] at t1 t3
    have sk : ∀ v ∈ seg vs b1 (b1 + kk), h.side v.pt = 0 := by
      intro v hv
      obtain ⟨n, hn⟩ := List.mem_iff_getElem?.1 hv
      have hlt : n < kk := by
        by_contra hc
        rw [List.getElem?_eq_none (by rw [seg_length (by omega)]; omega)] at hn; simp at hn
      rw [seg_get (by omega)] at hn
      obtain ⟨x, hx, hx2⟩ := t2 n hlt
      rw [seg_get (by omega), hn] at hx
      simp only [Option.some.injEq] at hx; subst hx
      exact (co v (segmem _ _ v hv)).1 hx2
    have sfront : ∀ v ∈ seg vs rb (b1 + kk), h.side v.pt = 0 := by
      intro v hv
      rw [seg_cons hp2 (by omega) (by omega), ← seg_append (j := b1) (by omega) (by omega) (by omega)] at hv
      simp at hv
      rcases hv with rfl | hv | hv
      · exact s2
      · exact sA v hv
      · exact sk v hv
    by_cases hfull : b1 + kk = re - 1
    · rw [if_pos hfull]
      refine ⟨_, rfl, Or.inr ⟨hval, ⟨p3, mem3, k, hk, hs⟩, ?_, ?_, Or.inl ⟨rfl, hfull, rfl⟩⟩⟩
      · intro v hv
        have hsn := seg_snoc (i := rb) hp1 (by omega) (by omega)
        rw [show re - 1 + 1 = re by omega] at hsn
        simp only [hsn] at hv
        simp at hv
        rcases hv with hv | rfl
        · exact sfront v (by rw [hfull]; exact hv)
        · exact s1
      · simp only [seg_length h2]; omega
    · rw [if_neg hfull]
      have hlt : kk < re - 1 - b1 := by omega
      obtain ⟨u, hu, hu2⟩ := t3 hlt
      rw [seg_get (by omega)] at hu
      rw [seg?_eq (by omega) (by omega)]
      simp only [Option.bind_some]
      obtain ⟨r1, r2, r3⟩ := takeWhile_facts (p := h.isCoincident) (seg vs (b1 + kk) (re - 1)).reverse
      set jj := ((seg vs (b1 + kk) (re - 1)).reverse.takeWhile h.isCoincident).length with hjj
      have lr2 : (seg vs (b1 + kk) (re - 1)).length = re - 1 - (b1 + kk) := seg_length (by omega)
      have revget : ∀ n, n < re - 1 - (b1 + kk) → (seg vs (b1 + kk) (re - 1)).reverse[n]? = vs[re - 2 - n]? := by
        intro n hn
        rw [List.getElem?_reverse (by omega), lr2, seg_get (by omega)]
        congr 1; omega
      have hjlt : jj < re - 1 - (b1 + kk) := by
        simp only [List.length_reverse, lr2] at r1
        rcases Nat.lt_or_ge jj (re - 1 - (b1 + kk)) with hl | hg
        · exact hl
        · exfalso
          obtain ⟨x, hx, hx2⟩ := r2 (re - 2 - (b1 + kk)) (by omega)
          rw [revget _ (by omega), show re - 2 - (re - 2 - (b1 + kk)) = b1 + kk by omega, hu] at hx
          simp only [Option.some.injEq] at hx; subst hx
          rw [hu2] at hx2; simp at hx2
      rw [if_neg (by omega), seg?_eq (by omega) (by omega), seg?_eq (by omega) (by omega)]
      obtain ⟨v, hv, hv2⟩ := r3 (by simp only [List.length_reverse, lr2]; exact hjlt)
      rw [revget _ hjlt] at hv
      have sback : ∀ v ∈ seg vs (re - 1 - jj) re, h.side v.pt = 0 := by
        intro v hv
        have hsn := seg_snoc (i := re - 1 - jj) hp1 (by omega) (by omega)
        rw [show re - 1 + 1 = re by omega] at hsn
        rw [hsn] at hv; simp at hv
        rcases hv with hv | rfl
        · obtain ⟨n, hn⟩ := List.mem_iff_getElem?.1 hv
          have hlt : n < jj := by
            by_contra hc
            rw [List.getElem?_eq_none (by rw [seg_length (by omega)]; omega)] at hn; simp at hn
          rw [seg_get (by omega)] at hn
          obtain ⟨x, hx, hx2⟩ := r2 (jj - 1 - n) (by omega)
          rw [revget _ (by omega), show re - 2 - (jj - 1 - n) = re - 1 - jj + n by omega, hn] at hx
          simp only [Option.some.injEq] at hx; subst hx
          exact (co v (segmem _ _ v hv)).1 hx2
        · exact s1
      have nu : h.side u.pt ≠ 0 := fun hc => by
        rw [(co u (List.mem_of_getElem? hu)).2 hc] at hu2; simp at hu2
      have nv : h.side v.pt ≠ 0 := fun hc => by
        rw [(co v (List.mem_of_getElem? hv)).2 hc] at hv2; simp at hv2
      refine ⟨_, rfl, Or.inr ⟨hval, ⟨p3, mem3, k, hk, hs⟩, ?_, ?_, Or.inr ⟨b1 + kk, re - 1 - jj, u, v, by omega,
        by omega, by omega, rfl, rfl, rfl, hu, by rw [← hv]; congr 1; omega, nu, nv⟩⟩⟩
      · intro x hx
        simp only [List.mem_append] at hx
        rcases hx with hx | hx
        · exact sfront x hx
        · exact sback x hx
      · simp only [List.length_append, seg_length h2, seg_length (vs := vs) (i := rb) (j := b1 + kk) (by omega)]; omega

end Walnut.Mono
