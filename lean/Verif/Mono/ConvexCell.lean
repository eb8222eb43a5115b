/-
The polygon factory on the vertices of a strictly convex polygon: the range takes all vertices, and the decomposer
makes one piece of them.
-/
import Verif.Mono.Triangle
import Verif.Mono.DefinedProof
import Mathlib.Data.List.Rotate

namespace Walnut.Mono
open Walnut.Geom Walnut.Props

/-- Any three vertices turn in the direction of `s`. -/
def Turning (drop : Fin 3) (s : ℚ) (l : List HP3) : Prop := ∀ x y z, [x, y, z].Sublist l → 0 < s * T drop x y z

theorem T_rot (drop : Fin 3) (x y z : HP3) : T drop y z x = T drop x y z := by simp only [T, turnAt]; ring

theorem T_swap (drop : Fin 3) (x y z : HP3) : T drop y x z = -T drop x y z := by simp only [T, turnAt]; ring

theorem Turning.sub {drop : Fin 3} {s : ℚ} {l l' : List HP3} (h : Turning drop s l) (hs : l'.Sublist l) : Turning drop s l' :=
  fun x y z hx => h x y z (hx.trans hs)

theorem Turning.swap {drop : Fin 3} {s : ℚ} {l l' : List HP3} (h : Turning drop s (l ++ l')) : Turning drop s (l' ++ l) := by
  intro x y z hx
  obtain ⟨r1, r2, e, h1, h2⟩ := List.sublist_append_iff.1 hx
  have key := h2.append h1
  match r1, r2, e with
  | [], [_, _, _], e => cases e; exact h x y z (by simpa using key)
  | [_], [_, _], e => cases e; rw [← T_rot]; exact h y z x (by simpa using key)
  | [_, _], [_], e => cases e; rw [← T_rot, ← T_rot]; exact h z x y (by simpa using key)
  | [_, _, _], [], e => cases e; exact h x y z (by simpa using key)

theorem Turning.rotated {drop : Fin 3} {s : ℚ} {l l' : List HP3} (h : Turning drop s l) (hr : l ~r l') : Turning drop s l' := by
  obtain ⟨n, rfl⟩ := hr
  rcases Nat.eq_zero_or_pos l.length with h0 | h0
  · rw [List.length_eq_zero_iff] at h0; subst h0; simpa using h
  · rw [← List.rotate_mod, List.rotate_eq_drop_append_take (Nat.mod_lt _ h0).le]
    apply Turning.swap
    rwa [List.take_append_drop]

theorem Turning.reverse {drop : Fin 3} {s : ℚ} {l : List HP3} (h : Turning drop s l) : Turning drop (-s) l.reverse := by
  intro x y z hx
  have := h z y x (by simpa using hx.reverse)
  have e : T drop x y z = -T drop z y x := by rw [← T_swap, ← T_rot, ← T_rot]
  rw [e]; linarith

theorem Turning.scale {drop : Fin 3} {s s' : ℚ} {l : List HP3} (h : Turning drop s l) (hs : 0 < s') (hp : 0 < s) : Turning drop s' l := by
  intro x y z hx
  have := h x y z hx
  have : 0 < T drop x y z := by
    by_contra hc
    push Not at hc
    nlinarith
  positivity

/-! ### The range -/

theorem sublist_three {vs : List HP3} {i j k : Nat} {a b c : HP3} (ha : vs[i]? = some a) (hb : vs[j]? = some b) (hc : vs[k]? = some c) (h1 : i < j)
    (h2 : j < k) : [a, b, c].Sublist vs := by
  have hk : k < vs.length := by
    by_contra hh; rw [List.getElem?_eq_none (by omega)] at hc; cases hc
  have e : vs = seg vs 0 i ++ a :: (seg vs (i + 1) j ++ b :: (seg vs (j + 1) k ++ c :: seg vs (k + 1) vs.length)) := by
    rw [← seg_cons hc (by omega) le_rfl, seg_append (by omega) (by omega) le_rfl, ← seg_cons hb (by omega) le_rfl, seg_append (by omega) (by omega) le_rfl,
      ← seg_cons ha (by omega) le_rfl, seg_append (by omega) (by omega) le_rfl]
    simp [seg]
  rw [e]
  refine List.Sublist.trans ?_ (List.sublist_append_right _ _)
  refine List.Sublist.cons_cons _ (List.Sublist.trans ?_ (List.sublist_append_right _ _))
  refine List.Sublist.cons_cons _ (List.Sublist.trans ?_ (List.sublist_append_right _ _))
  exact List.Sublist.cons_cons _ (List.nil_sublist _)

/-- A point in the angle at `b`. -/
theorem cone {drop mono : Fin 3} (hm : mono ≠ drop) (a b c q : Q3) :
    turnAt drop a b c * (q mono - b mono) = (c mono - b mono) * turnAt drop a b q + (a mono - b mono) * turnAt drop b c q := by
  fin_cases drop <;> fin_cases mono <;> simp_all [turnAt] <;> ring

/-- A vertex that is strictly below the one before and not above the one after is strictly below all other ones. -/
theorem below {drop mono : Fin 3} (hm : mono ≠ drop) {s d : ℚ} {a b c q : Q3} (h1 : 0 < s * turnAt drop a b c) (h2 : 0 < s * turnAt drop a b q)
    (h3 : 0 < s * turnAt drop b c q) (ha : d * b mono < d * a mono) (hc : d * b mono ≤ d * c mono) : d * b mono < d * q mono := by
  have e := cone hm a b c q
  have e' : s * turnAt drop a b c * (d * q mono - d * b mono) = (d * c mono - d * b mono) * (s * turnAt drop a b q) + (d * a mono - d * b mono) * (s * turnAt drop b c q) := by
    linear_combination s * d * e
  have p1 : 0 ≤ (d * c mono - d * b mono) * (s * turnAt drop a b q) := mul_nonneg (by linarith) h2.le
  have p2 : 0 < (d * a mono - d * b mono) * (s * turnAt drop b c q) := mul_pos (by linarith) h3
  have : 0 < s * turnAt drop a b c * (d * q mono - d * b mono) := by rw [e']; linarith
  have := (pos_iff_pos_of_mul_pos this).1 h1
  linarith

/-- The range takes all vertices.  `x` is the lowest vertex and `y` the highest one. -/
theorem convex_range {drop mono : Fin 3} (hm : mono ≠ drop) {s : ℚ} {vs : List HP3} (hw : ∀ v ∈ vs, 0 < v.w) (hlen : 3 ≤ vs.length)
    (hc : Turning drop s vs) :
    ∃ r x P y Q, monotoneRange vs mono 0 vs.length = some r ∧ r.first = r.last ∧ r.chains = (x :: P ++ [y], x :: Q.reverse ++ [y]) ∧
      (x :: P ++ y :: Q) ~r vs ∧ ∀ v ∈ vs, v.pt mono ≤ y.pt mono := by
  have hw' : ∀ v ∈ vs, v.w ≠ 0 := fun v hv => by have := hw v hv; omega
  have get : ∀ i, i < vs.length → ∃ v, vs[i]? = some v := fun i hi => ⟨_, List.getElem?_eq_getElem hi⟩
  obtain ⟨r, hr, hcase⟩ := monotoneRange_spec mono hw' (show 0 < vs.length by omega) le_rfl
  rcases hcase with ⟨b3, b5, e6, e2, dir, hdir, hS⟩ | ⟨-, -, -, -, -, hflat⟩
  · have hstrict : ∀ i, b3 - 1 ≤ i → i < e2 → K vs mono dir (i + 1) < K vs mono dir i := by
      intro i
      induction i using Nat.strong_induction_on with
      | _ i ih =>
        intro h1 h2
        have i1 := hS.i1
        have i5 := hS.i5
        have top := hS.top
        by_contra hcon
        push Not at hcon
        have hb : b3 ≤ i := by
          by_contra hb
          have : i = b3 - 1 := by omega
          rw [this, show b3 - 1 + 1 = b3 by omega] at hcon
          exact absurd top.2 (not_lt.2 hcon)
        have hprev := ih (i - 1) (by omega) (by omega) (by omega)
        rw [show i - 1 + 1 = i by omega] at hprev
        have hnext : i + 1 < e2 := by
          by_contra hn
          have : e2 - 1 = i := by omega
          have hbot := hS.bot
          rw [this] at hbot
          rw [show i + 1 = e2 by omega] at hcon
          exact absurd hbot (not_lt.2 hcon)
        obtain ⟨a, ga⟩ := get (i - 1) (by omega)
        obtain ⟨b, gb⟩ := get i (by omega)
        obtain ⟨c, gc⟩ := get (i + 1) (by omega)
        obtain ⟨q, gq⟩ := get e2 (by omega)
        obtain ⟨q', gq'⟩ := get (e2 - 1) (by omega)
        have hbot := hS.bot
        rw [K_eq ga, K_eq gb] at hprev
        rw [K_eq gb, K_eq gc] at hcon
        have k1 : key mono dir b < key mono dir q :=
          below hm (s := s) (hc a b c (sublist_three ga gb gc (by omega) (by omega))) (hc a b q (sublist_three ga gb gq (by omega) (by omega)))
            (hc b c q (sublist_three gb gc gq (by omega) (by omega))) hprev hcon
        have k2 : key mono dir q < key mono dir b := by
          rw [K_eq gq, K_eq gq'] at hbot
          by_cases hlast : e2 + 1 < vs.length
          · obtain ⟨w, gw⟩ := get (e2 + 1) hlast
            have := hS.u1 e2 le_rfl hlast
            rw [K_eq gq, K_eq gw] at this
            refine below hm (s := s) (hc q' q w (sublist_three gq' gq gw (by omega) (by omega))) ?_ ?_ hbot this
            · have := hc b q' q (sublist_three gb gq' gq (by omega) (by omega))
              rwa [← T_rot] at this
            · have := hc b q w (sublist_three gb gq gw (by omega) (by omega))
              rwa [← T_rot] at this
          · obtain ⟨w, gw⟩ := get 0 (by omega)
            have := hS.u2
            rw [show vs.length - 1 = e2 by omega, K_eq gq, K_eq gw] at this
            refine below hm (s := s) ?_ ?_ ?_ hbot this
            · have := hc w q' q (sublist_three gw gq' gq (by omega) (by omega))
              rwa [← T_rot] at this
            · have := hc b q' q (sublist_three gb gq' gq (by omega) (by omega))
              rwa [← T_rot] at this
            · have := hc w b q (sublist_three gw gb gq (by omega) (by omega))
              rwa [← T_rot, ← T_rot] at this
        exact lt_asymm k1 k2
    have hb5 := hS.full hstrict
    have i1 := hS.i1
    have i3 := hS.i3
    have i4 := hS.i4
    have i5 := hS.i5
    have top := hS.top.1
    obtain rfl : e6 = e2 := by omega
    subst hb5
    obtain ⟨lo, glo⟩ := get b5 (by omega)
    obtain ⟨hi, ghi⟩ := get (b3 - 1) (by omega)
    obtain ⟨p1, p2⟩ := hS.chains le_rfl
    have eA : r.chain1 = lo :: (seg vs (b5 + 1) vs.length ++ seg vs 0 (b3 - 1)) ++ [hi] := by
      rw [hS.res]
      simp only
      rw [seg_cons glo (by omega) le_rfl]
      have := seg_snoc (i := 0) ghi (by omega) (by omega)
      rw [show b3 - 1 + 1 = b3 by omega] at this
      rw [this]
      simp
    have eB : r.chain2 = hi :: seg vs b3 b5 ++ [lo] := by
      rw [hS.res]
      simp only
      rw [seg_cons ghi (by omega) (by omega), seg_one glo, show b3 - 1 + 1 = b3 by omega]
    have eV : vs = seg vs 0 (b3 - 1) ++ hi :: (seg vs b3 b5 ++ lo :: seg vs (b5 + 1) vs.length) := by
      rw [← seg_cons glo (by omega) le_rfl, seg_append (by omega) (by omega) le_rfl]
      have := seg_cons ghi (by omega) (le_refl vs.length)
      rw [show b3 - 1 + 1 = b3 by omega] at this
      rw [← this, seg_append (by omega) (by omega) le_rfl]
      simp [seg]
    have hdirr : r.dir = dir := by rw [hS.res]
    have hfl : r.first = r.last := by rw [hS.res]; simp
    rw [eA] at p1
    rw [eB] at p2
    generalize seg vs (b5 + 1) vs.length = C at *
    generalize seg vs 0 (b3 - 1) = A at *
    generalize seg vs b3 b5 = B at *
    have hle : ∀ v ∈ vs, key mono dir lo ≤ key mono dir v ∧ key mono dir v ≤ key mono dir hi := by
      intro v hv
      simp only [List.cons_append, List.append_assoc, List.pairwise_cons, List.pairwise_append, List.mem_append, List.mem_cons, List.not_mem_nil, or_false] at p1 p2
      rw [eV] at hv
      simp only [List.mem_append, List.mem_cons] at hv
      have l1 := p1.1 hi (by simp)
      rcases hv with hv | rfl | hv | rfl | hv
      · exact ⟨p1.1 v (by simp [hv]), p1.2.2.1.2.2 v hv hi rfl⟩
      · exact ⟨l1, le_rfl⟩
      · exact ⟨p2.2.2.2 v hv lo rfl, p2.1 v (by simp [hv])⟩
      · exact ⟨le_rfl, l1⟩
      · exact ⟨p1.1 v (by simp [hv]), p1.2.2.2 v hv hi (by simp)⟩
    rcases hdir with rfl | rfl
    · refine ⟨r, lo, C ++ A, hi, B, hr, hfl, ?_, ?_, fun v hv => by simpa [key] using (hle v hv).2⟩
      · unfold MRange.chains
        rw [hdirr, if_pos (by decide), eA, eB]
        simp
      · rw [eV]
        have : lo :: (C ++ A) ++ hi :: B = (lo :: C) ++ (A ++ hi :: B) := by simp
        rw [this, show A ++ hi :: (B ++ lo :: C) = (A ++ hi :: B) ++ (lo :: C) by simp]
        exact List.isRotated_append
    · refine ⟨r, hi, B, lo, C ++ A, hr, hfl, ?_, ?_, fun v hv => by simpa [key] using (hle v hv).1⟩
      · unfold MRange.chains
        rw [hdirr, if_neg (by decide), eA, eB]
        simp
      · rw [eV]
        have : hi :: B ++ lo :: (C ++ A) = (hi :: B ++ lo :: C) ++ A := by simp
        rw [this, show A ++ hi :: (B ++ lo :: C) = A ++ (hi :: B ++ lo :: C) by simp]
        exact List.isRotated_append
  · exfalso
    obtain ⟨a, ga⟩ := get 0 (by omega)
    obtain ⟨b, gb⟩ := get 1 (by omega)
    obtain ⟨c, gc⟩ := get 2 (by omega)
    have h0 := hflat 0 le_rfl (by omega)
    have h1 := hflat 1 (by omega) (by omega)
    have h2 := hflat 2 (by omega) (by omega)
    rw [← h2, K_eq gc] at h0 h1
    rw [K_eq ga] at h0
    rw [K_eq gb] at h1
    simp only [key, Int.cast_one, one_mul] at h0 h1
    have := hc a b c (sublist_three ga gb gc (by omega) (by omega))
    rw [T, turnAt_flat hm (h0.trans h1.symm) h1, mul_zero] at this
    exact lt_irrefl _ this

end Walnut.Mono
