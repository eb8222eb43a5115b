/- The start events of the loop of `ApplyPrimary`, and the whole loop. -/
import Verif.Bsp.KdLoop

namespace Walnut.Bsp
open Walnut.Geom Walnut.Poly

section
variable {dim : Fin 3} {L : ℚ} {ref : PlaneRef} {anc : Anc} {polys : List BPoly} {xs : List EPoly} {ev : List EP} {s t : Nat → Nat} {loc : Nat → ℚ} {part : EPart}

/-- The events at the plane are those of the range. -/
structure PlaneRange (part : EPart) (n : Nat) (loc : Nat → ℚ) (L : ℚ) : Prop where
  range : ∀ j < 2 * n, (part.locBegin ≤ j ∧ j < part.locEnd ↔ loc j = L)
  bounds : part.locBegin < part.locEnd ∧ part.locEnd ≤ 2 * n

theorem PlaneRange.begin (h : PlaneRange part xs.length loc L) (hE : SortedEvents dim xs ev s t loc) {k : Nat} (hk : k < 2 * xs.length) : part.locBegin ≤ k ↔ L ≤ loc k := by
  have hb := h.bounds
  have e0 : loc part.locBegin = L := (h.range _ (by omega)).1 ⟨le_rfl, hb.1⟩
  constructor
  · intro hle; rw [← e0]; exact hE.sorted _ _ hle (by rw [hE.length]; exact hk)
  · intro hle
    by_contra hc
    have := hE.sorted k part.locBegin (by omega) (by rw [hE.length]; omega)
    have := ((h.range k hk).2 (by linarith)).1
    omega

theorem PlaneRange.stop (h : PlaneRange part xs.length loc L) (hE : SortedEvents dim xs ev s t loc) {k : Nat} (hk : k < 2 * xs.length) : k < part.locEnd ↔ loc k ≤ L := by
  have hb := h.bounds
  have e0 : loc (part.locEnd - 1) = L := (h.range _ (by omega)).1 ⟨by omega, by omega⟩
  constructor
  · intro hle; rw [← e0]; exact hE.sorted _ _ (by omega) (by rw [hE.length]; omega)
  · intro hle
    by_contra hc
    have := hE.sorted (part.locEnd - 1) k (by omega) (by rw [hE.length]; omega)
    have := ((h.range k hk).2 (by linarith)).2
    omega

theorem KdInv.room {extra i j : Nat} (hi : i = s j) (hj : j < polys.length) {js : List Nat} {A N A' P : List BPoly} {st : Prim}
    (hI : KdInv dim L ref polys ev s t extra i js A N A' P st) (hextra : extra = (List.range polys.length).countP fun j => divided dim L (polys.getD j emptyPoly))
    (hd : divided dim L (polys.getD j emptyPoly) = true) : st.usedExtra < extra := by
  have hnd : (js ++ [j]).Nodup := by
    rw [List.nodup_append]
    refine ⟨hI.nodup, by simp, fun a ha b hb hab => ?_⟩
    rw [List.mem_singleton] at hb
    subst hab
    subst hb
    have := ((hI.mem _).1 ha).2
    omega
  have hsub : (js ++ [j]).Subperm (List.range polys.length) := by
    refine List.subperm_of_subset hnd fun a ha => ?_
    rw [List.mem_range]
    rcases List.mem_append.1 ha with ha | ha
    · exact ((hI.mem a).1 ha).1
    · rw [List.mem_singleton] at ha; subst ha; exact hj
  have := hsub.countP_le (fun j => divided dim L (polys.getD j emptyPoly))
  rw [List.countP_append, ← hI.count, ← hextra, List.countP_singleton] at this
  simp only [hd, if_true] at this
  omega

theorem KdInv.started {i j : Nat} (hi : i = s j) (hx : xs.length = polys.length) (hE : SortedEvents dim xs ev s t loc) (hj : j < polys.length) {js : List Nat}
    (nodup : js.Nodup) (mem : ∀ j, j ∈ js ↔ j < polys.length ∧ s j < i) :
    (js ++ [j]).Nodup ∧ ∀ j', j' ∈ js ++ [j] ↔ j' < polys.length ∧ s j' < i + 1 := by
  constructor
  · rw [List.nodup_append]
    refine ⟨nodup, by simp, fun a ha b hb hab => ?_⟩
    rw [List.mem_singleton] at hb
    subst hab
    subst hb
    have := ((mem _).1 ha).2
    omega
  · intro j'
    rw [List.mem_append, List.mem_singleton, mem]
    constructor
    · rintro (⟨a, b⟩ | rfl)
      · exact ⟨a, by omega⟩
      · exact ⟨hj, by omega⟩
    · rintro ⟨a, b⟩
      by_cases e : s j' = i
      · exact Or.inr (hE.s_inj (by omega) (by omega) (e.trans hi))
      · exact Or.inl ⟨a, by omega⟩

theorem perm_snoc {α : Type} {l m : List α} (h : l.Perm m) (x : List α) : (l ++ x).Perm (m ++ x) := h.append_right x

theorem KdInv.onStart (hx : extents dim polys = some xs) (hE : SortedEvents dim xs ev s t loc) (hg : AxisPlane dim L ref.plane) (hc : ∀ p ∈ polys, ContentOK anc p)
    (hr : PlaneRange part xs.length loc L) {extra : Nat} (hextra : extra = (List.range polys.length).countP fun j => divided dim L (polys.getD j emptyPoly))
    {i j : Nat} (hj : j < polys.length) (hi : i = s j) {js : List Nat} {A N A' P : List BPoly} {st st' : Prim} (hI : KdInv dim L ref polys ev s t extra i js A N A' P st)
    (h : st.onStart dim ref part extra polys i (t j) = some st') : ∃ A1 N1 A2 N2, KdInv dim L ref polys ev s t extra (i + 1) (js ++ [j]) A1 N1 A2 N2 st' := by
  have hlen := extents_length hx
  have hj' : j < xs.length := by omega
  have hroom := hI.room hi hj hextra
  obtain ⟨nd, mm⟩ := KdInv.started hi hlen hE hj hI.nodup hI.mem
  obtain ⟨a1, a2, a3, a4, a5, a6, a7, a8, a9, a10, a11, a12, a13, a14⟩ := hI
  have hp : polys[j]? = some polys[j] := List.getElem?_eq_getElem hj
  set p := polys[j] with hpd
  have hD : polys.getD j emptyPoly = p := by simp [hp]
  have dfd : route true ref p ≠ none → ∀ j' ∈ js ++ [j], route true ref (polys.getD j' emptyPoly) ≠ none := by
    intro hr' j' hm
    rcases List.mem_append.1 hm with hm | hm
    · exact a14 j' hm
    · rw [List.mem_singleton.1 hm, hD]; exact hr'
  obtain ⟨x, x1, x2⟩ := extents_get hx hp
  obtain ⟨T, T1, -, T3, T4⟩ := extent_spec x2
  have hco := hc p (List.mem_of_getElem? hp)
  obtain ⟨_, sv, sl⟩ := hE.starts j x x1
  obtain ⟨b, tv, tl⟩ := hE.ends j x x1
  rw [T3, ← hi] at sl
  rw [T4] at tl
  have hst := hE.before j hj'
  have htl := hE.t_lt hj'
  obtain ⟨y, y1, y2, -, y4⟩ := a1 (t j) (by omega) _ tv
  have yj := y4 j (by omega) rfl (by omega)
  unfold Prim.onStart at h
  rw [y1] at h
  simp only [yj, hp, x2] at h
  split at h
  · cases h
  have bi := hr.begin hE (k := i) (by omega)
  have si := hr.stop hE (k := i) (by omega)
  have bt := hr.begin hE (k := t j) htl
  have stp := hr.stop hE (k := t j) htl
  rw [sl] at bi si
  rw [tl] at bt stp
  split at h
  · rename_i hb
    split at h
    · -- on the plane
      rename_i he
      obtain ⟨r1, r2⟩ := kd_on hg hco T1 (bi.1 hb) (stp.1 he)
      have hout : outAt ref polys j = if onPlanePos p ref.plane then ⟨[], [], [], [onPlane ref p]⟩ else ⟨[], [onPlane ref p], [], []⟩ := by
        unfold outAt outFor; rw [hD, r1]
      have hdv : divided dim L (polys.getD j emptyPoly) = false := by
        unfold divided; rw [hD, x2]; simp [T3, T4]; exact fun _ => stp.1 he
      unfold Prim.border at h
      simp only [r2] at h
      split at h
      · rename_i m ev1 _ e1
        cases h
        obtain ⟨z, z1, rfl⟩ := setIndex_spec e1
        rw [y1] at z1
        cases z1
        refine ⟨A, N, A', P, ?_, by simp only; omega, nd, mm, a5, a6, a7, a8, ?_, ?_, ?_, ?_, ?_, dfd (by rw [r1]; simp)⟩
        · rw [← hlen] at a1 ⊢
          refine Keeps.start hE hj' hi.symm a1 (fun k _ hne => set_get _ _ _ _ hne.symm) ⟨{ y with index := noIndex }, ?_, y2⟩
          simp only
          rw [List.getElem?_set, if_pos rfl, if_pos (List.getElem?_eq_some_iff.1 y1).1]
        · rw [List.countP_append, List.countP_singleton, hdv]; simpa using a9
        · rw [List.flatMap_append, List.flatMap_singleton, hout]
          split <;> simpa using a10
        · rw [List.flatMap_append, List.flatMap_singleton, hout]
          split <;> simpa using a11
        · rw [List.flatMap_append, List.flatMap_singleton, hout]
          by_cases ho : onPlanePos p ref.plane = true
          · simp only [ho, if_true, List.append_nil]; exact a12
          · have e : onPlane ref p = { p.setBoundary ⟨some ref, false⟩ 0 (p.poly.count + 1) with onNode := ⟨some ref, false⟩ } := by
              unfold onPlane; rw [Bool.not_eq_true] at ho; rw [ho]
            rw [Bool.not_eq_true] at ho
            simp only [ho, Bool.false_eq_true, if_false]
            rw [e]
            exact a12.append_right _
        · rw [List.flatMap_append, List.flatMap_singleton, hout]
          by_cases ho : onPlanePos p ref.plane = true
          · simp only [ho, if_true]
            have e : onPlane ref p = { p.setBoundary ⟨some ref, true⟩ 0 (p.poly.count + 1) with onNode := ⟨some ref, true⟩ } := by unfold onPlane; rw [ho]
            rw [e]
            exact a13.append_right _
          · rw [Bool.not_eq_true] at ho
            simp only [ho, Bool.false_eq_true, if_false, List.append_nil]; exact a13
      · cases h
    · -- positive
      rename_i he
      rw [stp] at he
      push Not at he
      unfold Prim.toPos at h
      simp only [T1] at h
      split at h
      · cases h
      rename_i q hq
      have r1 := kd_pos hg hco T1 (bi.1 hb) he (b := i < part.locEnd) (by rw [si]; have := bi.1 hb; exact ⟨fun hh => le_antisymm hh this, fun hh => hh.le⟩) hq
      have hout : outAt ref polys j = ⟨[], [], [q], []⟩ := by unfold outAt outFor; rw [hD, r1]
      have hdv : divided dim L (polys.getD j emptyPoly) = false := by
        unfold divided; rw [hD, x2]; simp [T3, T4]; exact fun hh => absurd hh (not_lt.2 (bi.1 hb))
      split at h
      · rename_i m ev1 _ e1
        obtain ⟨ev2, e2, rfl⟩ := Option.map_eq_some_iff.1 h
        obtain ⟨z, z1, rfl⟩ := setIndex_spec e1
        obtain ⟨_, rfl⟩ := putAt_spec e2
        rw [y1] at z1
        cases z1
        refine ⟨A, N, A', P ++ [q], ?_, by simp only; omega, nd, mm, a5, ?_, a7, a8, ?_, ?_, ?_, ?_, ?_, dfd (by rw [r1]; simp)⟩
        · rw [← hlen] at a1 ⊢
          refine Keeps.start hE hj' hi.symm a1 (fun k hk hne => ?_) ⟨{ y with index := st.posUsed + st.neg.length * 2 }, ?_, y2⟩
          · simp only
            rw [set_get _ _ _ _ (by omega), set_get _ _ _ _ hne.symm]
          · simp only
            rw [set_get _ _ _ _ (by omega), List.getElem?_set, if_pos rfl, if_pos (List.getElem?_eq_some_iff.1 y1).1]
        · simp only; rw [a6]; simp
        · rw [List.countP_append, List.countP_singleton, hdv]; simpa using a9
        · rw [List.flatMap_append, List.flatMap_singleton, hout]; simpa using a10
        · rw [List.flatMap_append, List.flatMap_singleton, hout, ← List.append_assoc]; exact a11.append_right _
        · rw [List.flatMap_append, List.flatMap_singleton, hout]; simpa using a12
        · rw [List.flatMap_append, List.flatMap_singleton, hout]; simpa using a13
      · cases h
  · rename_i hb
    rw [bi] at hb
    push Not at hb
    split at h
    · -- negative
      rename_i he
      unfold Prim.toNeg at h
      simp only [T1] at h
      split at h
      · cases h
      rename_i q hq
      have r1 := kd_neg hg hco T1 hb (stp.1 he) (b := part.locBegin ≤ t j) (by rw [bt]; have := stp.1 he; exact ⟨fun hh => le_antisymm this hh, fun hh => hh.ge⟩) hq
      have hout : outAt ref polys j = ⟨[q], [], [], []⟩ := by unfold outAt outFor; rw [hD, r1]
      have hdv : divided dim L (polys.getD j emptyPoly) = false := by
        unfold divided; rw [hD, x2]; simp [T3, T4]; exact fun _ => stp.1 he
      split at h
      · rename_i m ev1 ne _ e1 _
        cases h
        obtain ⟨z, z1, rfl⟩ := setIndex_spec e1
        rw [y1] at z1
        cases z1
        refine ⟨A, N ++ [q], A', P, ?_, by simp only; omega, nd, mm, ?_, a6, a7, a8, ?_, ?_, ?_, ?_, ?_, dfd (by rw [r1]; simp)⟩
        · rw [← hlen] at a1 ⊢
          refine Keeps.start hE hj' hi.symm a1 (fun k _ hne => set_get _ _ _ _ hne.symm) ⟨{ y with index := st.negUsed }, ?_, y2⟩
          simp only
          rw [List.getElem?_set, if_pos rfl, if_pos (List.getElem?_eq_some_iff.1 y1).1]
        · simp only; rw [a5]; simp
        · rw [List.countP_append, List.countP_singleton, hdv]; simpa using a9
        · rw [List.flatMap_append, List.flatMap_singleton, hout, ← List.append_assoc]; exact a10.append_right _
        · rw [List.flatMap_append, List.flatMap_singleton, hout]; simpa using a11
        · rw [List.flatMap_append, List.flatMap_singleton, hout]; simpa using a12
        · rw [List.flatMap_append, List.flatMap_singleton, hout]; simpa using a13
      · cases h
    · -- divided
      rename_i he
      unfold Prim.toBoth at h
      split at h
      · cases h
      rename_i sp hs
      split at h
      · cases h
      rename_i hem
      split at h
      · cases h
      rename_i c hch
      split at h
      · cases h
      rename_i c' hcb
      have r1 := kd_both hco hs (by simp at hem; exact hem.1) (by simp at hem; exact hem.2) hch hcb
      have hout : outAt ref polys j = ⟨[c'.1], [], [c'.2], []⟩ := by unfold outAt outFor; rw [hD, r1]
      have hdv : divided dim L (polys.getD j emptyPoly) = true := by
        unfold divided; rw [hD, x2]; simp [T3, T4]; exact ⟨hb, not_le.1 fun hh => he (stp.2 hh)⟩
      have hlt := hroom hdv
      split at h
      · rename_i neg1 pos1 m1 en ep _
        split at h
        · cases h
        simp only at h
        split at h
        · cases h
        split at h
        · cases h
        split at h
        · rename_i ne2 ev1 _ e1
          obtain ⟨ev2, e2, rfl⟩ := Option.map_eq_some_iff.1 h
          obtain ⟨z, z1, rfl⟩ := setIndex_spec e1
          obtain ⟨_, rfl⟩ := putAt_spec e2
          obtain ⟨_, rfl⟩ := putAt_spec en
          obtain ⟨_, rfl⟩ := putAt_spec ep
          rw [y1] at z1
          cases z1
          refine ⟨A ++ [c'.1], N, A' ++ [c'.2], P, ?_, by simp only; omega, nd, mm, ?_, ?_, by simp [a7], by simp [a8], ?_, ?_, ?_, ?_, ?_, dfd (by rw [r1]; simp)⟩
          · rw [← hlen] at a1 ⊢
            refine Keeps.start hE hj' hi.symm a1 (fun k hk hne => ?_) ⟨{ y with index := st.posUsed + part.neg * 2 }, ?_, y2⟩
            · simp only
              rw [set_get _ _ _ _ (by omega), set_get _ _ _ _ hne.symm]
            · simp only
              rw [set_get _ _ _ _ (by omega), List.getElem?_set, if_pos rfl, if_pos (List.getElem?_eq_some_iff.1 y1).1]
          · simp only
            rw [a5, ← a7, set_next (by omega)]
          · simp only
            rw [a6, ← a8, set_next (by omega)]
          · rw [List.countP_append, List.countP_singleton, hdv]; simp only [if_true]; rw [← a9]
          · rw [List.flatMap_append, List.flatMap_singleton, hout]
            refine List.Perm.trans ?_ (a10.append_right [c'.1])
            rw [List.append_assoc, List.append_assoc]
            exact List.perm_append_comm.append_left _
          · rw [List.flatMap_append, List.flatMap_singleton, hout]
            refine List.Perm.trans ?_ (a11.append_right [c'.2])
            rw [List.append_assoc, List.append_assoc]
            exact List.perm_append_comm.append_left _
          · rw [List.flatMap_append, List.flatMap_singleton, hout]; simpa using a12
          · rw [List.flatMap_append, List.flatMap_singleton, hout]; simpa using a13
        · cases h
      · cases h

theorem KdInv.step (hx : extents dim polys = some xs) (hE : SortedEvents dim xs ev s t loc) (hg : AxisPlane dim L ref.plane) (hc : ∀ p ∈ polys, ContentOK anc p)
    (hr : PlaneRange part xs.length loc L) {extra : Nat} (hextra : extra = (List.range polys.length).countP fun j => divided dim L (polys.getD j emptyPoly))
    {i : Nat} (hi : i < polys.length * 2) {js : List Nat} {A N A' P : List BPoly} {st st' : Prim} (hI : KdInv dim L ref polys ev s t extra i js A N A' P st)
    (h : st.step dim ref part extra polys i = some st') : ∃ js A1 N1 A2 N2, KdInv dim L ref polys ev s t extra (i + 1) js A1 N1 A2 N2 st' := by
  have hlen := extents_length hx
  unfold Prim.step at h
  split at h
  · cases h
  rename_i e he
  split at h
  · cases h
  rename_i st1 h1
  have hI1 := hI.location h1
  obtain ⟨j, hj, hk⟩ := hE.all i (by rw [hE.length]; omega)
  obtain ⟨p, hp⟩ := SortedEvents.poly hj
  rcases hk with hk | hk
  · obtain ⟨b, e1, -⟩ := hE.starts j p hp
    rw [← hk] at e1
    obtain ⟨e', k1, k2, k3, -⟩ := hI.keep i le_rfl _ e1
    rw [he] at k1
    cases k1
    rw [if_pos k2, k3 rfl] at h
    exact ⟨_, KdInv.onStart hx hE hg hc hr hextra (by omega) hk hI1 h⟩
  · obtain ⟨b, e1, -⟩ := hE.ends j p hp
    rw [← hk] at e1
    obtain ⟨e', k1, k2, -, -⟩ := hI.keep i le_rfl _ e1
    rw [he] at k1
    cases k1
    rw [if_neg (by rw [k2]; simp)] at h
    exact ⟨js, A, N, A', P, hI1.onEnd hlen hE hj hk h⟩

theorem KdInv.loop (hx : extents dim polys = some xs) (hE : SortedEvents dim xs ev s t loc) (hg : AxisPlane dim L ref.plane) (hc : ∀ p ∈ polys, ContentOK anc p)
    (hr : PlaneRange part xs.length loc L) {extra : Nat} (hextra : extra = (List.range polys.length).countP fun j => divided dim L (polys.getD j emptyPoly))
    {st0 : Prim} (h0 : KdInv dim L ref polys ev s t extra 0 [] [] [] [] [] st0) : ∀ n, n ≤ polys.length * 2 → ∀ st, (List.range n).foldlM (Prim.step dim ref part extra polys) st0 = some st →
      ∃ js A N A' P, KdInv dim L ref polys ev s t extra n js A N A' P st := by
  intro n
  induction n with
  | zero => intro _ st h; cases h; exact ⟨_, _, _, _, _, h0⟩
  | succ n ih =>
    intro hn st h
    rw [List.range_succ, List.foldlM_append] at h
    obtain ⟨st1, h1, h2⟩ := Option.bind_eq_some_iff.1 h
    obtain ⟨js, A, N, A', P, hI⟩ := ih (by omega) st1 h1
    rw [List.foldlM_cons] at h2
    obtain ⟨st2, h2, h3⟩ := Option.bind_eq_some_iff.1 h2
    cases h3
    exact hI.step hx hE hg hc hr hextra (by omega) h2

theorem flatMap_getD {α : Type} (f : BPoly → List α) (l : List BPoly) : ((List.range l.length).flatMap fun j => f (l.getD j emptyPoly)) = l.flatMap f := by
  have : l = (List.range l.length).map fun j => l.getD j emptyPoly := by
    apply List.ext_getElem (by simp)
    intro i h1 h2
    simp [h1]
  conv_rhs => rw [this]
  rw [List.flatMap_map]

theorem countP_getD (f : BPoly → Bool) (l : List BPoly) : ((List.range l.length).countP fun j => f (l.getD j emptyPoly)) = l.countP f := by
  have : l = (List.range l.length).map fun j => l.getD j emptyPoly := by
    apply List.ext_getElem (by simp)
    intro i h1 h2
    simp [h1]
  conv_rhs => rw [this]
  rw [List.countP_map]
  rfl

/-- The polygons that the loop moves to the children. -/
theorem loop_spec (hx : extents dim polys = some xs) (hE : SortedEvents dim xs ev s t loc) (hg : AxisPlane dim L ref.plane) (hc : ∀ p ∈ polys, ContentOK anc p)
    (hr : PlaneRange part xs.length loc L) {extra : Nat} (hextra : extra = polys.countP (divided dim L)) {mem : List EP} {map : List Nat} {st : Prim}
    (h : (List.range (polys.length * 2)).foldlM (Prim.step dim ref part extra polys)
      ⟨ev, mem, map, List.replicate extra emptyPoly, List.replicate extra emptyPoly, [], [], 0, 0, 0, true, true⟩ = some st) :
    st.neg.Perm (polys.flatMap fun p => (outFor ref p).cn) ∧ st.pos.Perm (polys.flatMap fun p => (outFor ref p).cp) ∧
    st.negBorder.Perm (polys.flatMap fun p => (outFor ref p).bn) ∧ st.posBorder.Perm (polys.flatMap fun p => (outFor ref p).bp) ∧
    ∀ p ∈ polys, route true ref p ≠ none := by
  have hlen := extents_length hx
  rw [← countP_getD] at hextra
  have h0 : KdInv dim L ref polys ev s t extra 0 [] [] [] [] []
      ⟨ev, mem, map, List.replicate extra emptyPoly, List.replicate extra emptyPoly, [], [], 0, 0, 0, true, true⟩ :=
    ⟨by rw [← hlen]; exact Keeps.initial hE, le_rfl, by simp, by simp, by simp, by simp, rfl, rfl, rfl, by simp, by simp, by simp, by simp, by simp⟩
  obtain ⟨js, A, N, A', P, hI⟩ := KdInv.loop hx hE hg hc hr hextra h0 _ le_rfl st h
  have hjs : js.Perm (List.range polys.length) := by
    rw [List.perm_ext_iff_of_nodup hI.nodup List.nodup_range]
    intro j
    rw [hI.mem, List.mem_range]
    constructor
    · exact fun h => h.1
    · intro hj
      have h1 := hE.before j (by omega)
      have h2 := hE.t_lt (i := j) (by omega)
      exact ⟨hj, by omega⟩
  have hu : st.usedExtra = extra := by rw [hI.count, hjs.countP_eq, ← hextra]
  have e1 := hI.neg
  have e2 := hI.pos
  rw [hu, Nat.sub_self, List.replicate_zero, List.append_nil] at e1 e2
  refine ⟨?_, ?_, ?_, ?_, ?_⟩
  · rw [e1, ← flatMap_getD]; exact hI.cn.trans (hjs.flatMap_right _)
  · rw [e2, ← flatMap_getD]; exact hI.cp.trans (hjs.flatMap_right _)
  · rw [← flatMap_getD]; exact hI.bn.trans (hjs.flatMap_right _)
  · rw [← flatMap_getD]; exact hI.bp.trans (hjs.flatMap_right _)
  · intro p hp
    obtain ⟨j, hj, rfl⟩ := List.getElem_of_mem hp
    have := hI.routes j (hjs.mem_iff.2 (List.mem_range.2 hj))
    simpa [hj] using this

end

end Walnut.Bsp
