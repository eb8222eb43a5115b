/-
C50 (which chain is on top).

The statements are about `detect` and `orientBuild`, the models of `DetectOrientation` and `Build` of
`OrientingMonotoneDecomposer`.  The chains are `m :: l1 ++ [z]` and `m :: l2 ++ [z]`: both run from
the minimum `m` to the maximum `z`.  `detect` returns `some none` for "all collinear",
`some (some true)` for "chain 1 is the top chain", `some (some false)` for "chain 2 is the top chain"
and `none` if an assertion fails.
-/
import Verif.Mono.DetectProof
import Verif.Props.Monotone

namespace Walnut.Props
open Walnut.Geom Walnut.Mono

/-- All vertices are on one line in the projection. -/
def AllCollinear (drop : Fin 3) (l : List Q3) : Prop :=
  ∀ u ∈ l, ∀ v ∈ l, ∀ w ∈ l, turnAt drop u v w = 0

/-- Points with the same projection are the same point, as it is for points of a plane that is not
perpendicular to the plane of the projection. -/
def Faithful (drop : Fin 3) (l : List Q3) : Prop :=
  ∀ u ∈ l, ∀ v ∈ l, u (drop + 1) = v (drop + 1) → u (drop + 2) = v (drop + 2) → u = v

/-- `a` is the first vertex of the chain different from `m`. -/
def FirstOther (m a : Q3) (l : List Q3) : Prop :=
  ∃ pre post, l = pre ++ a :: post ∧ (∀ v ∈ pre, v = m) ∧ a ≠ m

theorem firstOther_unique {m a b : Q3} {l : List Q3} (h1 : FirstOther m a l) (h2 : FirstOther m b l) : a = b := by
  obtain ⟨p, q, e1, h3, h4⟩ := h1
  obtain ⟨p', q', e2, h5, h6⟩ := h2
  induction p generalizing p' l with
  | nil =>
    cases p' with
    | nil => rw [e1] at e2; simp at e2; exact e2.1
    | cons x p' => rw [e1] at e2; simp at e2; exact absurd (h5 a (by rw [e2.1]; simp)) h4
  | cons x p ih =>
    cases p' with
    | nil => rw [e1] at e2; simp at e2; exact absurd (h3 b (by rw [e2.1]; simp)) h6
    | cons x' p' =>
      rw [e1] at e2; simp at e2
      exact ih (l := p ++ a :: q) rfl (fun v hv => h3 v (by simp [hv])) p' e2.2 (fun v hv => h5 v (by simp [hv]))

theorem cons_snoc (l : List HP3) (z : HP3) : ∃ a r, l ++ [z] = a :: r := by
  cases l with
  | nil => exact ⟨z, [], rfl⟩
  | cons a l => exact ⟨a, l ++ [z], rfl⟩

/-- The vertices of both chains. -/
abbrev both (m z : HP3) (l1 l2 : List HP3) : List HP3 := m :: l1 ++ l2 ++ [z]

/-- C50: "all collinear" is only answered for collinear vertices, and if one of the other two answers is
given, they are not collinear. -/
theorem C50_collinear (drop mono : Fin 3) (m z : HP3) (l1 l2 : List HP3) (hne : mono ≠ drop)
    (hT : Tame drop (both m z l1 l2)) (hF : Faithful drop ((both m z l1 l2).map (·.pt)))
    (h1 : Ascending mono ((m :: l1 ++ [z]).map (·.pt))) (h2 : Ascending mono ((m :: l2 ++ [z]).map (·.pt)))
    (r : Option Bool) (hr : detect drop mono (m :: l1 ++ [z]) (m :: l2 ++ [z]) = some r) :
    r = none ↔ AllCollinear drop ((both m z l1 l2).map (·.pt)) := by
  obtain ⟨a0, r1, e1⟩ := cons_snoc l1 z
  obtain ⟨b0, r2, e2⟩ := cons_snoc l2 z
  have hm : m ∈ both m z l1 l2 := by simp
  have m1 : ∀ v ∈ a0 :: r1, v ∈ both m z l1 l2 := by rw [← e1]; intro v hv; simp at hv ⊢; tauto
  have m2 : ∀ v ∈ b0 :: r2, v ∈ both m z l1 l2 := by rw [← e2]; intro v hv; simp at hv ⊢; tauto
  have cover : ∀ v ∈ both m z l1 l2, v = m ∨ v ∈ a0 :: r1 ∨ v ∈ b0 :: r2 := by
    rw [← e1, ← e2]; intro v hv; simp at hv ⊢; tauto
  rw [List.cons_append, List.cons_append, e1, e2] at hr
  have mem_pt : ∀ v ∈ both m z l1 l2, v.pt ∈ (both m z l1 l2).map (·.pt) := fun v hv => List.mem_map_of_mem hv
  rcases detect_cases (mono := mono) hT hm m1 m2 with ⟨k1, k2⟩ | ⟨k1, k2⟩ | ⟨p1, a, s1, p2, b, s2, q1, q2, q3, q4, q5, q6, hd⟩
  · rw [k1] at hr; simp only [Option.some.injEq] at hr
    refine ⟨fun _ => ?_, fun _ => hr.symm⟩
    -- the maximum is the minimum
    have hz : z.pt = m.pt := k2 z (by rw [← e1]; simp)
    have hv : ∀ v ∈ both m z l1 l2, v.pt mono = m.pt mono := by
      intro v hv
      rcases cover v hv with rfl | hv | hv
      · rfl
      · rw [k2 v hv]
      · rw [← e2] at hv
        have hp := pairwise_pt h2
        rcases List.mem_append.1 hv with hv | hv
        · have c1 := List.rel_of_pairwise_cons (by rwa [List.cons_append] at hp) (show v ∈ l2 ++ [z] by simp [hv])
          have c2 := (List.pairwise_append.1 hp).2.2 v (by simp [hv]) z (by simp)
          rw [hz] at c2
          exact le_antisymm c2 c1
        · simp at hv; rw [hv, hz]
    intro u hu v hv' w hw
    simp only [List.mem_map] at hu hv' hw
    obtain ⟨u, hu, rfl⟩ := hu
    obtain ⟨v, hv', rfl⟩ := hv'
    obtain ⟨w, hw, rfl⟩ := hw
    have c1 := hv u hu
    have c2 := hv v hv'
    have c3 := hv w hw
    rcases ne_drop hne with e | e <;> rw [e] at c1 c2 c3 <;> simp only [turnAt] <;> rw [c1, c2, c3] <;> ring
  · rw [k1] at hr; simp at hr
  · have ha : a ∈ both m z l1 l2 := m1 a (by rw [q1]; simp)
    have hb : b ∈ both m z l1 l2 := m2 b (by rw [q2]; simp)
    rcases hd with ⟨ht, hd⟩ | ⟨ht, hd⟩
    · rw [hd] at hr; simp only [Option.some.injEq] at hr
      rw [← hr]
      refine ⟨fun h => by simp at h, fun h => absurd (h _ (mem_pt m hm) _ (mem_pt a ha) _ (mem_pt b hb)) ht⟩
    · have hs := loop_spec (mono := mono) hT hm ha _ (a :: s1) (b :: s2) le_rfl
        (fun v hv => m1 v (by rw [q1]; simp at hv ⊢; tauto)) (fun v hv => m2 v (by rw [q2]; simp at hv ⊢; tauto))
      rw [hd] at hr
      cases r with
      | some f =>
        refine ⟨fun h => by simp at h, fun h => ?_⟩
        obtain ⟨v, hv, hq⟩ := hs.2 f hr
        refine absurd (h _ (mem_pt m hm) _ (mem_pt a ha) _ (mem_pt v ?_)) hq
        rcases List.mem_append.1 hv with hv | hv
        · exact m1 v (by rw [q1]; simp at hv ⊢; tauto)
        · exact m2 v (by rw [q2]; simp at hv ⊢; tauto)
      | none =>
        refine ⟨fun _ => ?_, fun _ => rfl⟩
        obtain ⟨j1, j2⟩ := hs.1 hr
        have flat : ∀ v ∈ a0 :: r1, T drop m a v = 0 := by
          intro v hv
          rw [q1] at hv
          rcases List.mem_append.1 hv with hv | hv
          · show turnAt _ _ _ _ = 0; rw [q3 v hv]; exact turn_same_right _ _ _
          · exact j1 v hv
        have hzf : T drop m a z = 0 := flat z (by rw [← e1]; simp)
        have flat2 : ∀ v ∈ b0 :: r2, T drop m a v = 0 := by
          intro v hv
          rw [q2] at hv
          rcases List.mem_append.1 hv with hv | hv
          · show turnAt _ _ _ _ = 0; rw [q4 v hv]; exact turn_same_right _ _ _
          · -- the last one is the maximum
            have hl : (b :: s2).getLast? = some z := by
              have : (l2 ++ [z]).getLast? = some z := by rw [List.getLast?_append]; rfl
              rw [e2, q2, List.getLast?_append] at this
              cases hg : (b :: s2).getLast? with
              | none => simp at hg
              | some y => rw [hg] at this; simpa using this
            obtain ⟨L, hL⟩ := List.getLast?_eq_some_iff.1 hl
            rw [hL] at hv j2
            rw [List.dropLast_concat] at j2
            rcases List.mem_append.1 hv with hv | hv
            · exact j2 v hv
            · simp at hv; rw [hv]; exact hzf
        have flat3 : ∀ v ∈ both m z l1 l2, T drop m a v = 0 := by
          intro v hv
          rcases cover v hv with rfl | hv | hv
          · exact turn_same_right _ _ _
          · exact flat v hv
          · exact flat2 v hv
        have hap : m.pt (drop + 1) ≠ a.pt (drop + 1) ∨ m.pt (drop + 2) ≠ a.pt (drop + 2) := by
          by_contra hc
          push Not at hc
          exact q5 (hF _ (mem_pt a ha) _ (mem_pt m hm) hc.1.symm hc.2.symm)
        intro u hu v hv w hw
        simp only [List.mem_map] at hu hv hw
        obtain ⟨u, hu, rfl⟩ := hu
        obtain ⟨v, hv, rfl⟩ := hv
        obtain ⟨w, hw, rfl⟩ := hw
        have t1 := flat_trans hap (flat3 u hu) (flat3 v hv)
        have t2 := flat_trans hap (flat3 v hv) (flat3 w hw)
        have t3 := flat_trans hap (flat3 w hw) (flat3 u hu)
        have : turnAt drop u.pt v.pt w.pt = turnAt drop m.pt u.pt v.pt + turnAt drop m.pt v.pt w.pt +
            turnAt drop m.pt w.pt u.pt := by simp only [turnAt]; ring
        rw [this, t1, t2, t3]; norm_num

/-- C50: no assertion fails if the maximum is beyond the minimum and beyond all other vertices of the
second chain.  (See `C50_assert_false`.) -/
theorem C50_defined (drop mono : Fin 3) (m z : HP3) (l1 l2 : List HP3)
    (hT : Tame drop (both m z l1 l2)) (h1 : Ascending mono ((m :: l1 ++ [z]).map (·.pt)))
    (h2 : ∀ v ∈ m :: l2, v.pt mono < z.pt mono) :
    ∃ r, detect drop mono (m :: l1 ++ [z]) (m :: l2 ++ [z]) = some r := by
  obtain ⟨a0, r1, e1⟩ := cons_snoc l1 z
  obtain ⟨b0, r2, e2⟩ := cons_snoc l2 z
  have hm : m ∈ both m z l1 l2 := by simp
  have m1 : ∀ v ∈ a0 :: r1, v ∈ both m z l1 l2 := by rw [← e1]; intro v hv; simp at hv ⊢; tauto
  have m2 : ∀ v ∈ b0 :: r2, v ∈ both m z l1 l2 := by rw [← e2]; intro v hv; simp at hv ⊢; tauto
  have h1' : ∀ v ∈ a0 :: r1, v.pt mono ≤ z.pt mono := by
    rw [← e1]; intro v hv
    have hp := pairwise_pt h1
    rcases List.mem_append.1 hv with hv | hv
    · exact (List.pairwise_append.1 hp).2.2 v (by simp [hv]) z (by simp)
    · simp at hv; rw [hv]
  rw [List.cons_append, List.cons_append, e1, e2]
  rcases detect_cases (mono := mono) hT hm m1 m2 with ⟨k1, k2⟩ | ⟨k1, k2⟩ | ⟨p1, a, s1, p2, b, s2, q1, q2, q3, q4, q5, q6, hd⟩
  · exact ⟨_, k1⟩
  · have := k2 z (by rw [← e2]; simp)
    have h3 := h2 m (by simp)
    rw [this] at h3; exact absurd h3 (lt_irrefl _)
  · rcases hd with ⟨ht, hd⟩ | ⟨ht, hd⟩
    · exact ⟨_, hd⟩
    · rw [hd]
      have hl : (b :: s2).getLast? = some z := by
        have : (l2 ++ [z]).getLast? = some z := by rw [List.getLast?_append]; rfl
        rw [e2, q2, List.getLast?_append] at this
        cases hg : (b :: s2).getLast? with
        | none => simp at hg
        | some y => rw [hg] at this; simpa using this
      have hl1 : (a :: s1).getLast? = some z := by
        have : (l1 ++ [z]).getLast? = some z := by rw [List.getLast?_append]; rfl
        rw [e1, q1, List.getLast?_append] at this
        cases hg : (a :: s1).getLast? with
        | none => simp at hg
        | some y => rw [hg] at this; simpa using this
      obtain ⟨L, hL⟩ := List.getLast?_eq_some_iff.1 hl
      have hsub : ∀ v ∈ L, v ∈ l2 := by
        have : l2 = p2 ++ L := by
          have := e2.trans q2
          rw [hL, ← List.append_assoc] at this
          exact (List.append_left_injective [z] this)
        intro v hv; rw [this]; simp [hv]
      rw [hL]
      refine loop_defined hT _ (a :: s1) L le_rfl (fun v hv => m1 v (by rw [q1]; simp at hv ⊢; tauto))
        (fun v hv => by have := hsub v hv; simp; tauto) (by simp) (fun v hv => h1' v (by rw [q1]; simp at hv ⊢; tauto))
        (by simp) ?_ (fun v hv => h2 v (by have := hsub v hv; simp; tauto))
      intro v hv
      rw [hl1] at hv; simp at hv; rw [hv]

/-- C50, which chain is on top: for a monotone polygon whose chains do not cross, the answer is right if
the minimum and the first other vertex of each chain are not collinear.  `chain1IsTop` says which of the
chains is the upper one.  Missing: chains that start with collinear vertices, for which the answer can be
wrong (`C50_overlap_false`, `C50_vertical_false`). -/
theorem C50_detect_partial (drop mono : Fin 3) (m z : HP3) (l1 l2 : List HP3) (a b : Q3) (chain1IsTop : Bool)
    (hT : Tame drop (both m z l1 l2))
    (h1 : Ascending mono ((m :: l1 ++ [z]).map (·.pt))) (h2 : Ascending mono ((m :: l2 ++ [z]).map (·.pt)))
    (ha : FirstOther m.pt a ((m :: l1 ++ [z]).map (·.pt))) (hb : FirstOther m.pt b ((m :: l2 ++ [z]).map (·.pt)))
    (hab : turnAt drop m.pt a b ≠ 0)
    (hn : if chain1IsTop then NonCrossing drop mono ((m :: l1 ++ [z]).map (·.pt)) ((m :: l2 ++ [z]).map (·.pt))
      else NonCrossing drop mono ((m :: l2 ++ [z]).map (·.pt)) ((m :: l1 ++ [z]).map (·.pt))) :
    detect drop mono (m :: l1 ++ [z]) (m :: l2 ++ [z]) = some (some chain1IsTop) := by
  obtain ⟨a0, r1, e1⟩ := cons_snoc l1 z
  obtain ⟨b0, r2, e2⟩ := cons_snoc l2 z
  have hm : m ∈ both m z l1 l2 := by simp
  have m1 : ∀ v ∈ a0 :: r1, v ∈ both m z l1 l2 := by rw [← e1]; intro v hv; simp at hv ⊢; tauto
  have m2 : ∀ v ∈ b0 :: r2, v ∈ both m z l1 l2 := by rw [← e2]; intro v hv; simp at hv ⊢; tauto
  have some_other : ∀ {l : List HP3} {c : Q3}, FirstOther m.pt c (l.map (·.pt)) → ¬ ∀ v ∈ l, v.pt = m.pt := by
    rintro l c ⟨p, q, e, -, hc⟩ hall
    have hcm : c ∈ l.map (·.pt) := by rw [e]; simp
    simp only [List.mem_map] at hcm
    obtain ⟨v, hv, rfl⟩ := hcm
    exact hc (hall v hv)
  -- the edge from the minimum to the first other vertex
  have edge : ∀ {l : List Q3} {c : Q3}, FirstOther m.pt c (m.pt :: l) → [m.pt, c] <:+: m.pt :: l := by
    rintro l c ⟨p, q, e, hp, hc⟩
    have hpn : p ≠ [] := by
      rintro rfl
      simp at e; exact hc e.1.symm
    obtain ⟨p', y, rfl⟩ := (List.eq_nil_or_concat p).resolve_left hpn
    have hy : y = m.pt := hp y (by simp)
    exact ⟨p', q, by rw [e, hy]; simp⟩
  have asc : ∀ {l : List HP3} {c : Q3}, Ascending mono ((m :: l).map (·.pt)) → c ∈ (m :: l).map (·.pt) →
      m.pt mono ≤ c mono := by
    intro l c hp hc
    rw [List.map_cons] at hp hc
    rcases List.mem_cons.1 hc with rfl | hc
    · exact le_rfl
    · exact List.rel_of_pairwise_cons hp hc
  have hae := edge (l := (l1 ++ [z]).map (·.pt)) (by simpa using ha)
  have hbe := edge (l := (l2 ++ [z]).map (·.pt)) (by simpa using hb)
  rw [← List.map_cons (f := fun x : HP3 => x.pt) (a := m), ← List.cons_append] at hae hbe
  have ham : a ∈ (m :: l1 ++ [z]).map (·.pt) := by obtain ⟨p, q, e, -⟩ := ha; rw [e]; simp
  have hbm : b ∈ (m :: l2 ++ [z]).map (·.pt) := by obtain ⟨p, q, e, -⟩ := hb; rw [e]; simp
  have pos1 := asc h1 ham
  have pos2 := asc h2 hbm
  have side : decide (turnAt drop m.pt a b < 0) = chain1IsTop := by
    have s1 : turnAt drop a m.pt b = -turnAt drop m.pt a b := turnAt_swap _ _ _ _
    have s2 : turnAt drop b m.pt a = turnAt drop m.pt a b := by
      simp only [turnAt]; ring
    cases chain1IsTop with
    | true =>
      simp only [if_true] at hn
      have : turnAt drop m.pt a b ≤ 0 := by
        rcases le_total (a mono) (b mono) with hc | hc
        · have := hn.above _ _ hbe a ham pos1 hc; linarith
        · have := hn.below _ _ hae b hbm pos2 hc; linarith
      exact decide_eq_true (lt_of_le_of_ne this hab)
    | false =>
      simp only [Bool.false_eq_true, if_false] at hn
      have : 0 ≤ turnAt drop m.pt a b := by
        rcases le_total (a mono) (b mono) with hc | hc
        · have := hn.below _ _ hbe a ham pos1 hc; linarith
        · have := hn.above _ _ hae b hbm pos2 hc; linarith
      exact decide_eq_false (not_lt.2 this)
  rw [List.cons_append, List.cons_append, e1, e2]
  rw [List.cons_append, e1] at ha
  rw [List.cons_append, e2] at hb
  rcases detect_cases (mono := mono) hT hm m1 m2 with ⟨k1, k2⟩ | ⟨k1, k2⟩ | ⟨p1, a', s1, p2, b', s2, q1, q2, q3, q4, q5, q6, hd⟩
  · refine absurd ?_ (some_other ha)
    intro v hv; rcases List.mem_cons.1 hv with rfl | hv
    · rfl
    · exact k2 v hv
  · refine absurd ?_ (some_other hb)
    intro v hv; rcases List.mem_cons.1 hv with rfl | hv
    · rfl
    · exact k2 v hv
  · have ea : a = a'.pt := firstOther_unique ha ⟨(m :: p1).map (·.pt), s1.map (·.pt), by rw [q1]; simp, by
      intro v hv; simp at hv
      rcases hv with rfl | ⟨w, hw, rfl⟩
      · rfl
      · exact q3 w hw, q5⟩
    have eb : b = b'.pt := firstOther_unique hb ⟨(m :: p2).map (·.pt), s2.map (·.pt), by rw [q2]; simp, by
      intro v hv; simp at hv
      rcases hv with rfl | ⟨w, hw, rfl⟩
      · rfl
      · exact q4 w hw, q6⟩
    rcases hd with ⟨ht, hd⟩ | ⟨ht, hd⟩
    · rw [hd, ← side, ea, eb]
    · exact absurd (by rw [ea, eb]; exact ht) hab

theorem dropLast_chain (m z : HP3) (l : List HP3) : (m :: l ++ [z]).dropLast = m :: l := by
  rw [List.dropLast_append_of_ne_nil (by simp)]; simp

/-- C50: if the answer is "all collinear", the only output is the polygon itself, with orientation 0: the vertices of the first
chain backwards from the one before the maximum to the minimum, and then those of the second chain to the maximum. -/
theorem C50_collinear_output (drop mono : Fin 3) (m z : HP3) (l1 l2 : List HP3)
    (h : detect drop mono (m :: l1 ++ [z]) (m :: l2 ++ [z]) = some none) :
    orientBuild drop mono (m :: l1 ++ [z]) (m :: l2 ++ [z]) = some [⟨0, l1.reverse ++ [m] ++ l2 ++ [z]⟩] := by
  simp only [orientBuild, h, bind, Option.bind, pure]
  have : (m :: l1 ++ [z]).dropLast = m :: l1 := List.dropLast_concat
  rw [this]
  simp

/-- C50: unless the vertices are collinear, the boundaries of the convex polygons add up to the boundary of
the polygon that runs along chain 1 and back along chain 2.  So if chain 1 is the bottom chain the polygons are
counter-clockwise on balance, otherwise clockwise.  Their vertices are vertices of the chains. -/
theorem C50_boundary (drop mono : Fin 3) (m z : HP3) (l1 l2 : List HP3) (hT : Tame drop (both m z l1 l2))
    (f : Bool) (hf : detect drop mono (m :: l1 ++ [z]) (m :: l2 ++ [z]) = some (some f)) (out : List Piece)
    (h : orientBuild drop mono (m :: l1 ++ [z]) (m :: l2 ++ [z]) = some out) :
    (∀ g, Antisymmetric g →
      (out.map fun p => loopSum g (p.verts.map (·.pt))).sum = loopSum g ((m :: l1 ++ z :: l2.reverse).map (·.pt))) ∧
    ∀ p ∈ out, ∀ v ∈ p.verts, v ∈ both m z l1 l2 := by
  simp only [orientBuild, hf, bind, Option.bind] at h
  cases f with
  | false =>
    simp only [dropLast_chain] at h
    cases hq : decompose drop mono (m :: l2) (m :: l1 ++ [z]).tail with
    | none => simp only [hq] at h; cases h
    | some o =>
      simp only [hq, pure, Option.some.injEq] at h
      have e : o.map (emitRange false) = o := by
        rw [show emitRange false = id from by funext p; simp [emitRange]]; simp
      rw [e] at h; subst h
      rw [show (m :: l1 ++ [z]).tail = l1 ++ [z] from rfl] at hq
      obtain ⟨b1, b2⟩ := C49_boundary drop mono (m :: l2) (l1 ++ [z]) (hT.mono (by intro v hv; simp at hv ⊢; tauto)) o hq
      refine ⟨fun g hg => ?_, fun p hp v hv => by have := b2 p hp v hv; simp at this ⊢; tauto⟩
      rw [b1 g hg, polygon, loopSum_map, loopSum_map]
      rw [List.reverse_cons, List.append_assoc, cSum_append_comm]
      simp
  | true =>
    simp only [dropLast_chain] at h
    cases hq : decompose drop mono (m :: l1) (m :: l2 ++ [z]).tail with
    | none => simp only [hq] at h; cases h
    | some o =>
      simp only [hq, pure, Option.some.injEq] at h
      subst h
      rw [show (m :: l2 ++ [z]).tail = l2 ++ [z] from rfl] at hq
      obtain ⟨b1, b2⟩ := C49_boundary drop mono (m :: l1) (l2 ++ [z]) (hT.mono (by intro v hv; simp at hv ⊢; tauto)) o hq
      refine ⟨fun g hg => ?_, ?_⟩
      · have e1 : ∀ p : Piece, loopSum g ((emitRange true p).verts.map (·.pt)) = -loopSum g (p.verts.map (·.pt)) := by
          intro p
          simp only [emitRange, if_true]
          rw [loopSum_map, loopSum_map, cSum_reverse _ (fun a b => hg _ _)]
        rw [List.map_map]
        have e2 : ((fun p : Piece => loopSum g (p.verts.map (·.pt))) ∘ emitRange true) =
            fun p => -loopSum g (p.verts.map (·.pt)) := by funext p; exact e1 p
        rw [e2, show (fun p : Piece => -loopSum g (p.verts.map (·.pt))) =
          Neg.neg ∘ fun p : Piece => loopSum g (p.verts.map (·.pt)) from rfl, ← List.map_map]
        have e3 : ∀ l : List ℚ, (l.map Neg.neg).sum = -l.sum := by
          intro l; induction l with
          | nil => simp
          | cons a r ih => simp only [List.map_cons, List.sum_cons, ih]; ring
        rw [e3, b1 g hg, polygon, loopSum_map, loopSum_map, ← cSum_reverse _ (fun a b => hg _ _)]
        rw [show ((m :: l1).reverse ++ (l2 ++ [z])).reverse = (z :: l2.reverse) ++ (m :: l1) by simp, cSum_append_comm]
      · intro p hp v hv
        simp only [List.mem_map] at hp
        obtain ⟨q, hq, rfl⟩ := hp
        simp [emitRange] at hv
        have := b2 q hq v hv
        simp at this ⊢; tauto

/-- C50, the convex polygons: under the conditions of `C50_detect_partial` each polygon only turns in its
declared orientation, and that is counter-clockwise (negative) or zero if chain 1 is the bottom chain, clockwise or
zero if it is the top chain. -/
theorem C50_turns_partial (drop mono : Fin 3) (m z : HP3) (l1 l2 : List HP3) (a b : Q3) (chain1IsTop : Bool)
    (hne : mono ≠ drop) (hT : Tame drop (both m z l1 l2)) (hdis : Distinct drop ((both m z l1 l2).map (·.pt)))
    (h1 : Ascending mono ((m :: l1 ++ [z]).map (·.pt))) (h2 : Ascending mono ((m :: l2 ++ [z]).map (·.pt)))
    (ha : FirstOther m.pt a ((m :: l1 ++ [z]).map (·.pt))) (hb : FirstOther m.pt b ((m :: l2 ++ [z]).map (·.pt)))
    (hab : turnAt drop m.pt a b ≠ 0)
    (hn : if chain1IsTop then NonCrossing drop mono ((m :: l1 ++ [z]).map (·.pt)) ((m :: l2 ++ [z]).map (·.pt))
      else NonCrossing drop mono ((m :: l2 ++ [z]).map (·.pt)) ((m :: l1 ++ [z]).map (·.pt)))
    (out : List Piece) (h : orientBuild drop mono (m :: l1 ++ [z]) (m :: l2 ++ [z]) = some out) :
    ∀ p ∈ out, TurnsOnly drop p.orientation (p.verts.map (·.pt)) ∧
      (if chain1IsTop then 0 ≤ p.orientation else p.orientation ≤ 0) := by
  have hd := C50_detect_partial drop mono m z l1 l2 a b chain1IsTop hT h1 h2 ha hb hab hn
  have hsym : ∀ {x y : Q3}, (x (drop + 1) ≠ y (drop + 1) ∨ x (drop + 2) ≠ y (drop + 2)) →
      (y (drop + 1) ≠ x (drop + 1) ∨ y (drop + 2) ≠ x (drop + 2)) := fun h => h.imp Ne.symm Ne.symm
  simp only [orientBuild, hd, bind, Option.bind] at h
  cases chain1IsTop with
  | false =>
    simp only [Bool.false_eq_true, if_false] at hn ⊢
    simp only [dropLast_chain] at h
    cases hq : decompose drop mono (m :: l2) (m :: l1 ++ [z]).tail with
    | none => simp only [hq] at h; cases h
    | some o =>
      simp only [hq, pure, Option.some.injEq] at h
      have e : o.map (emitRange false) = o := by
        rw [show emitRange false = id from by funext p; simp [emitRange]]; simp
      rw [e] at h; subst h
      rw [show (m :: l1 ++ [z]).tail = l1 ++ [z] from rfl] at hq
      refine C49_turns_partial drop mono m z l2 (l1 ++ [z]) o hne (hT.mono (by intro v hv; simp at hv ⊢; tauto))
        (by rw [List.getLast?_append]; rfl) ?_ h2 h1 hn hq
      refine (List.Perm.pairwise_iff hsym (List.Perm.map _ ?_)).1 hdis
      refine List.Perm.trans ?_ (List.Perm.append_right _ (List.reverse_perm (m :: l2)).symm)
      simp only [both, List.cons_append, List.append_assoc]
      refine List.Perm.cons _ ?_
      rw [← List.append_assoc, ← List.append_assoc]
      exact List.Perm.append_right _ List.perm_append_comm
  | true =>
    simp only [if_true] at hn ⊢
    simp only [dropLast_chain] at h
    cases hq : decompose drop mono (m :: l1) (m :: l2 ++ [z]).tail with
    | none => simp only [hq] at h; cases h
    | some o =>
      simp only [hq, pure, Option.some.injEq] at h
      subst h
      rw [show (m :: l2 ++ [z]).tail = l2 ++ [z] from rfl] at hq
      have key := C49_turns_partial drop mono m z l1 (l2 ++ [z]) o hne (hT.mono (by intro v hv; simp at hv ⊢; tauto))
        (by rw [List.getLast?_append]; rfl) (by
          refine (List.Perm.pairwise_iff hsym (List.Perm.map _ ?_)).1 hdis
          refine List.Perm.trans ?_ (List.Perm.append_right _ (List.reverse_perm (m :: l1)).symm)
          simp [both]) h1 h2 hn hq
      intro p hp
      simp only [List.mem_map] at hp
      obtain ⟨q, hq, rfl⟩ := hp
      obtain ⟨t1, t2⟩ := key q hq
      simp only [emitRange, if_true]
      refine ⟨?_, by omega⟩
      rw [List.map_reverse]
      exact t1.reverse

/-- C50 is false if the chains start with a common segment: chain 1 is below chain 2, but is
taken for the top chain.  Dropping the third dimension, monotone in the first. -/
theorem C50_overlap_false :
    detect 2 0 [HP3.ofPoint ⟨0, 0, 0⟩, HP3.ofPoint ⟨1, 0, 0⟩, HP3.ofPoint ⟨2, 1, 0⟩, HP3.ofPoint ⟨4, 0, 0⟩]
      [HP3.ofPoint ⟨0, 0, 0⟩, HP3.ofPoint ⟨1, 0, 0⟩, HP3.ofPoint ⟨3, 10, 0⟩, HP3.ofPoint ⟨4, 0, 0⟩] = some (some true) ∧
    NonCrossing 2 0
      ([HP3.ofPoint ⟨0, 0, 0⟩, HP3.ofPoint ⟨1, 0, 0⟩, HP3.ofPoint ⟨3, 10, 0⟩, HP3.ofPoint ⟨4, 0, 0⟩].map (·.pt))
      ([HP3.ofPoint ⟨0, 0, 0⟩, HP3.ofPoint ⟨1, 0, 0⟩, HP3.ofPoint ⟨2, 1, 0⟩, HP3.ofPoint ⟨4, 0, 0⟩].map (·.pt)) := by
  refine ⟨by decide +kernel, ?_, ?_⟩
  · intro u v huv w hw
    rw [infix_pair] at huv
    simp at huv hw
    rcases huv with ⟨rfl, rfl⟩ | ⟨rfl, rfl⟩ | ⟨rfl, rfl⟩ <;> rcases hw with rfl | rfl | rfl | rfl <;>
      simp only [turnAt, pt_eq, show (2 : Fin 3) + 1 = 0 from rfl, show (2 : Fin 3) + 2 = 1 from rfl] <;> norm_num
  · intro u v huv w hw
    rw [infix_pair] at huv
    simp at huv hw
    rcases huv with ⟨rfl, rfl⟩ | ⟨rfl, rfl⟩ | ⟨rfl, rfl⟩ <;> rcases hw with rfl | rfl | rfl | rfl <;>
      simp only [turnAt, pt_eq, show (2 : Fin 3) + 1 = 0 from rfl, show (2 : Fin 3) + 2 = 1 from rfl] <;> norm_num

/-- C50 is false if the chains start in opposite directions perpendicular to the monotone dimension: in the
simple polygon (0,0), (0,-1), (1,-1), (2,2), (0,1) the first chain is below the second one, but is taken for the
top chain. -/
theorem C50_vertical_false :
    detect 2 0 [HP3.ofPoint ⟨0, 0, 0⟩, HP3.ofPoint ⟨0, -1, 0⟩, HP3.ofPoint ⟨1, -1, 0⟩, HP3.ofPoint ⟨2, 2, 0⟩]
      [HP3.ofPoint ⟨0, 0, 0⟩, HP3.ofPoint ⟨0, 1, 0⟩, HP3.ofPoint ⟨2, 2, 0⟩] = some (some true) ∧
    NonCrossing 2 0 ([HP3.ofPoint ⟨0, 0, 0⟩, HP3.ofPoint ⟨0, 1, 0⟩, HP3.ofPoint ⟨2, 2, 0⟩].map (·.pt))
      ([HP3.ofPoint ⟨0, 0, 0⟩, HP3.ofPoint ⟨0, -1, 0⟩, HP3.ofPoint ⟨1, -1, 0⟩, HP3.ofPoint ⟨2, 2, 0⟩].map (·.pt)) := by
  refine ⟨by decide +kernel, ?_, ?_⟩
  · intro u v huv w hw
    rw [infix_pair] at huv
    simp at huv hw
    rcases huv with ⟨rfl, rfl⟩ | ⟨rfl, rfl⟩ <;> rcases hw with rfl | rfl | rfl | rfl <;>
      simp only [turnAt, pt_eq, show (2 : Fin 3) + 1 = 0 from rfl, show (2 : Fin 3) + 2 = 1 from rfl] <;> norm_num
  · intro u v huv w hw
    rw [infix_pair] at huv
    simp at huv hw
    rcases huv with ⟨rfl, rfl⟩ | ⟨rfl, rfl⟩ | ⟨rfl, rfl⟩ <;> rcases hw with rfl | rfl | rfl <;>
      simp only [turnAt, pt_eq, show (2 : Fin 3) + 1 = 0 from rfl, show (2 : Fin 3) + 2 = 1 from rfl] <;> norm_num

/-- C50: the last assertion fails on allowed inputs.  If the maximum occurs twice at the end of chain 2, and if
chain 2 ends perpendicular to the monotone dimension; in the second case the vertices are not collinear. -/
theorem C50_assert_false :
    detect 2 0 [HP3.ofPoint ⟨0, 0, 0⟩, HP3.ofPoint ⟨2, 0, 0⟩]
      [HP3.ofPoint ⟨0, 0, 0⟩, HP3.ofPoint ⟨2, 0, 0⟩, HP3.ofPoint ⟨2, 0, 0⟩] = none ∧
    detect 2 0 [HP3.ofPoint ⟨0, 0, 0⟩, HP3.ofPoint ⟨1, 0, 0⟩, HP3.ofPoint ⟨2, 0, 0⟩]
      [HP3.ofPoint ⟨0, 0, 0⟩, HP3.ofPoint ⟨1, 0, 0⟩, HP3.ofPoint ⟨2, 1, 0⟩, HP3.ofPoint ⟨2, 0, 0⟩] = none := by
  decide +kernel

/-! The polygon of the example for C49, with its bottom chain first and with its top chain first. -/

theorem ex_first {a : Q3} {r : List Q3} (h : a ≠ (HP3.ofPoint ⟨0, 0, 0⟩).pt) :
    FirstOther (HP3.ofPoint ⟨0, 0, 0⟩).pt a ((HP3.ofPoint ⟨0, 0, 0⟩).pt :: a :: r) :=
  ⟨[_], r, rfl, by simp, h⟩

theorem ex_ne {x y z : Int} (h : x ≠ 0) : (HP3.ofPoint ⟨x, y, z⟩).pt ≠ (HP3.ofPoint ⟨0, 0, 0⟩).pt := by
  intro hc
  have := congrFun hc 0
  simp [pt_eq] at this
  exact h this

example : detect 2 0 (HP3.ofPoint ⟨0, 0, 0⟩ :: exTop ++ [HP3.ofPoint ⟨3, 0, 0⟩])
    (HP3.ofPoint ⟨0, 0, 0⟩ :: [HP3.ofPoint ⟨2, -1, 0⟩] ++ [HP3.ofPoint ⟨3, 0, 0⟩]) = some (some true) :=
  C50_detect_partial 2 0 _ _ exTop [HP3.ofPoint ⟨2, -1, 0⟩] (HP3.ofPoint ⟨1, 2, 0⟩).pt (HP3.ofPoint ⟨2, -1, 0⟩).pt true
    ex_tame (ex_up.imp fun h => h.le) (ex_low.imp fun h => h.le) (ex_first (ex_ne (by decide)))
    (ex_first (ex_ne (by decide)))
    (by simp only [turnAt, pt_eq, show (2 : Fin 3) + 1 = 0 from rfl, show (2 : Fin 3) + 2 = 1 from rfl]; norm_num)
    ex_noncrossing

example : detect 2 0 (HP3.ofPoint ⟨0, 0, 0⟩ :: [HP3.ofPoint ⟨2, -1, 0⟩] ++ [HP3.ofPoint ⟨3, 0, 0⟩])
    (HP3.ofPoint ⟨0, 0, 0⟩ :: exTop ++ [HP3.ofPoint ⟨3, 0, 0⟩]) = some (some false) :=
  C50_detect_partial 2 0 _ _ [HP3.ofPoint ⟨2, -1, 0⟩] exTop (HP3.ofPoint ⟨2, -1, 0⟩).pt (HP3.ofPoint ⟨1, 2, 0⟩).pt false
    (ex_tame.mono (by simp [exTop, exBottom])) (ex_low.imp fun h => h.le) (ex_up.imp fun h => h.le)
    (ex_first (ex_ne (by decide))) (ex_first (ex_ne (by decide)))
    (by simp only [turnAt, pt_eq, show (2 : Fin 3) + 1 = 0 from rfl, show (2 : Fin 3) + 2 = 1 from rfl]; norm_num)
    ex_noncrossing

example : orientBuild 2 0 (HP3.ofPoint ⟨0, 0, 0⟩ :: exTop ++ [HP3.ofPoint ⟨3, 0, 0⟩])
    (HP3.ofPoint ⟨0, 0, 0⟩ :: [HP3.ofPoint ⟨2, -1, 0⟩] ++ [HP3.ofPoint ⟨3, 0, 0⟩]) =
    some [⟨1, [HP3.ofPoint ⟨2, -1, 0⟩, HP3.ofPoint ⟨0, 0, 0⟩, HP3.ofPoint ⟨1, 2, 0⟩, HP3.ofPoint ⟨3, 0, 0⟩]⟩] := by
  decide +kernel

example : detect 2 0 (HP3.ofPoint ⟨0, 0, 0⟩ :: [HP3.ofPoint ⟨1, 0, 0⟩] ++ [HP3.ofPoint ⟨3, 0, 0⟩])
    (HP3.ofPoint ⟨0, 0, 0⟩ :: [HP3.ofPoint ⟨2, 0, 0⟩] ++ [HP3.ofPoint ⟨3, 0, 0⟩]) = some none := by
  decide +kernel

end Walnut.Props
