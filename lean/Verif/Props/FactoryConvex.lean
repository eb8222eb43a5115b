/-
C65 (the convex polygon factory): the emitted polygons are convex.
-/
import Verif.Mono.EmittedConvex

namespace Walnut.Props
open Walnut.Geom Walnut.Mono

theorem both_differ {R : HP3 → HP3 → Prop} (hR : ∀ {a b}, R a b → R b a) {all rest l1 l2 : List HP3} {lo hi : HP3} {r : MRange}
    (hcut : Cut all r.chain1 r.chain2 rest) (h : all.Pairwise R) (e1 : r.chains.1 = lo :: l1 ++ [hi]) (e2 : r.chains.2 = lo :: l2 ++ [hi]) :
    (both lo hi l1 l2).Pairwise R := by
  obtain ⟨p1, p2, p3, p4, p5, x, y, hall, c1, h1, h2, c2, -⟩ := hcut
  have c2' : r.chain2 = y :: (p2 ++ p4) ++ [x] := by
    rcases c2 with c2 | ⟨-, c2⟩
    · exact c2
    · exfalso
      unfold MRange.chains at e1 e2
      split at e1
      · rw [c2, if_pos (by assumption)] at e2
        have := congrArg List.length e2; simp at this
      · rw [c2] at e1
        have := congrArg List.length e1; simp at this
  have hpw : (p5 ++ p1 ++ (p2 ++ p4)).Pairwise R := by
    have hsub : (p1 ++ p2 ++ p4 ++ p5).Sublist all := by
      rw [hall]
      refine List.Sublist.append (List.Sublist.append ?_ (List.Sublist.refl _)) (List.Sublist.refl _)
      exact List.sublist_append_left _ _
    refine (List.Perm.pairwise_iff hR ?_).1 (h.sublist hsub)
    refine List.perm_append_comm.trans ?_
    simp only [List.append_assoc]
    exact List.Perm.refl _
  rw [← c1] at hpw
  -- the ends of the first chain
  unfold MRange.chains at e1 e2
  split at e1
  · rw [if_pos (by assumption)] at e2
    simp only at e1 e2
    rw [e1] at hpw
    rw [c2'] at e2
    have e2' := congrArg List.reverse e2
    simp only [List.reverse_reverse, List.reverse_append, List.reverse_cons, List.reverse_nil, List.nil_append, List.cons_append, List.append_assoc,
      List.cons.injEq] at e2'
    have e3 : p2 ++ p4 = l2.reverse := by
      have := e2'.2
      rw [← List.append_assoc] at this
      exact (List.append_inj' this rfl).1
    rw [e3] at hpw
    refine (List.Perm.pairwise_iff hR ?_).1 hpw
    simp only [both, List.cons_append, List.append_assoc]
    refine List.Perm.cons _ (List.Perm.append_left _ ?_)
    exact (List.perm_append_comm (l₁ := [hi]) (l₂ := l2.reverse)).trans (List.Perm.append_right _ (List.reverse_perm _))
  · rw [if_neg (by assumption)] at e2
    simp only at e1 e2
    have e2' := congrArg List.reverse e2
    rw [List.reverse_reverse] at e2'
    rw [e2'] at hpw
    rw [c2'] at e1
    simp only [List.cons_append, List.cons.injEq] at e1
    have e3 : p2 ++ p4 = l1 := (List.append_inj' e1.2 rfl).1
    rw [e3] at hpw
    refine (List.Perm.pairwise_iff hR ?_).1 hpw
    have a : ((lo :: l2 ++ [hi]).reverse ++ l1).Perm ((lo :: l2 ++ [hi]) ++ l1) := List.Perm.append_right _ (List.reverse_perm _)
    refine a.trans ?_
    simp only [both, List.cons_append, List.append_assoc]
    refine List.Perm.cons _ ?_
    have b := List.perm_append_comm (l₁ := l2 ++ [hi]) (l₂ := l1)
    simp only [List.append_assoc] at b
    exact b

theorem step_left {plane : HS3} {drop : Fin 3} {vs : List HP3} {rb re i j : Nat} {out : List OutPoly} (hT : Tame drop vs)
    (hn : plane.n.comp drop ≠ 0) (hp : ∀ v ∈ vs, plane.side v.pt = 0) (hd : vs.Pairwise (Differ (monoOf drop))) (h1 : rb < re) (h2 : re ≤ vs.length)
    (h : factoryStep plane drop vs rb re = some (out, i, j)) : ∀ P ∈ out, LeftOfEdges P := by
  have hw : ∀ v ∈ vs, v.w ≠ 0 := fun v hv => by have := hT.pos v hv; omega
  obtain ⟨r, hr, r1, r2, r3, a1, a2, ⟨lo, hi, t1, t2, t3, t4⟩, hcut⟩ := C51_range vs (monoOf drop) rb re hw h1 h2
  simp only [factoryStep, hr, bind, Option.bind] at h
  cases ho : orientBuild drop (monoOf drop) r.chains.1 r.chains.2 with
  | none => simp [ho] at h
  | some pieces =>
    simp only [ho] at h
    cases hq : emitAll plane drop (-absMult (plane.n.comp drop)) pieces with
    | none => simp [hq] at h
    | some q =>
      simp only [hq, pure, Option.some.injEq, Prod.mk.injEq] at h
      obtain ⟨rfl, rfl, rfl⟩ := h
      have hlen : 2 ≤ r.chains.1.length ∧ 2 ≤ r.chains.2.length := by
        cases hd : detect drop (monoOf drop) r.chains.1 r.chains.2 with
        | none => simp only [orientBuild, hd, bind, Option.bind] at ho; cases ho
        | some x => exact detect_length hd
      obtain ⟨l1, e1⟩ := chain_form t1 t3 hlen.1
      obtain ⟨l2, e2⟩ := chain_form t2 t4 hlen.2
      have hmem : ∀ v ∈ both lo hi l1 l2, v ∈ vs := by
        have hc : ∀ v ∈ r.chains.1 ++ r.chains.2, v ∈ vs := by
          intro v hv
          have : v ∈ r.chain1 ++ r.chain2 := by
            unfold MRange.chains at hv
            split at hv <;> simp at hv ⊢ <;> tauto
          exact seg_mem (cut_mem hcut v this)
        intro v hv
        apply hc
        rw [e1, e2]
        simp at hv ⊢; tauto
      have hdb := both_differ (R := Differ (monoOf drop)) (fun h => Ne.symm h) hcut
        (hd.sublist ((List.drop_sublist _ _).trans (List.take_sublist _ _))) e1 e2
      rw [e1, e2] at ho
      rw [e1] at a1
      rw [e2] at a2
      have hF : Faithful drop (vs.map (·.pt)) := plane_faithful hn (by
        intro q hq; obtain ⟨v, hv, rfl⟩ := List.mem_map.1 hq; exact hp v hv)
      have hF' : Faithful drop ((both lo hi l1 l2).map (·.pt)) := by
        have : ∀ u ∈ (both lo hi l1 l2).map (·.pt), u ∈ vs.map (·.pt) := by
          intro u hu
          obtain ⟨v, hv, rfl⟩ := List.mem_map.1 hu
          exact List.mem_map_of_mem (hmem v hv)
        exact fun u hu v hv => hF u (this u hu) v (this v hv)
      have hpv : ∀ p ∈ pieces, ∀ v ∈ p.verts, v ∈ vs := by
        have := (orientBuild_sum (mono_ne drop) (hT.mono hmem) hF' a1 a2 ho (f := fun _ _ => 0) (fun _ _ => by simp)
          (fun _ _ _ _ _ _ _ => by simp)).2
        exact fun p hp v hv => hmem v (this p hp v hv)
      exact emitAll_left (mono_ne drop) hn hw hp pieces q (orientBuild_sign ho) hpv
        (orient_peaked (mono_ne drop) (hT.mono hmem) hdb a1 a2 ho) hq

theorem loop_left {plane : HS3} {drop : Fin 3} {vs : List HP3} (hT : Tame drop vs) (hn : plane.n.comp drop ≠ 0)
    (hp : ∀ v ∈ vs, plane.side v.pt = 0) (hd : vs.Pairwise (Differ (monoOf drop))) {i j : Nat} {out : List OutPoly}
    (h : FactoryLoop plane drop vs i j out) : i ≤ j → j ≤ vs.length → ∀ P ∈ out, LeftOfEdges P := by
  have hF : Faithful drop (vs.map (·.pt)) := plane_faithful hn (by
    intro q hq; obtain ⟨v, hv, rfl⟩ := List.mem_map.1 hq; exact hp v hv)
  induction h with
  | done i => intro _ _; simp
  | step hne hs hr ih =>
    intro hij hj
    obtain ⟨s1, s2, s3, -, -⟩ := factoryStep_spec hT hF (by omega) hj hs
    intro P hP
    rcases List.mem_append.1 hP with h | h
    · exact step_left hT hn hp hd (by omega) hj hs P h
    · exact ih s2 (by omega) P h

/-- No two of the vertices agree in the first coordinate, and no two agree in the second one. -/
def InGeneralPosition (vs : List HP3) : Prop :=
  (vs.map fun v => v.pt 0).Nodup ∧ (vs.map fun v => v.pt 1).Nodup

theorem general_differ {vs : List HP3} (h : InGeneralPosition vs) (drop : Fin 3) : vs.Pairwise (Differ (monoOf drop)) := by
  obtain ⟨h0, h1⟩ := h
  unfold List.Nodup at h0 h1
  rw [List.pairwise_map] at h0 h1
  unfold monoOf
  split
  · exact h0
  · exact h1

theorem plane_left {plane : HS3} {vs : List HP3} {out : List OutPoly} (h : PlaneBuild plane vs out) (hu : Usable vs)
    (hp : ∀ v ∈ vs, plane.side v.pt = 0) (hg : InGeneralPosition vs) : ∀ P ∈ out, LeftOfEdges P := by
  unfold PlaneBuild at h
  cases hd : plane.n.firstNonzeroDimension with
  | none => rw [hd] at h; simp only at h; subst h; simp
  | some drop =>
    rw [hd] at h
    exact loop_left (hu drop) (first_nonzero hd) hp (general_differ hg drop) h (Nat.zero_le _) le_rfl

/-- C65, the polygons are convex: with a plane and vertices on it no two of which agree in the first or the second coordinate, all vertices
of an emitted polygon are on the left of each of its edges or on its line, seen from the side its plane's normal points to.
(The vertices of the input polygon may be in any order, it may even intersect itself.)

Not proved, because it is false (`C65_convex_false`): the same if vertices agree in a coordinate. -/
theorem C65_convex_plane_partial (plane : HS3) (vs : List HP3) (out : List OutPoly) (h : PlaneBuild plane vs out) (hu : Usable vs)
    (hp : ∀ v ∈ vs, plane.side v.pt = 0) (hg : InGeneralPosition vs) :
    ∀ P ∈ out, ∀ k e e', P.edges[k]? = some e → P.edges[(k + 1) % P.edges.length]? = some e' →
      ∀ f ∈ P.edges, 0 ≤ dotQ P.plane.n.q (crossQ (subQ e'.1.pt e.1.pt) (subQ f.1.pt e.1.pt)) :=
  plane_left h hu hp hg

theorem outer_left {vs : List HP3} (hu : Usable vs) (hg : InGeneralPosition vs) {i j : Nat} {out : List OutPoly} (h : OuterLoop vs i j out) :
    i ≤ j → j ≤ vs.length → ∀ P ∈ out, LeftOfEdges P := by
  have hw : ∀ v ∈ vs, v.w ≠ 0 := fun v hv => by have := (hu 0).pos v hv; omega
  have hm : ∀ v ∈ vs, v.w ≠ -2 ^ 63 := fun v hv => by have := (hu 0).pos v hv; omega
  induction h with
  | done i => intro _ _; simp
  | @step i j r out rest hne hp hb hr ih =>
    intro hij hj
    obtain ⟨r', hr', s1, s2, s3, s4, s5, s6, hc, -⟩ := C52_range vs i j hw hm (by omega) hj
    rw [hp] at hr'; simp only [Option.some.injEq] at hr'; subst hr'
    have hmem : ∀ v ∈ r.verts, v ∈ vs := fun v hv => seg_mem (cutMiddle_mem hc v hv)
    have hsub : r.verts.Sublist vs := by
      obtain ⟨F, R, B, e1, e2, -⟩ := hc
      rw [e2]
      have : (F ++ B).Sublist (slice vs i j) := by
        rw [e1]
        exact List.Sublist.append (List.sublist_append_left _ _) (List.Sublist.refl _)
      exact this.trans ((List.drop_sublist _ _).trans (List.take_sublist _ _))
    have hg' : InGeneralPosition r.verts := ⟨hg.1.sublist (hsub.map _), hg.2.sublist (hsub.map _)⟩
    intro P hP
    rcases List.mem_append.1 hP with h | h
    · exact plane_left hb (fun d => (hu d).mono hmem) s6 hg' P h
    · exact ih s2 (by omega) P h

/-- C65, the polygons are convex, for a polygon that need not be planar: if no two vertices agree in the first or the second coordinate, all
vertices of an emitted polygon are on the left of each of its edges or on its line, seen from the side its plane's normal points to. -/
theorem C65_convex_partial (vs : List HP3) (out : List OutPoly) (h : FactoryBuild vs out) (hu : Usable vs) (hg : InGeneralPosition vs) :
    ∀ P ∈ out, ∀ k e e', P.edges[k]? = some e → P.edges[(k + 1) % P.edges.length]? = some e' →
      ∀ f ∈ P.edges, 0 ≤ dotQ P.plane.n.q (crossQ (subQ e'.1.pt e.1.pt) (subQ f.1.pt e.1.pt)) :=
  outer_left hu hg h (Nat.zero_le _) le_rfl

/-- A pentagon that is not convex. -/
def kite : List HP3 := [⟨⟨0, 0, 0⟩, 1⟩, ⟨⟨5, -1, 0⟩, 1⟩, ⟨⟨6, 4, 0⟩, 1⟩, ⟨⟨3, 2, 0⟩, 1⟩, ⟨⟨1, 5, 0⟩, 1⟩]

/-- The hypotheses can hold: the factory emits two polygons for the pentagon. -/
example : ∃ P Q, FactoryBuild kite [P, Q] := by
  refine ⟨⟨⟨⟨0, 0, 26⟩, 0⟩, 2, [(⟨⟨1, 5, 0⟩, 1⟩, ⟨⟨-1, -5, 0⟩, ⟨0, 0, 0⟩⟩), (⟨⟨0, 0, 0⟩, 1⟩, ⟨⟨5, -1, 0⟩, ⟨0, 0, 0⟩⟩),
      (⟨⟨5, -1, 0⟩, 1⟩, ⟨⟨1, 5, 0⟩, ⟨0, 0, 26⟩⟩), (⟨⟨6, 4, 0⟩, 1⟩, ⟨⟨-5, 1, 0⟩, ⟨0, 0, 26⟩⟩)]⟩,
    ⟨⟨⟨0, 0, -26⟩, 0⟩, 2, [(⟨⟨6, 4, 0⟩, 1⟩, ⟨⟨-3, -2, 0⟩, ⟨0, 0, 0⟩⟩), (⟨⟨3, 2, 0⟩, 1⟩, ⟨⟨-2, 3, 0⟩, ⟨0, 0, 13⟩⟩),
      (⟨⟨1, 5, 0⟩, 1⟩, ⟨⟨5, -1, 0⟩, ⟨0, 0, -26⟩⟩)]⟩, ?_⟩
  refine OuterLoop.step (vs := kite) (i := 0) (j := 5) (r := ⟨kite, 5, ⟨⟨0, 0, 26⟩, 0⟩, 4, 4⟩) (out := [_, _]) (rest := []) (by decide) (by decide +kernel) ?_ (.done 4)
  show FactoryLoop ⟨⟨0, 0, 26⟩, 0⟩ 2 kite 0 5 _
  refine FactoryLoop.step (out := [_]) (rest := [_]) (i' := 2) (j' := 5) (by decide) (by decide +kernel) ?_
  exact FactoryLoop.step (out := [_]) (rest := []) (i' := 4) (j' := 4) (by decide) (by decide +kernel) (.done 4)

example : Usable kite ∧ InGeneralPosition kite ∧ ∀ v ∈ kite, (HS3.mk ⟨0, 0, 26⟩ 0).side v.pt = 0 := by
  refine ⟨?_, ⟨?_, ?_⟩, ?_⟩
  · intro drop
    exact ⟨by decide, by revert drop; decide +kernel⟩
  · simp [kite, HP3.pt, V3.comp]
  · simp [kite, HP3.pt, V3.comp]
    norm_num
  · intro v hv
    simp [kite] at hv
    rcases hv with rfl | rfl | rfl | rfl | rfl <;> simp [HS3.side_eq, HP3.pt, V3.comp]

/-- A simple hexagon with three vertices at the same height. -/
def hexagon : List HP3 := [⟨⟨2, 3, 0⟩, 1⟩, ⟨⟨3, 2, 0⟩, 1⟩, ⟨⟨1, 0, 0⟩, 1⟩, ⟨⟨0, 2, 0⟩, 1⟩, ⟨⟨1, 1, 0⟩, 1⟩, ⟨⟨2, 2, 0⟩, 1⟩]

/-- C65 is false if vertices agree in the monotone dimension: for this simple hexagon the first of the emitted polygons is not convex.  Its vertices
are (3, 2), (0, 2), (1, 1) and (2, 2): the last one is between the first two, and (1, 1) is on the right of the edge from (2, 2) to (3, 2). -/
theorem C65_convex_false : ∃ P Q R, FactoryBuild hexagon [P, Q, R] ∧ P.plane = ⟨⟨0, 0, 1⟩, 0⟩ ∧
    P.edges.map (·.1.v) = [⟨3, 2, 0⟩, ⟨0, 2, 0⟩, ⟨1, 1, 0⟩, ⟨2, 2, 0⟩] ∧
    (∃ e e' f, P.edges[3]? = some e ∧ P.edges[(3 + 1) % P.edges.length]? = some e' ∧ f ∈ P.edges ∧
      dotQ P.plane.n.q (crossQ (subQ e'.1.pt e.1.pt) (subQ f.1.pt e.1.pt)) < 0) ∧
    ∀ a b c d e f, hexagon.map (·.pt) = [a, b, c, d, e, f] →
      Apart2 a b c d ∧ Apart2 a b d e ∧ Apart2 a b e f ∧ Apart2 b c d e ∧ Apart2 b c e f ∧ Apart2 b c f a ∧ Apart2 c d e f ∧ Apart2 c d f a ∧
      Apart2 d e f a := by
  refine ⟨⟨⟨⟨0, 0, 1⟩, 0⟩, 2, [(⟨⟨3, 2, 0⟩, 1⟩, ⟨⟨-3, 0, 0⟩, ⟨0, 0, 6⟩⟩), (⟨⟨0, 2, 0⟩, 1⟩, ⟨⟨1, -1, 0⟩, ⟨0, 0, -2⟩⟩),
      (⟨⟨1, 1, 0⟩, 1⟩, ⟨⟨1, 1, 0⟩, ⟨0, 0, 0⟩⟩), (⟨⟨2, 2, 0⟩, 1⟩, ⟨⟨1, 0, 0⟩, ⟨0, 0, -2⟩⟩)]⟩,
    ⟨⟨⟨0, 0, -1⟩, 0⟩, 2, [(⟨⟨2, 3, 0⟩, 1⟩, ⟨⟨1, -1, 0⟩, ⟨0, 0, -5⟩⟩), (⟨⟨3, 2, 0⟩, 1⟩, ⟨⟨-1, 0, 0⟩, ⟨0, 0, 2⟩⟩),
      (⟨⟨2, 2, 0⟩, 1⟩, ⟨⟨0, 1, 0⟩, ⟨0, 0, 2⟩⟩)]⟩,
    ⟨⟨⟨0, 0, -1⟩, 0⟩, 2, [(⟨⟨3, 2, 0⟩, 1⟩, ⟨⟨-2, -2, 0⟩, ⟨0, 0, -2⟩⟩), (⟨⟨1, 0, 0⟩, 1⟩, ⟨⟨-1, 2, 0⟩, ⟨0, 0, 2⟩⟩),
      (⟨⟨0, 2, 0⟩, 1⟩, ⟨⟨3, 0, 0⟩, ⟨0, 0, -6⟩⟩)]⟩, ?_, rfl, rfl,
    ⟨_, _, (⟨⟨1, 1, 0⟩, 1⟩, ⟨⟨1, 1, 0⟩, ⟨0, 0, 0⟩⟩), rfl, rfl, by simp, ?_⟩, ?_⟩
  · refine OuterLoop.step (vs := hexagon) (i := 0) (j := 6) (r := ⟨hexagon, 6, ⟨⟨0, 0, -1⟩, 0⟩, 5, 5⟩) (out := [_, _, _]) (rest := []) (by decide) (by decide +kernel) ?_ (.done 5)
    show FactoryLoop ⟨⟨0, 0, -1⟩, 0⟩ 2 hexagon 0 6 _
    refine FactoryLoop.step (out := [_, _]) (rest := [_]) (i' := 1) (j' := 4) (by decide) (by decide +kernel) ?_
    exact FactoryLoop.step (out := [_]) (rest := []) (i' := 3) (j' := 3) (by decide) (by decide +kernel) (.done 3)
  · simp [dotQ, crossQ, subQ, HP3.pt, V3.comp, V3.q]
    norm_num
  · intro a b c d e f h
    simp [hexagon] at h
    obtain ⟨rfl, rfl, rfl, rfl, rfl, rfl⟩ := h
    refine ⟨?_, ?_, ?_, ?_, ?_, ?_, ?_, ?_, ?_⟩ <;>
    · intro s t h1 h2 h3 h4 h
      have x := h 0
      have y := h 1
      simp [HP3.pt, V3.comp] at x y
      linarith

end Walnut.Props
