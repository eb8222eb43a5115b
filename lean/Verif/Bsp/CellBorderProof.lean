/-
The polygons from which the polyhedron of a node is made.
-/
import Verif.Bsp.CellBorder
import Verif.Bsp.BorderProof

namespace Walnut.Bsp
open Walnut.Geom Walnut.Poly Walnut.Props

/-- The polygon's plane is the split plane and faces away from the path's side. -/
def Facing (pl : HS3) (a : HS3 × Bool) : Prop :=
  Through a.1 pl ∧ if a.2 then dotQ pl.n.q a.1.n.q < 0 else 0 < dotQ pl.n.q a.1.n.q

theorem dot_self_pos {v : V3} (h : v ≠ ⟨0, 0, 0⟩) : 0 < dotQ v.q v.q := by
  have hne : v.x ≠ 0 ∨ v.y ≠ 0 ∨ v.z ≠ 0 := by
    by_contra hc
    push Not at hc
    apply h
    ext
    · exact hc.1
    · exact hc.2.1
    · exact hc.2.2
  change 0 < (v.x : ℚ) * v.x + v.y * v.y + v.z * v.z
  have key : ∀ t : Int, t ≠ 0 → (0 : ℚ) < t * t := fun t ht => by
    have : (t : ℚ) ≠ 0 := by exact_mod_cast ht
    exact mul_self_pos.2 this
  rcases hne with h | h | h
  · linarith [key _ h, mul_self_nonneg (v.y : ℚ), mul_self_nonneg (v.z : ℚ)]
  · linarith [key _ h, mul_self_nonneg (v.x : ℚ), mul_self_nonneg (v.z : ℚ)]
  · linarith [key _ h, mul_self_nonneg (v.x : ℚ), mul_self_nonneg (v.y : ℚ)]

theorem facing_of_multiple {pl : HS3} {a : HS3 × Bool} (h : a.1.n ≠ ⟨0, 0, 0⟩) {s t : ℚ} (hs : 0 < s) (ht : 0 < t)
    (he : ∀ q, s * pl.side q = t * (outward a).side q) (hn : s * dotQ pl.n.q (outward a).n.q = t * dotQ (outward a).n.q (outward a).n.q) :
    Facing pl a := by
  have hthru : Through a.1 pl := by
    intro z hz
    have := he z
    rw [hz, mul_zero, outward_side] at this
    have h0 := (mul_eq_zero.1 this.symm).resolve_left ht.ne'
    split_ifs at h0
    · linarith
    · exact h0
  refine ⟨hthru, ?_⟩
  have hp := dot_self_pos h
  unfold outward at hn
  split_ifs at hn ⊢ with hb
  · have e1 : dotQ pl.n.q a.1.neg.n.q = - dotQ pl.n.q a.1.n.q := by
      simp only [HS3.neg, V3.neg, dotQ, V3.q, V3.comp]; push_cast; ring
    have e2 : dotQ a.1.neg.n.q a.1.neg.n.q = dotQ a.1.n.q a.1.n.q := by
      simp only [HS3.neg, V3.neg, dotQ, V3.q, V3.comp]; push_cast; ring
    rw [e1, e2] at hn
    have := mul_pos ht hp
    by_contra hc
    have := mul_nonneg hs.le (not_lt.1 hc)
    linarith
  · have := mul_pos ht hp
    by_contra hc
    have := mul_nonneg hs.le (sub_nonneg.2 (not_lt.1 hc))
    linarith

theorem lex4_eq {a1 a2 a3 a4 b1 b2 b3 b4 : Int} (h1 : lexCompare (lessThan false) [a1, a2, a3, a4] [b1, b2, b3, b4] = false)
    (h2 : lexCompare (lessThan false) [b1, b2, b3, b4] [a1, a2, a3, a4] = false) : a1 = b1 ∧ a2 = b2 ∧ a3 = b3 ∧ a4 = b4 := by
  simp only [lexCompare, lessThan, Bool.false_eq_true, if_false, decide_eq_true_eq] at h1 h2
  split_ifs at h1 h2 <;> first | omega | simp_all

/-- A plane that is found among those of the walls is a positive multiple of one of them. -/
theorem isWallPlane_spec {b : AABB} (hd : 0 < b.den) {g : HS3} (hg : g.n ≠ ⟨0, 0, 0⟩) :
    isWallPlane g (walls () b) = some true → ∃ P ∈ walls () b, ∃ s t : ℚ, 0 < s ∧ 0 < t ∧ (∀ q, s * P.plane.side q = t * g.side q) ∧
      s * dotQ P.plane.n.q g.n.q = t * dotQ g.n.q g.n.q := by
  have found : ∀ l : List (Polygon Unit), isWallPlane g l = some true → ∃ P ∈ l, P.plane.setCompare g = some false ∧ g.setCompare P.plane = some false := by
    intro l
    induction l with
    | nil => intro h; simp [isWallPlane] at h
    | cons P l ih =>
      intro h
      unfold isWallPlane at h
      split at h
      · rename_i r1 r2 r e1 e2 e3
        rcases Bool.or_eq_true_iff.1 (Option.some.inj h) with h' | h'
        · rw [Bool.and_eq_true] at h'
          cases r1
          · cases r2
            · exact ⟨P, List.mem_cons_self .., e1, e2⟩
            · simp at h'
          · simp at h'
        · subst h'
          obtain ⟨Q, hQ, e⟩ := ih e3
          exact ⟨Q, List.mem_cons_of_mem _ hQ, e⟩
      · cases h
  intro h
  obtain ⟨P, hP, c1, c2⟩ := found _ h
  obtain ⟨side, info, hs, hinfo, n1, n2, hPe⟩ := mem_walls.1 hP
  have hpl : P.plane = wallPlane b side info.1 := by rw [hPe]; rfl
  have hsum : |P.plane.n.x + P.plane.n.y + P.plane.n.z| = b.den := by
    rw [hpl]
    unfold wallPlane
    obtain e | e | e := fin3 info.1 <;> rw [e] <;> simp only [V3.set, V3.zero] <;> split_ifs <;> simp [abs_of_pos hd]
  unfold HS3.setCompare abs? at c1 c2
  split_ifs at c1 c2 with m1 m2
  all_goals first | cases c1; done | cases c2; done | skip
  simp only [Option.bind_eq_bind, Option.bind_some, Option.pure_def, Option.some.injEq] at c1 c2
  obtain ⟨e1, e2, e3, e4⟩ := lex4_eq c1 c2
  rw [hsum] at e1 e2 e3 e4
  set k : Int := |g.n.x + g.n.y + g.n.z| with hk
  have k0 : 0 < k := by
    refine lt_of_le_of_ne (abs_nonneg _) fun h0 => hg ?_
    rw [← h0, mul_zero] at e1 e2 e3
    have z : ∀ t : Int, 0 = t * b.den → t = 0 := fun t ht => (mul_eq_zero.1 ht.symm).resolve_right hd.ne'
    ext
    · exact z _ e1
    · exact z _ e2
    · exact z _ e3
  have f1 : (P.plane.n.x : ℚ) * k = g.n.x * b.den := by exact_mod_cast e1
  have f2 : (P.plane.n.y : ℚ) * k = g.n.y * b.den := by exact_mod_cast e2
  have f3 : (P.plane.n.z : ℚ) * k = g.n.z * b.den := by exact_mod_cast e3
  have f4 : (P.plane.d : ℚ) * k = g.d * b.den := by exact_mod_cast e4
  refine ⟨P, hP, k, b.den, by exact_mod_cast k0, by exact_mod_cast hd, fun q => ?_, ?_⟩
  · rw [HS3.side_eq, HS3.side_eq]
    linear_combination q 0 * f1 + q 1 * f2 + q 2 * f3 - f4
  · change (k : ℚ) * ((P.plane.n.x : ℚ) * g.n.x + P.plane.n.y * g.n.y + P.plane.n.z * g.n.z) =
      b.den * ((g.n.x : ℚ) * g.n.x + g.n.y * g.n.y + g.n.z * g.n.z)
    linear_combination (g.n.x : ℚ) * f1 + g.n.y * f2 + g.n.z * f3

/-- The sources of the split planes. -/
inductive CellCuts (b : AABB) : List (HS3 × Bool) → List Source → Prop
  | nil : CellCuts b [] []
  | skip {a : HS3 × Bool} {l : List (HS3 × Bool)} {S : List Source} : isWallPlane (outward a) (walls () b) = some true →
      CellCuts b l S → CellCuts b (a :: l) S
  | cons {a : HS3 × Bool} {l : List (HS3 × Bool)} {C : Polygon Unit} {S : List Source} : C.plane = outward a →
      C.region = {q | (outward a).side q = 0 ∧ InBox b q} → CellCuts b l S → CellCuts b (a :: l) (⟨1, C⟩ :: S)

theorem CellCuts.mem {b : AABB} {l : List (HS3 × Bool)} {S : List Source} (h : CellCuts b l S) :
    (∀ s ∈ S, s.id = 1 ∧ ∃ a ∈ l, s.poly.plane = outward a ∧ s.poly.region = {q | (outward a).side q = 0 ∧ InBox b q}) ∧
      ∀ a ∈ l, isWallPlane (outward a) (walls () b) = some true ∨
        ∃ s ∈ S, s.id = 1 ∧ s.poly.plane = outward a ∧ s.poly.region = {q | (outward a).side q = 0 ∧ InBox b q} := by
  induction h with
  | nil => simp
  | @skip a l S h1 _ ih =>
    refine ⟨fun s hs => ?_, fun c hc => ?_⟩
    · obtain ⟨e0, c, hc, e⟩ := ih.1 s hs
      exact ⟨e0, c, List.mem_cons_of_mem _ hc, e⟩
    · rcases List.mem_cons.1 hc with rfl | hc
      · exact Or.inl h1
      · exact ih.2 c hc
  | @cons a l C S h1 h2 _ ih =>
    refine ⟨fun s hs => ?_, fun c hc => ?_⟩
    · rcases List.mem_cons.1 hs with rfl | hs
      · exact ⟨rfl, a, by simp, h1, h2⟩
      · obtain ⟨e0, c, hc, e⟩ := ih.1 s hs
        exact ⟨e0, c, List.mem_cons_of_mem _ hc, e⟩
    · rcases List.mem_cons.1 hc with rfl | hc
      · exact Or.inr ⟨⟨1, C⟩, by simp, rfl, h1, h2⟩
      · rcases ih.2 c hc with e | ⟨s, hs, e⟩
        · exact Or.inl e
        · exact Or.inr ⟨s, List.mem_cons_of_mem _ hs, e⟩

theorem addRoot_leaf {t t1 : Node} {aabb : Bool} {id : Nat} {P : Polygon Unit} (h2 : ∃ d, t = .leaf d) (h4 : t.addRoot aabb id P = some t1) :
    ∃ d, t1 = .leaf d := by
  obtain ⟨d, rfl⟩ := h2
  unfold Node.addRoot at h4
  obtain ⟨d', -, rfl⟩ := Option.map_eq_some_iff.1 h4
  exact ⟨d', rfl⟩

theorem addWalls_spec {aabb : Bool} : ∀ {l : List (Polygon Unit)} {t t' : Node} {S : List Source}, Reach aabb t S → (∃ d, t = .leaf d) →
    (∀ P ∈ l, IsConvexPolygon P) → addWalls aabb l t = some t' → Reach aabb t' (S ++ l.map fun P => ⟨0, P⟩) ∧ ∃ d, t' = .leaf d := by
  intro l
  induction l with
  | nil =>
    intro t t' S h1 h2 _ h
    cases h
    exact ⟨by simpa using h1, h2⟩
  | cons P l ih =>
    intro t t' S h1 h2 h3 h
    unfold addWalls at h
    obtain ⟨t1, h4, h5⟩ := Option.bind_eq_some_iff.1 h
    have := ih (h1.add (h3 P (by simp)) h4) (addRoot_leaf h2 h4) (fun Q hQ => h3 Q (List.mem_cons_of_mem _ hQ)) h5
    rwa [List.append_assoc] at this

theorem addCuts_spec {aabb : Bool} {b : AABB} : ∀ {l : List (HS3 × Bool)} {t t' : Node} {S : List Source}, Reach aabb t S → (∃ d, t = .leaf d) →
    (∀ a ∈ l, CutOK b a) → addCuts aabb b l t = some t' → ∃ S', CellCuts b l S' ∧ Reach aabb t' (S ++ S') ∧ ∃ d, t' = .leaf d := by
  intro l
  induction l with
  | nil =>
    intro t t' S h1 h2 _ h
    cases h
    exact ⟨[], .nil, by simpa using h1, h2⟩
  | cons a l ih =>
    intro t t' S h1 h2 h3 h
    unfold addCuts at h
    split at h
    · cases h
    · rename_i hw
      obtain ⟨S', h6, h7, h8⟩ := ih h1 h2 (fun a ha => h3 a (List.mem_cons_of_mem _ ha)) h
      exact ⟨S', .skip hw h6, h7, h8⟩
    · split at h
      · rename_i P hP
        obtain ⟨t1, h4, h5⟩ := Option.bind_eq_some_iff.1 h
        obtain ⟨c1, c2, c3⟩ := h3 a (by simp) P hP
        obtain ⟨S', h6, h7, h8⟩ := ih (h1.add c1 h4) (addRoot_leaf h2 h4) (fun a ha => h3 a (List.mem_cons_of_mem _ ha)) h5
        refine ⟨⟨1, P⟩ :: S', .cons c2 c3 h6, ?_, h8⟩
        rwa [List.append_assoc] at h7
      · cases h

theorem mappedCell_inv {aabb : Bool} {t : Node} {path : List Bool} {b : AABB} {d : NodeData} (h : mappedCell aabb t path b = some d)
    (hw : ∀ P ∈ walls () b, IsConvexPolygon P) (hc : ∀ l, pathPlanes t path = some l → ∀ a ∈ l, CutOK b a) :
    ∃ l S m, pathPlanes t path = some l ∧ l.map Prod.snd = path ∧ CellCuts b l S ∧ Reach aabb m ((walls () b).map (fun P => ⟨0, P⟩) ++ S) ∧
      Settled m ∧ Spine l m ∧ m.follow path = some (.leaf d) ∧
      ∃ d0, Reach aabb (.leaf d0) ((walls () b).map (fun P => ⟨0, P⟩) ++ S) ∧ splitPath l [] (.leaf d0) = some m := by
  unfold mappedCell at h
  obtain ⟨l, h1, h⟩ := Option.bind_eq_some_iff.1 h
  obtain ⟨m0, h2, h⟩ := Option.bind_eq_some_iff.1 h
  obtain ⟨m1, h2', h⟩ := Option.bind_eq_some_iff.1 h
  obtain ⟨m, h3, h⟩ := Option.bind_eq_some_iff.1 h
  obtain ⟨s, h4, rfl⟩ := Option.map_eq_some_iff.1 h
  obtain ⟨w1, w2⟩ := addWalls_spec .empty ⟨_, rfl⟩ hw h2
  rw [List.nil_append] at w1
  obtain ⟨S, c1, c2, d0, rfl⟩ := addCuts_spec w1 w2 (hc l h1) h2'
  obtain ⟨r1, r2, r3⟩ := splitPath_spec (l0 := []) c2 trivial trivial h3
  rw [List.nil_append] at r3
  have hp := pathPlanes_snd h1
  obtain ⟨d, -, e1, -⟩ := r3.leaf []
  rw [hp, h4, Option.some.injEq] at e1
  subst e1
  exact ⟨l, S, m, h1, hp, c1, r1, r2, r3, h4, d0, c2, h3⟩

theorem not_facing_away {g : HS3} {x : BPoly} {anc : Anc} {r : PlaneRef} (hr : r.plane = g) {c : Bool}
    (hx : PieceOK (anc ++ [(r, !c)]) x) (hx' : (∀ a ∈ anc ++ [(r, !c)], ¬ Through a.1.plane x.poly.plane) ∨
      ∃ l a r', anc ++ [(r, !c)] = l ++ a :: r' ∧ Through a.1.plane x.poly.plane ∧ (∀ b ∈ l ++ r', ¬ Through b.1.plane x.poly.plane) ∧
        (if a.2 then dotQ x.poly.plane.n.q a.1.plane.n.q < 0 else 0 < dotQ x.poly.plane.n.q a.1.plane.n.q))
    {q : Q3} (hq : q ∈ x.poly.region) (h : strictly (g, c) q ∨ Facing x.poly.plane (g, c)) : False := by
  rcases h with h | ⟨ht, h⟩
  · exact not_facing hr hx hx' hq (Or.inl h)
  · dsimp only at ht h
    rcases hx' with hx' | ⟨l, a, r', e, -, h2, h3⟩
    · exact hx' (r, !c) (by simp) (by rw [hr]; exact ht)
    · have ha : a = (r, !c) := by
        have hm : (r, !c) ∈ l ++ a :: r' := by rw [← e]; simp
        rcases List.mem_append.1 hm with hm | hm
        · exact absurd (by rw [hr]; exact ht) (h2 _ (List.mem_append_left _ hm))
        · rcases List.mem_cons.1 hm with hm | hm
          · exact hm.symm
          · exact absurd (by rw [hr]; exact ht) (h2 _ (List.mem_append_right _ hm))
      subst ha
      rw [hr] at h3
      cases c
      · simp only [Bool.not_false, if_true, Bool.false_eq_true, if_false] at h3 h
        linarith
      · simp only [Bool.not_true, if_true, Bool.false_eq_true, if_false] at h3 h
        linarith

/-- Like `Spine.find`, for polygons whose plane is a multiple of the split plane. -/
theorem Spine.findFacing : ∀ {l : List (HS3 × Bool)} {t : Node} {anc : Anc}, Spine l t → Settled t → TreeOK anc t → ∀ {x : BPoly} {q : Q3}, x ∈ t.polys →
    q ∈ x.poly.region → (∀ a ∈ l, strictly a q ∨ Facing x.poly.plane a) →
    ∃ d, t.follow (l.map Prod.snd) = some (.leaf d) ∧ x ∈ d.border ++ d.contents := by
  intro l
  induction l with
  | nil =>
    intro t anc h _ _ x q hx _ _
    cases t with
    | inner d g n p => exact h.elim
    | leaf d =>
      refine ⟨d, rfl, ?_⟩
      unfold Node.polys at hx
      rw [List.mem_append] at *
      exact hx.symm
  | cons c l ih =>
    intro t anc h hs ht x q hx hq hl
    cases t with
    | leaf d => exact h.elim
    | inner d g n p =>
      obtain ⟨rfl, h2⟩ := h
      obtain ⟨s1, s2, s3, s4⟩ := hs
      obtain ⟨-, -, -, -, t3, t4⟩ := ht
      obtain ⟨g, b⟩ := c
      unfold Node.polys at hx
      rw [s1, s2] at hx
      simp only [List.append_nil, List.nil_append, List.mem_append] at hx
      have hc := hl (g, b) (by simp)
      have off : ∀ {k : NodeData} {c : Bool}, c = b → TreeOK (anc ++ [(⟨anc.map Prod.snd, g⟩, !c)]) (.leaf k) → x ∈ (Node.leaf k).polys → False := by
        rintro k c rfl ⟨k1, k2, -⟩ hk
        rcases List.mem_append.1 hk with hk | hk
        · exact not_facing_away rfl (k1 x hk).toPieceOK (Or.inl (k1 x hk).off.2) hq hc
        · obtain ⟨l', a, r, e1, e2, e3, -, e4⟩ := (k2 x hk).on
          exact not_facing_away rfl (k2 x hk).toPieceOK (Or.inr ⟨l', a, r, e1, e2, e3, e4⟩) hq hc
      cases b
      · simp only [Bool.false_eq_true, if_false] at h2
        obtain ⟨⟨k, rfl⟩, h3⟩ := h2
        rcases hx with hx | hx
        · obtain ⟨d', e1, e2⟩ := ih h3 s3 t3 hx hq fun a ha => hl a (List.mem_cons_of_mem _ ha)
          exact ⟨d', e1, e2⟩
        · exact (off (c := false) rfl t4 hx).elim
      · simp only [if_true] at h2
        obtain ⟨⟨k, rfl⟩, h3⟩ := h2
        rcases hx with hx | hx
        · exact (off (c := true) rfl t3 hx).elim
        · obtain ⟨d', e1, e2⟩ := ih h3 s4 t4 hx hq fun a ha => hl a (List.mem_cons_of_mem _ ha)
          exact ⟨d', e1, e2⟩

end Walnut.Bsp
