/-
`TryMergePolygon` for connected polygons.
-/
import Verif.Poly.LinkStep

namespace Walnut.Poly
open Walnut.Geom Walnut.Props Walnut.Mono

/-- The first part of `TryMergePolygon`. -/
theorem join_spec {dim : Fin 3} {P Q : Polygon Nat} {a b : Nat} (hP : IsConvexPolygon P) (hQ : IsConvexPolygon Q)
    (ha : a < P.count) (hb : b < Q.count) (hA : P.pt a = Q.pt ((b + 1) % Q.count)) (hB : Q.pt b = P.pt ((a + 1) % P.count))
    (hd : P.pt ((a + 1) % P.count) dim ≠ P.pt a dim) (m1 : NoMin2 (P.plane.n.dropDimension dim)) (m2 : NoMin2 (Q.plane.n.dropDimension dim))
    (m3 : ∀ e ∈ P.edges, NoMin3 e.line.d) (m4 : ∀ e ∈ Q.edges, NoMin3 e.line.d) :
    ∃ o, joinPolygons dim P a Q b = some o ∧ ∀ R t1 t2, o = some (R, t1, t2) →
      ∃ ea na pa eb nb pb Pm Qm, MergeIn P a Q b ea na pa eb nb pb Pm Qm ∧ P.edges[a]? = some ea ∧ Q.edges[b]? = some eb ∧
        P.edges[(a + P.count - 1) % P.count]? = some pa ∧ Q.edges[(b + 1) % Q.count]? = some nb ∧
        Q.edges[(b + Q.count - 1) % Q.count]? = some pb ∧ P.edges[(a + 1) % P.count]? = some na ∧
        R = { P with edges := P.edges.take a ++ (nb :: (Qm ++ [pb])) ++ P.edges.drop (a + 1) } ∧
        IsConvexPolygon R ∧ R.region = P.region ∪ Q.region ∧ SameDir3 P.plane.n Q.plane.n ∧
        (t1 = 0 → World.straight pa nb = true) ∧ (t2 = 0 → World.straight pb na = true) := by
  have n3 := hP.three
  have k3 := hQ.three
  have get : ∀ {K : Polygon Nat} {i : Nat}, i < K.count → ∃ e, K.edges[i]? = some e := by
    intro K i hi
    exact ⟨_, List.getElem?_eq_getElem hi⟩
  have la1 : (a + 1) % P.count < P.count := Nat.mod_lt _ (by omega)
  have la2 : (a + P.count - 1) % P.count < P.count := Nat.mod_lt _ (by omega)
  have lb1 : (b + 1) % Q.count < Q.count := Nat.mod_lt _ (by omega)
  have lb2 : (b + Q.count - 1) % Q.count < Q.count := Nat.mod_lt _ (by omega)
  obtain ⟨ea, h1⟩ := get ha
  obtain ⟨eb, h2⟩ := get hb
  obtain ⟨na, h3⟩ := get la1
  obtain ⟨nb, h4⟩ := get lb1
  obtain ⟨pa, h5⟩ := get la2
  obtain ⟨pb, h6⟩ := get lb2
  rw [(pt_get h1).1, (pt_get h4).1] at hA
  rw [(pt_get h2).1, (pt_get h3).1] at hB
  rw [(pt_get h3).1, (pt_get h1).1] at hd
  have fin : ∀ {K : Polygon Nat} {i : Nat} {e : Edge Nat}, IsConvexPolygon K → K.edges[i]? = some e → e.vertex.w ≠ 0 := by
    intro K i e hK he
    rw [← (pt_get he).2.1]
    exact hK.finite _ (List.getElem?_eq_some_iff.1 he).1
  obtain ⟨Pm, Qm, hi⟩ := exists_mergeIn hP hQ h1 h2 h3 h4 h5 h6 hA hB
  have vA := (C20_eq _ _ (fin hP h1) (fin hQ h4)).2 hA
  have vB := (C20_eq _ _ (fin hQ h2) (fin hP h3)).2 hB
  have hd' : ea.line.d.comp dim ≠ 0 := hi.common.2 (sub_ne_zero.2 hd)
  obtain ⟨p1, p2, p3, p4⟩ := hi.perp
  obtain ⟨same, hsame, -⟩ := C19_same_dir2_partial _ _ (drop_ne (sub_ne_zero.2 hd) p1 p3) (drop_ne (sub_ne_zero.2 hd) p2 p4) m1 m2
  have hn := hi.normals hd' hsame
  unfold joinPolygons
  simp only [h1, h2, h3, h4, h5, h6, Option.bind_eq_bind, Option.bind_some, hd', vA, vB, Bool.true_eq_false, or_self, if_false, hsame]
  split_ifs with hbl
  · exact ⟨_, rfl, by simp⟩
  · simp only [not_or, Bool.not_eq_false, Bool.not_eq_true] at hbl
    have hs := hn.1 hbl.1
    have hcv := (hi.blocked_iff_convex hs hd').1 hbl.2
    obtain ⟨sp, tl⟩ := hi.splice
    rw [sp, Option.bind_some]
    refine ⟨_, rfl, ?_⟩
    intro R t1 t2 he
    simp only [Option.some.injEq, Prod.mk.injEq] at he
    obtain ⟨rfl, rfl, rfl⟩ := he
    have rot : left nb Qm pb na Pm pa false false ~r P.edges.take a ++ (nb :: (Qm ++ [pb])) ++ P.edges.drop (a + 1) := by
      have := List.isRotated_append (l := nb :: (Qm ++ [pb]) ++ P.edges.drop (a + 1)) (l' := P.edges.take a)
      rw [List.append_assoc, tl] at this
      simpa [left] using this
    obtain ⟨c1, c2⟩ := hcv.isRotated rot
    have fc := hi.facing hs
    have hreg : Polygon.region { P with edges := left nb Qm pb na Pm pa false false } = P.region ∪ Q.region := by
      rw [← hi.unite_eq, fc.region (fc.bends (by rw [hi.unite_eq]; exact hcv))]
      congr 1
      · exact (hP.isRotated ⟨a, rfl⟩).2
      · exact (hQ.isRotated ⟨b, rfl⟩).2
    have st : ∀ {e f : Edge Nat} {c : Bool}, edgeStep (D := Nat) ⟨fun _ _ => true, fun x _ => x, id⟩ e f = some c → World.straight e f = true := by
      intro e f c hc
      unfold edgeStep at hc
      split_ifs at hc with h0
      unfold World.straight
      rw [h0.1, h0.2]; rfl
    obtain ⟨s1, s2⟩ := hi.steps ⟨fun _ _ => true, fun x _ => x, id⟩ hs hcv (m3 _ (List.mem_of_getElem? h5)) (m4 _ (List.mem_of_getElem? h4))
      (m4 _ (List.mem_of_getElem? h6)) (m3 _ (List.mem_of_getElem? h3))
    refine ⟨ea, na, pa, eb, nb, pb, Pm, Qm, hi, rfl, rfl, rfl, rfl, rfl, rfl, rfl, c1, by rw [c2, hreg], hs, fun z => ?_, fun z => ?_⟩
    · obtain ⟨c, hc⟩ := s1 z
      exact st hc
    · obtain ⟨c, hc⟩ := s2 z
      exact st hc

/-- The half-edges after the edges of `q` moved to `p`. -/
theorem joined_halves {P Q : Polygon Nat} {a b : Nat} {ea na pa eb nb pb : Edge Nat} {Pm Qm : List (Edge Nat)}
    (hi : MergeIn P a Q b ea na pa eb nb pb Pm Qm) (ndP : ((halfEdges P.edges).map Prod.fst).Nodup)
    (ndQ : ((halfEdges Q.edges).map Prod.fst).Nodup) (dis : ∀ x, x ∈ (halfEdges P.edges).map Prod.fst → x ∉ (halfEdges Q.edges).map Prod.fst) :
    let l := P.edges.take a ++ (nb :: (Qm ++ [pb])) ++ P.edges.drop (a + 1)
    ((halfEdges l).map Prod.fst).Nodup ∧
      ∀ h, h ∈ halfEdges l ↔ (h ∈ halfEdges P.edges ∧ h.1 ≠ ea.data) ∨ (h ∈ halfEdges Q.edges ∧ h.1 ≠ eb.data) := by
  intro l
  obtain ⟨H, K, e1, e2, e3⟩ := halfEdges_join (Pm := Pm) (pa := pa) (Qm := Qm) (pb := pb) hi.ptA hi.ptB
  obtain ⟨-, tl⟩ := hi.splice
  have pl : (halfEdges l).Perm (K ++ H) := by
    rw [← e3]
    refine halfEdges_rotated (List.IsRotated.symm ?_)
    have := List.isRotated_append (l := nb :: (Qm ++ [pb]) ++ P.edges.drop (a + 1)) (l' := P.edges.take a)
    rw [List.append_assoc, tl] at this
    simpa [l] using this
  have pP : (halfEdges P.edges).Perm ((ea.data, ea.vertex.pt, na.vertex.pt) :: H) := by
    rw [← e1, ← hi.ep]; exact halfEdges_rotated ⟨a, rfl⟩
  have pQ : (halfEdges Q.edges).Perm ((eb.data, eb.vertex.pt, nb.vertex.pt) :: K) := by
    rw [← e2, ← hi.eq]; exact halfEdges_rotated ⟨b, rfl⟩
  have n1 := (pP.map Prod.fst).nodup_iff.1 ndP
  have n2 := (pQ.map Prod.fst).nodup_iff.1 ndQ
  simp only [List.map_cons, List.nodup_cons] at n1 n2
  constructor
  · rw [(pl.map Prod.fst).nodup_iff, List.map_append]
    refine List.Nodup.append n2.2 n1.2 ?_
    intro x x1 x2
    refine dis x ((pP.map Prod.fst).mem_iff.2 ?_) ((pQ.map Prod.fst).mem_iff.2 ?_)
    · exact List.mem_cons_of_mem _ x2
    · exact List.mem_cons_of_mem _ x1
  · intro h
    rw [pl.mem_iff, List.mem_append, pP.mem_iff, pQ.mem_iff, List.mem_cons, List.mem_cons]
    constructor
    · rintro (h1 | h1)
      · exact Or.inr ⟨Or.inr h1, fun e0 => n2.1 (e0 ▸ List.mem_map_of_mem h1)⟩
      · exact Or.inl ⟨Or.inr h1, fun e0 => n1.1 (e0 ▸ List.mem_map_of_mem h1)⟩
    · rintro (⟨h1 | h1, h2⟩ | ⟨h1 | h1, h2⟩)
      · rw [h1] at h2; exact absurd rfl h2
      · exact Or.inr h1
      · rw [h1] at h2; exact absurd rfl h2
      · exact Or.inl h1

/-- Moving the edges keeps the links. -/
theorem moveAll_linked {W : World} (hL : Linked W) {p a q b : Nat} (hpq : p ≠ q) {ea na pa eb nb pb : Edge Nat} {Pm Qm : List (Edge Nat)}
    (hi : MergeIn (W.polys p) a (W.polys q) b ea na pa eb nb pb Pm Qm) (ga : (W.polys p).edges[a]? = some ea)
    (gb : (W.polys q).edges[b]? = some eb) (hab : W.partner ea.data = some eb.data) {R : Polygon Nat}
    (hR : R = { W.polys p with edges := (W.polys p).edges.take a ++ (nb :: (Qm ++ [pb])) ++ (W.polys p).edges.drop (a + 1) })
    (hc : IsConvexPolygon R) :
    Linked (W.moveAll p a q b R) ∧ (NoOpenEdge W → NoOpenEdge (W.moveAll p a q b R)) ∧
      (EvenLines W → EvenLines (W.moveAll p a q b R)) ∧
      (∀ z, z ≠ ea.data → z ≠ eb.data → (W.moveAll p a q b R).partner z = W.partner z) ∧
      (∀ z, W.owner z = p ∨ (∃ A B, (z, A, B) ∈ halfEdges (W.polys q).edges ∧ z ≠ eb.data) → (W.moveAll p a q b R).owner z = p) ∧
      (∀ r s, Adj (W.moveAll p a q b R) r s → ∃ t t', Adj W t t' ∧ (if t = q then p else t) = r ∧ (if t' = q then p else t') = s) ∧
      (∀ x A B, Open (W.moveAll p a q b R) x A B ↔ Open W x A B) ∧
      (∀ r, ∀ g ∈ ((W.moveAll p a q b R).polys r).edges, (W.moveAll p a q b R).partner g.data = W.partner g.data) := by
  have lab : ∀ {r x}, x ∈ (halfEdges (W.polys r).edges).map Prod.fst → W.owner x = r := by
    intro r x hx
    obtain ⟨h, hh, rfl⟩ := List.mem_map.1 hx
    exact hL.own r h.1 h.2.1 h.2.2 hh
  have jh := joined_halves hi (hL.once p) (hL.once q) (fun x x1 x2 => hpq ((lab x1).symm.trans (lab x2)))
  have hRe : R.edges = (W.polys p).edges.take a ++ (nb :: (Qm ++ [pb])) ++ (W.polys p).edges.drop (a + 1) := by rw [hR]
  simp only at jh
  rw [← hRe] at jh
  obtain ⟨nd, mem⟩ := jh
  have la := hi.la
  have hta : ((W.polys p).edges.take a).length = a := by
    unfold Polygon.count at la; rw [List.length_take]; omega
  have hmoved : (R.edges.drop a).take ((W.polys q).count - 1) = nb :: (Qm ++ [pb]) := by
    rw [hRe, List.append_assoc, List.drop_append, hta, Nat.sub_self, List.drop_of_length_le (by omega), List.nil_append, List.drop_zero,
      List.take_append, List.take_of_length_le, hi.countQ]
    · simp
    · rw [hi.countQ]; simp
  have hmv : ∀ x, x ∈ (nb :: (Qm ++ [pb])).map (fun e : Edge Nat => e.data) ↔ ∃ A B, (x, A, B) ∈ halfEdges (W.polys q).edges ∧ x ≠ eb.data := by
    intro x
    have pq : ((W.polys q).edges.map (fun e : Edge Nat => e.data)).Perm (eb.data :: (nb :: (Qm ++ [pb])).map (fun e : Edge Nat => e.data)) := by
      have := (List.rotate_perm (W.polys q).edges b).symm.map (fun e : Edge Nat => e.data)
      rw [hi.eq] at this
      exact this
    have ndq := pq.nodup_iff.1 (hL.labels q)
    rw [List.nodup_cons] at ndq
    constructor
    · intro hx
      have : x ∈ (halfEdges (W.polys q).edges).map Prod.fst := by
        rw [halfEdges_labels]
        exact pq.mem_iff.2 (List.mem_cons_of_mem _ hx)
      obtain ⟨h, hh, rfl⟩ := List.mem_map.1 this
      exact ⟨h.2.1, h.2.2, hh, fun e0 => ndq.1 (e0 ▸ hx)⟩
    · rintro ⟨A, B, h1, h2⟩
      have : x ∈ (halfEdges (W.polys q).edges).map Prod.fst := List.mem_map_of_mem (f := Prod.fst) h1
      rw [halfEdges_labels, pq.mem_iff, List.mem_cons] at this
      exact this.resolve_left h2
  have at_p : (W.moveAll p a q b R).polys p = R := by
    unfold World.moveAll; dsimp only; rw [setAt_other hpq, setAt_same]
  have at_q : ((W.moveAll p a q b R).polys q).edges = [] := by
    unfold World.moveAll; dsimp only; rw [setAt_same]
  have at_r : ∀ r, r ≠ p → r ≠ q → (W.moveAll p a q b R).polys r = W.polys r := by
    intro r k1 k2
    unfold World.moveAll; dsimp only; rw [setAt_other k2, setAt_other k1]
  have oM : ∀ x, (∃ A B, (x, A, B) ∈ halfEdges (W.polys q).edges ∧ x ≠ eb.data) → (W.moveAll p a q b R).owner x = p := by
    intro x hx
    unfold World.moveAll; dsimp only
    rw [hmoved, if_pos ((hmv x).2 hx)]
  have oN : ∀ x, W.owner x ≠ q → (W.moveAll p a q b R).owner x = W.owner x := by
    intro x hx
    unfold World.moveAll; dsimp only
    rw [hmoved, if_neg]
    intro h0
    obtain ⟨A, B, h1, -⟩ := (hmv x).1 h0
    exact hx (hL.own q x A B h1)
  have pab : ∀ z, (W.moveAll p a q b R).partner z = if ea.data = z ∨ eb.data = z then none else W.partner z := by
    intro z
    unfold World.moveAll; dsimp only
    rw [ga, gb]
    simp
  have pN : ∀ z, z ≠ ea.data → z ≠ eb.data → (W.moveAll p a q b R).partner z = W.partner z := by
    intro z z1 z2
    rw [pab, if_neg (by rintro (h | h) <;> simp_all)]
  have ha1 := hL.half (e := ea) (f := na) ga (by
    have := hi.getP (i := 1) (by have := hi.hp.three; omega)
    rw [Nat.add_comm 1 a] at this
    rw [← this]; rfl)
  obtain ⟨hb1, hba⟩ := hL.twin p _ _ _ _ ha1 hab
  have oea := hL.own_edge ga
  have oeb := hL.own_edge gb
  have mem' : ∀ r h, h ∈ halfEdges ((W.moveAll p a q b R).polys r).edges → h.1 ≠ ea.data ∧ h.1 ≠ eb.data ∧
      ((r = p ∧ h ∈ halfEdges (W.polys p).edges) ∨ (r = p ∧ h ∈ halfEdges (W.polys q).edges) ∨
        (r ≠ p ∧ r ≠ q ∧ h ∈ halfEdges (W.polys r).edges)) := by
    intro r h hh
    by_cases k1 : r = p
    · subst k1
      rw [at_p] at hh
      rcases (mem h).1 hh with ⟨h1, h2⟩ | ⟨h1, h2⟩
      · refine ⟨h2, ?_, Or.inl ⟨rfl, h1⟩⟩
        intro e0
        have := hL.own _ h.1 h.2.1 h.2.2 h1
        rw [e0, oeb] at this; exact hpq this.symm
      · refine ⟨?_, h2, Or.inr (Or.inl ⟨rfl, h1⟩)⟩
        intro e0
        have := hL.own _ h.1 h.2.1 h.2.2 h1
        rw [e0, oea] at this; exact hpq this
    · by_cases k2 : r = q
      · subst k2
        rw [at_q] at hh
        simp [halfEdges] at hh
      · rw [at_r r k1 k2] at hh
        have := hL.own _ h.1 h.2.1 h.2.2 hh
        refine ⟨?_, ?_, Or.inr (Or.inr ⟨k1, k2, hh⟩)⟩
        · intro e0; rw [e0, oea] at this; exact k1 this.symm
        · intro e0; rw [e0, oeb] at this; exact k2 this.symm
  have back : ∀ r z A B, (z, A, B) ∈ halfEdges ((W.moveAll p a q b R).polys r).edges → ∃ r', (z, A, B) ∈ halfEdges (W.polys r').edges := by
    intro r z A B hh
    rcases (mem' r _ hh).2.2 with ⟨-, h⟩ | ⟨-, h⟩ | ⟨-, -, h⟩
    · exact ⟨_, h⟩
    · exact ⟨_, h⟩
    · exact ⟨_, h⟩
  refine ⟨⟨?_, ?_, ?_, ?_⟩, ?_, ?_, pN, ?_, ?_, ?_, ?_⟩
  · intro r
    by_cases k1 : r = p
    · subst k1; rw [at_p]; exact Or.inr hc
    · by_cases k2 : r = q
      · subst k2; exact Or.inl at_q
      · rw [at_r r k1 k2]; exact hL.convex r
  · intro r
    by_cases k1 : r = p
    · subst k1; rw [at_p]; exact nd
    · by_cases k2 : r = q
      · subst k2; rw [at_q]; simp [halfEdges]
      · rw [at_r r k1 k2]; exact hL.once r
  · intro r z A B hh
    obtain ⟨z1, z2, h⟩ := mem' r _ hh
    rcases h with ⟨rfl, h⟩ | ⟨rfl, h⟩ | ⟨k1, k2, h⟩
    · rw [oN z (by rw [hL.own _ _ _ _ h]; exact hpq)]; exact hL.own _ _ _ _ h
    · exact oM z ⟨A, B, h, z2⟩
    · have := hL.own _ _ _ _ h
      rw [oN z (by rw [this]; exact k2)]; exact this
  · intro r z A B w hh hw
    obtain ⟨z1, z2, -⟩ := mem' r _ hh
    dsimp only at z1 z2
    obtain ⟨r', hr'⟩ := back r z A B hh
    rw [pN z z1 z2] at hw
    obtain ⟨t1, t2⟩ := hL.twin r' z A B w hr' hw
    have w1 : w ≠ ea.data := by rintro rfl; rw [hab] at t2; exact z2 (Option.some.inj t2).symm
    have w2 : w ≠ eb.data := by rintro rfl; rw [hba] at t2; exact z1 (Option.some.inj t2).symm
    refine ⟨?_, by rw [pN w w1 w2]; exact t2⟩
    by_cases k2 : W.owner w = q
    · rw [k2] at t1
      rw [oM w ⟨B, A, t1, w2⟩, at_p]
      exact (mem _).2 (Or.inr ⟨t1, w2⟩)
    · rw [oN w k2]
      by_cases k1 : W.owner w = p
      · rw [k1] at t1 ⊢
        rw [at_p]
        exact (mem _).2 (Or.inl ⟨t1, w1⟩)
      · rw [at_r _ k1 k2]; exact t1
  · intro hF r z A B hh
    obtain ⟨z1, z2, -⟩ := mem' r _ hh
    obtain ⟨r', hr'⟩ := back r z A B hh
    rw [pN z z1 z2]
    exact hF r' z A B hr'
  · refine even_of_cover fun r z A B hh => ?_
    obtain ⟨z1, z2, -⟩ := mem' r _ hh
    obtain ⟨r', hr'⟩ := back r z A B hh
    rw [pN z z1 z2]
    exact ⟨⟨r', z, B, hr', Or.inl rfl, Iff.rfl⟩, ⟨r', z, A, hr', Or.inl rfl, Iff.rfl⟩⟩
  · rintro z (h | h)
    · rw [oN z (by rw [h]; exact hpq)]; exact h
    · exact oM z h
  · rintro r s ⟨z, A, B, w, hz, hw, ho⟩
    obtain ⟨z1, z2, hc⟩ := mem' r _ hz
    dsimp only at z1 z2
    rw [pN z z1 z2] at hw
    have tw : ∀ r', (z, A, B) ∈ halfEdges (W.polys r').edges → (if W.owner w = q then p else W.owner w) = s := by
      intro r' hr'
      obtain ⟨t1, t2⟩ := hL.twin r' z A B w hr' hw
      have w2 : w ≠ eb.data := by rintro rfl; rw [hba] at t2; exact z1 (Option.some.inj t2).symm
      by_cases k2 : W.owner w = q
      · rw [k2] at t1
        rw [if_pos k2, ← ho]; exact (oM w ⟨B, A, t1, w2⟩).symm
      · rw [if_neg k2, ← ho]; exact (oN w k2).symm
    rcases hc with ⟨h1, h⟩ | ⟨h1, h⟩ | ⟨k1, k2, h⟩
    · exact ⟨p, _, ⟨z, A, B, w, h, hw, rfl⟩, by rw [if_neg hpq, h1], tw _ h⟩
    · exact ⟨q, _, ⟨z, A, B, w, h, hw, rfl⟩, by rw [if_pos rfl, h1], tw _ h⟩
    · exact ⟨r, _, ⟨z, A, B, w, h, hw, rfl⟩, by rw [if_neg k2], tw _ h⟩
  · intro z A B
    constructor
    · rintro ⟨⟨r, hz⟩, ho⟩
      obtain ⟨z1, z2, -⟩ := mem' r _ hz
      rw [pN z z1 z2] at ho
      exact ⟨back r z A B hz, ho⟩
    · rintro ⟨⟨r, hz⟩, ho⟩
      have z1 : z ≠ ea.data := by rintro rfl; rw [hab] at ho; cases ho
      have z2 : z ≠ eb.data := by rintro rfl; rw [hba] at ho; cases ho
      refine ⟨?_, by rw [pN z z1 z2]; exact ho⟩
      by_cases k1 : r = p
      · subst k1
        exact ⟨r, by rw [at_p]; exact (mem _).2 (Or.inl ⟨hz, z1⟩)⟩
      · by_cases k2 : r = q
        · subst k2
          exact ⟨p, by rw [at_p]; exact (mem _).2 (Or.inr ⟨hz, z2⟩)⟩
        · exact ⟨r, by rw [at_r r k1 k2]; exact hz⟩
  · intro r g hg
    obtain ⟨i', hi'⟩ := List.getElem?_of_mem hg
    have hz := half_of_mem hi'
    obtain ⟨z1, z2, -⟩ := mem' r _ hz
    exact pN _ z1 z2

theorem cyclic_next {α : Type} {T Y Dr M : List α} {z na : α} (h : Dr ++ T = na :: M) :
    (T ++ Y ++ [z] ++ Dr)[T.length + Y.length]? = some z ∧
      (T ++ Y ++ [z] ++ Dr)[(T.length + Y.length + 1) % (T ++ Y ++ [z] ++ Dr).length]? = some na := by
  constructor
  · rw [List.getElem?_append_left (by simp), ← List.length_append, List.getElem?_concat_length]
  · cases Dr with
    | nil =>
      rw [List.nil_append] at h
      subst h
      have : (na :: M).length + Y.length + 1 = (na :: M ++ Y ++ [z] ++ []).length := by simp; omega
      rw [this, Nat.mod_self]; rfl
    | cons d Dr =>
      simp only [List.cons_append, List.cons.injEq] at h
      obtain ⟨rfl, -⟩ := h
      rw [Nat.mod_eq_of_lt (by simp; omega), List.getElem?_append_right (by simp; omega)]
      simp

theorem cyclic_prev {α : Type} {T Y Dr M : List α} {x pa : α} (h : Dr ++ T = M ++ [pa]) :
    (T ++ x :: Y ++ Dr)[(T.length + (T ++ x :: Y ++ Dr).length - 1) % (T ++ x :: Y ++ Dr).length]? = some pa ∧
      ((T.length + (T ++ x :: Y ++ Dr).length - 1) % (T ++ x :: Y ++ Dr).length + 1) % (T ++ x :: Y ++ Dr).length = T.length ∧
      (T ++ x :: Y ++ Dr)[T.length]? = some x := by
  have h3 : (T ++ x :: Y ++ Dr)[T.length]? = some x := by
    rw [List.append_assoc, List.getElem?_append_right (le_refl _), Nat.sub_self]; rfl
  refine ⟨?_, ?_, h3⟩
  · rcases List.eq_nil_or_concat' T with hT | ⟨T', q, hT⟩
    · subst hT
      rw [List.append_nil] at h
      subst h
      have : (([] : List α).length + ([] ++ x :: Y ++ (M ++ [pa])).length - 1) % ([] ++ x :: Y ++ (M ++ [pa])).length = (x :: Y ++ M).length := by
        rw [Nat.mod_eq_of_lt (by simp)]; simp; omega
      rw [this, List.nil_append, ← List.append_assoc, List.getElem?_concat_length]
    · subst hT
      rw [← List.append_assoc] at h
      obtain ⟨-, h⟩ := List.append_inj' h rfl
      obtain rfl : q = pa := by simpa using h
      have : ((T' ++ [q]).length + (T' ++ [q] ++ x :: Y ++ Dr).length - 1) % (T' ++ [q] ++ x :: Y ++ Dr).length = T'.length := by
        rw [show (T' ++ [q]).length + (T' ++ [q] ++ x :: Y ++ Dr).length - 1 = T'.length + (T' ++ [q] ++ x :: Y ++ Dr).length by simp,
          Nat.add_mod_right, Nat.mod_eq_of_lt (by simp)]
      rw [this]
      simp
  · have hl : T.length < (T ++ x :: Y ++ Dr).length := by simp
    rw [Nat.mod_add_mod, show T.length + (T ++ x :: Y ++ Dr).length - 1 + 1 = T.length + (T ++ x :: Y ++ Dr).length by omega,
      Nat.add_mod_right, Nat.mod_eq_of_lt hl]

theorem EdgeMerged.small {W W' : World} {p next e f : Nat} {m : Bool} (h : EdgeMerged W W' p next e f m) (hM : NoMinWorld W) :
    NoMinWorld W' := by
  intro r
  rw [(h.regions r).2]
  exact ⟨(hM r).1, fun e he => (hM r).2 e ((h.sub r).subset he)⟩

/-- Two half-edges of the polygons `p` and `q` without partners are united. -/
def JoinIn (W : World) (p q : Nat) (O O' : Nat → Q3 → Q3 → Prop) : Prop :=
  ∃ e f, (W.owner e = p ∨ W.owner e = q) ∧ (W.owner f = p ∨ W.owner f = q) ∧ OpenJoin O O' e f

/-- The polygon that the edges of polygon `s` are moved to. -/
def movedTo (p q : Nat) (r : Bool) (s : Nat) : Nat := if r = true ∧ s = q then p else s

/-- What `TryMergePolygon` returned for the polygons `p` and `q`. -/
structure Merged (W W' : World) (p q : Nat) (r : Bool) : Prop where
  linked : Linked W'
  small : NoMinWorld W'
  full : NoOpenEdge W → NoOpenEdge W'
  even : EvenLines W → EvenLines W'
  stays : r = false → W' = W
  ne : r = true → p ≠ q
  gone : r = true → (W'.polys q).edges = []
  union : r = true → (W'.polys p).region = (W.polys p).region ∪ (W.polys q).region
  same : r = true → SameDir3 (W.polys p).plane.n (W.polys q).plane.n
  planes : ∀ s, (W'.polys s).plane = (W.polys s).plane
  regions : ∀ s, s ≠ p → s ≠ q → (W'.polys s).region = (W.polys s).region
  edges : ∀ s, ∀ e ∈ (W'.polys s).edges, ∃ s', e ∈ (W.polys s').edges
  moved : ∀ s, ∀ e ∈ (W'.polys s).edges, ∃ s', e ∈ (W.polys s').edges ∧ movedTo p q r s' = s ∧ (W'.partner e.data = none ↔ W.partner e.data = none)
  adj : ∀ s s', Adj W' s s' → ∃ t t', Adj W t t' ∧ movedTo p q r t = s ∧ movedTo p q r t' = s'
  opens : Relation.ReflTransGen (JoinIn W p q) (Open W) (Open W')

theorem Merged.stay {W : World} (hL : Linked W) (hM : NoMinWorld W) (p q : Nat) : Merged W W p q false :=
  ⟨hL, hM, id, id, fun _ => rfl, by simp, by simp, by simp, by simp, fun _ => rfl, fun _ _ _ => rfl, fun s e he => ⟨s, he⟩,
    fun s e he => ⟨s, he, by simp [movedTo], Iff.rfl⟩, fun s s' h => ⟨s, s', h, by simp [movedTo], by simp [movedTo]⟩, Relation.ReflTransGen.refl⟩

theorem noMin_drop {v : V3} (h : NoMin3 v) (k : Fin 3) : NoMin2 (v.dropDimension k) := by
  obtain ⟨h1, h2, h3⟩ := h
  obtain rfl | rfl | rfl := fin3 k <;> exact ⟨by assumption, by assumption⟩

/-- `TryMergePolygon` on linked polygons, for an edge and its partner. -/
theorem polygon_merged {W : World} (hL : Linked W) (hM : NoMinWorld W) {dim : Fin 3} {p a q b : Nat} {ea eb : Edge Nat}
    (ga : (W.polys p).edges[a]? = some ea) (gb : (W.polys q).edges[b]? = some eb) (hab : W.partner ea.data = some eb.data)
    (hd : ea.line.d.comp dim ≠ 0)
    (ev1 : ∀ e f, (W.polys p).edges[(a + (W.polys p).count - 1) % (W.polys p).count]? = some e →
      (W.polys q).edges[(b + 1) % (W.polys q).count]? = some f → World.straight e f = true → (W.partner e.data = none ↔ W.partner f.data = none))
    (ev2 : ∀ e f, (W.polys q).edges[(b + (W.polys q).count - 1) % (W.polys q).count]? = some e →
      (W.polys p).edges[(a + 1) % (W.polys p).count]? = some f → World.straight e f = true → (W.partner e.data = none ↔ W.partner f.data = none)) :
    ∃ r W', World.tryMergePolygon dim W p a q b = some (r, W') ∧ Merged W W' p q r := by
  have cp := hL.convex_of ga
  have cq := hL.convex_of gb
  have la : a < (W.polys p).count := (List.getElem?_eq_some_iff.1 ga).1
  have lb : b < (W.polys q).count := (List.getElem?_eq_some_iff.1 gb).1
  have n3 := cp.three
  have k3 := cq.three
  have hha : (ea.data, (W.polys p).pt a, (W.polys p).pt ((a + 1) % (W.polys p).count)) ∈ halfEdges (W.polys p).edges :=
    mem_halfEdges.2 ⟨a, ea, ga, rfl, rfl, rfl⟩
  have hhb : (eb.data, (W.polys q).pt b, (W.polys q).pt ((b + 1) % (W.polys q).count)) ∈ halfEdges (W.polys q).edges :=
    mem_halfEdges.2 ⟨b, eb, gb, rfl, rfl, rfl⟩
  obtain ⟨tb, hba⟩ := hL.twin p _ _ _ _ hha hab
  rw [hL.own_edge gb] at tb
  have hpq : p ≠ q := by
    rintro rfl
    exact no_reverse cp hha tb
  have hpt := label_unique (hL.once q) hhb tb rfl
  simp only [Prod.mk.injEq, true_and] at hpt
  obtain ⟨hB, hA⟩ := hpt
  have hd' : (W.polys p).pt ((a + 1) % (W.polys p).count) dim ≠ (W.polys p).pt a dim := by
    have l := cp.line a la
    rw [(pt_get ga).2.2] at l
    obtain ⟨s, s0, f⟩ := l.dir
    intro e0
    apply hd
    have := f dim
    rw [e0, sub_self, mul_zero] at this
    unfold V3.q at this
    exact_mod_cast this
  obtain ⟨o, ho, hR⟩ := join_spec (dim := dim) cp cq la lb hA.symm hB hd' (noMin_drop (hM p).1 _) (noMin_drop (hM q).1 _) (hM p).2 (hM q).2
  have hrun : ∀ o', o = o' → World.tryMergePolygon dim W p a q b = (match o' with
    | none => some (false, W)
    | some (R, t1, t2) =>
      (World.mergeEnds (W.moveAll p a q b R) p a R.count (W.polys q).count t1 t2).map fun W' => (true, W')) := by
    rintro o' rfl
    unfold World.tryMergePolygon
    rw [if_neg hpq, ho, Option.bind_some]
    cases o <;> rfl
  cases o with
  | none =>
    exact ⟨false, W, hrun _ rfl, Merged.stay hL hM p q⟩
  | some o =>
    obtain ⟨R, t1, t2⟩ := o
    obtain ⟨ea', na, pa, eb', nb, pb, Pm, Qm, hi, g1, g2, g3, g4, g5, g6, hRe, hRc, hRr, hs, st1, st2⟩ := hR R t1 t2 rfl
    obtain rfl : ea = ea' := Option.some.inj (ga.symm.trans g1)
    obtain rfl : eb = eb' := Option.some.inj (gb.symm.trans g2)
    obtain ⟨L1, F1, V1, P1, O1, A1, Q1, S1⟩ := moveAll_linked hL hpq hi ga gb hab hRe hRc
    have hrun := hrun _ rfl
    dsimp only at hrun
    set W1 := W.moveAll p a q b R with hW1
    have ev1' := ev1 pa nb g3 g4
    have ev2' := ev2 pb na g5 g6
    have at_p : W1.polys p = R := by rw [hW1]; unfold World.moveAll; dsimp only; rw [setAt_other hpq, setAt_same]
    have at_q : W1.polys q = { W.polys q with edges := [] } := by rw [hW1]; unfold World.moveAll; dsimp only; rw [setAt_same]
    have at_r : ∀ r, r ≠ p → r ≠ q → W1.polys r = W.polys r := by
      intro r k1 k2
      rw [hW1]; unfold World.moveAll; dsimp only; rw [setAt_other k2, setAt_other k1]
    have Rpl : R.plane = (W.polys p).plane := by rw [hRe]
    have Redges : ∀ e ∈ R.edges, e ∈ (W.polys p).edges ∨ e ∈ (W.polys q).edges := by
      intro e he
      rw [hRe] at he
      simp only [List.mem_append] at he
      rcases he with (he | he) | he
      · exact Or.inl (List.mem_of_mem_take he)
      · right
        have : e ∈ (W.polys q).edges.rotate b := by rw [hi.eq]; exact List.mem_cons_of_mem _ he
        rwa [List.mem_rotate] at this
      · exact Or.inl (List.mem_of_mem_drop he)
    have planes1 : ∀ s, (W1.polys s).plane = (W.polys s).plane := by
      intro s
      by_cases k1 : s = p
      · subst k1; rw [at_p, Rpl]
      · by_cases k2 : s = q
        · subst k2; rw [at_q]
        · rw [at_r s k1 k2]
    have edges1 : ∀ s, ∀ e ∈ (W1.polys s).edges, ∃ s', e ∈ (W.polys s').edges := by
      intro s e he
      by_cases k1 : s = p
      · subst k1; rw [at_p] at he
        rcases Redges e he with h | h
        · exact ⟨_, h⟩
        · exact ⟨_, h⟩
      · by_cases k2 : s = q
        · subst k2; rw [at_q] at he; simp at he
        · rw [at_r s k1 k2] at he; exact ⟨_, he⟩
    have M1 : NoMinWorld W1 := by
      intro s
      rw [planes1 s]
      refine ⟨(hM s).1, fun e he => ?_⟩
      obtain ⟨s', h⟩ := edges1 s e he
      exact (hM s').2 e h
    -- labels
    have ndP : ((ea :: na :: (Pm ++ [pa])).map (fun e : Edge Nat => e.data)).Nodup := by
      rw [← hi.ep]
      exact ((List.rotate_perm _ _).map _).nodup_iff.2 (hL.labels p)
    have ndQ : ((eb :: nb :: (Qm ++ [pb])).map (fun e : Edge Nat => e.data)).Nodup := by
      rw [← hi.eq]
      exact ((List.rotate_perm _ _).map _).nodup_iff.2 (hL.labels q)
    simp only [List.map_cons, List.map_append, List.map_nil, List.nodup_cons, List.mem_cons, List.mem_append, List.not_mem_nil, or_false,
      not_or] at ndP ndQ
    obtain ⟨⟨ea_na, -, ea_pa⟩, ⟨-, na_pa⟩, -⟩ := ndP
    obtain ⟨⟨eb_nb, -, eb_pb⟩, ⟨-, nb_pb⟩, -⟩ := ndQ
    have o_ea := hL.own_edge ga
    have o_eb := hL.own_edge gb
    have o_na := hL.own_edge g6
    have o_pa := hL.own_edge g3
    have o_nb := hL.own_edge g4
    have o_pb := hL.own_edge g5
    have diff : ∀ {x y : Nat}, W.owner x = p → W.owner y = q → x ≠ y := by
      rintro x y h1 h2 rfl
      exact hpq (h1.symm.trans h2)
    have ppa := P1 pa.data (fun h => ea_pa h.symm) (diff o_pa o_eb)
    have pna := P1 na.data (fun h => ea_na h.symm) (diff o_na o_eb)
    have pnb := P1 nb.data (diff o_ea o_nb).symm (fun h => eb_nb h.symm)
    have ppb := P1 pb.data (diff o_ea o_pb).symm (fun h => eb_pb h.symm)
    have opb : W1.owner pb.data = p := O1 _ (Or.inr ⟨_, _, mem_halfEdges.2 ⟨_, pb, g5, rfl, rfl, rfl⟩, fun h => eb_pb h.symm⟩)
    have ona : W1.owner na.data = p := O1 _ (Or.inl o_na)
    obtain ⟨-, tl⟩ := hi.splice
    have hta : ((W.polys p).edges.take a).length = a := by
      unfold Polygon.count at la; rw [List.length_take]; omega
    generalize hT : (W.polys p).edges.take a = T at hta tl hRe
    generalize hDr : (W.polys p).edges.drop (a + 1) = Dr at tl hRe
    have hE : R.edges = T ++ nb :: (Qm ++ [pb]) ++ Dr := by rw [hRe]
    obtain ⟨c1, c2, c3⟩ := cyclic_prev (T := T) (Y := Qm ++ [pb]) (Dr := Dr) (x := nb) (M := na :: Pm) (pa := pa) (by rw [tl]; rfl)
    rw [← hE, hta] at c1 c2 c3
    -- the first end
    obtain ⟨m, W2, run1, em⟩ : ∃ m W2, (if t1 = 0 then World.tryMergeEdge 2 W1 p ((a + R.count - 1) % R.count) else some (false, W1)) =
        some (m, W2) ∧ EdgeMerged W1 W2 p a pa.data nb.data m := by
      by_cases ht : t1 = 0
      · rw [if_pos ht]
        have hcount : R.count = R.edges.length := rfl
        obtain ⟨m, W2, h1, h2⟩ := edge_merged (n := 0) L1 M1 (p := p) (i := (a + R.count - 1) % R.count) (e := pa) (f := nb)
          (by rw [at_p, hcount]; exact c1) (by rw [at_p, hcount, c2]; exact c3) (st1 ht) (by rw [ppa, pnb]; exact ev1' (st1 ht))
        rw [at_p, hcount, c2] at h2
        exact ⟨m, W2, h1, h2⟩
      · rw [if_neg ht]
        exact ⟨false, W1, rfl, L1, fun _ => ⟨rfl, rfl⟩, fun _ => List.Sublist.refl _, fun _ h => h, id, id, rfl, rfl, fun _ _ _ _ => rfl,
          fun _ _ h => h, Or.inl fun _ _ _ => Iff.rfl, fun _ _ _ => Iff.rfl⟩
    have E2 : (W2.polys p).edges = T ++ ((if m then [] else [nb]) ++ Qm) ++ [pb] ++ Dr := by
      rw [em.edges, at_p, hE]
      cases m with
      | false => simp
      | true =>
        rw [if_pos rfl, if_pos rfl, List.append_assoc, List.eraseIdx_append_of_length_le (by omega), hta, Nat.sub_self]
        simp
    have idx : ((if m then (a : Int) - 1 else a) + (W.polys q).count - 2).toNat = T.length + ((if m then [] else [nb]) ++ Qm : List (Edge Nat)).length ∧
        ¬ ((if m then (a : Int) - 1 else a) + (W.polys q).count - 2 < 0) := by
      rw [hi.countQ, hta]
      cases m <;> simp <;> omega
    obtain ⟨d1, d2⟩ := cyclic_next (T := T) (Y := (if m then [] else [nb]) ++ Qm) (Dr := Dr) (z := pb) tl
    rw [← E2] at d1 d2
    have M2 := em.small M1
    -- the second end
    obtain ⟨m', W3, run2, em2⟩ : ∃ m' W3, (if t2 = 0 then
          if (if m then (a : Int) - 1 else a) + (W.polys q).count - 2 < 0 then none
          else (World.tryMergeEdge 2 W2 p ((if m then (a : Int) - 1 else a) + (W.polys q).count - 2).toNat).map Prod.snd
        else some W2) = some W3 ∧
        EdgeMerged W2 W3 p ((T.length + ((if m then [] else [nb]) ++ Qm : List (Edge Nat)).length + 1) % (W2.polys p).edges.length) pb.data na.data m' := by
      by_cases ht : t2 = 0
      · rw [if_pos ht, if_neg idx.2, idx.1]
        have e1 : W2.partner pb.data = W.partner pb.data := by
          rw [em.others pb.data opb (diff o_pa o_pb).symm (fun h => nb_pb h.symm), ppb]
        have e2 : W2.partner na.data = W.partner na.data := by
          rw [em.others na.data ona na_pa (diff o_na o_nb), pna]
        obtain ⟨m', W3, h1, h2⟩ := edge_merged (n := 0) em.linked M2 (p := p) d1 d2 (st2 ht) (by rw [e1, e2]; exact ev2' (st2 ht))
        exact ⟨m', W3, by rw [h1]; rfl, h2⟩
      · rw [if_neg ht]
        exact ⟨false, W2, rfl, em.linked, fun _ => ⟨rfl, rfl⟩, fun _ => List.Sublist.refl _, fun _ h => h, id, id, rfl, rfl, fun _ _ _ _ => rfl,
          fun _ _ h => h, Or.inl fun _ _ _ => Iff.rfl, fun _ _ _ => Iff.rfl⟩
    have regs : ∀ s, (W3.polys s).region = (W1.polys s).region ∧ (W3.polys s).plane = (W1.polys s).plane := fun s =>
      ⟨(em2.regions s).1.trans (em.regions s).1, (em2.regions s).2.trans (em.regions s).2⟩
    have subs : ∀ s, (W3.polys s).edges.Sublist (W1.polys s).edges := fun s => (em2.sub s).trans (em.sub s)
    have moved1 : ∀ s, ∀ e ∈ (W1.polys s).edges, ∃ s', e ∈ (W.polys s').edges ∧ movedTo p q true s' = s := by
      intro s e he
      unfold movedTo
      by_cases k1 : s = p
      · subst k1; rw [at_p] at he
        rcases Redges e he with h | h
        · exact ⟨s, h, by simp [hpq]⟩
        · exact ⟨q, h, by simp⟩
      · by_cases k2 : s = q
        · subst k2; rw [at_q] at he; simp at he
        · rw [at_r s k1 k2] at he; exact ⟨s, he, by simp [k2]⟩
    have eqO : ∀ {V V' : World}, (∀ x A B, Open V' x A B ↔ Open V x A B) → Open V' = Open V := by
      intro V V' h
      funext x A B
      exact propext (h x A B)
    have opens : Relation.ReflTransGen (JoinIn W p q) (Open W) (Open W3) := by
      have s1 : Relation.ReflTransGen (JoinIn W p q) (Open W) (Open W2) := by
        rcases em.opens with h | h
        · rw [eqO h, eqO Q1]
        · rw [eqO Q1] at h
          exact Relation.ReflTransGen.single ⟨_, _, Or.inl o_pa, Or.inr o_nb, h⟩
      rcases em2.opens with h | h
      · rw [eqO h]; exact s1
      · exact s1.tail ⟨_, _, Or.inr o_pb, Or.inl o_na, h⟩
    refine ⟨true, W3, ?_, em2.linked, em2.small M2, fun h => em2.full (em.full (F1 h)), fun h => em2.even (em.even (V1 h)), by simp, fun _ => hpq, fun _ => ?_, fun _ => ?_, fun _ => hs,
      fun s => ?_, fun s k1 k2 => ?_, fun s e he => ?_, fun s e he => ?_, fun s s' h => ?_, opens⟩
    · rw [hrun]
      unfold World.mergeEnds
      rw [run1, Option.bind_some]
      dsimp only
      rw [run2]; rfl
    · have := subs q
      rw [at_q] at this
      exact List.sublist_nil.1 this
    · rw [(regs p).1, at_p, hRr]
    · rw [(regs s).2, planes1]
    · rw [(regs s).1, at_r s k1 k2]
    · exact edges1 s e ((subs s).subset he)
    · obtain ⟨s', h1, h2⟩ := moved1 s e ((subs s).subset he)
      refine ⟨s', h1, h2, ?_⟩
      rw [em2.status s e he, em.status s e ((em2.sub s).subset he), S1 s e ((subs s).subset he)]
    · obtain ⟨t, t', h1, h2, h3⟩ := A1 s s' (em.adj s s' (em2.adj s s' h))
      exact ⟨t, t', h1, by unfold movedTo; simpa using h2, by unfold movedTo; simpa using h3⟩

end Walnut.Poly
