/-
The loop over the edges of a split plane.
-/
import Verif.Poly.LinkMerge

namespace Walnut.Poly
open Walnut.Geom Walnut.Props Walnut.Mono

/-- The edges that meet at a straight end of the common edge. -/
theorem even_end {W : World} (hL : Linked W) (hM : NoMinWorld W) (hE : EvenLines W) {p q i j : Nat} {e f : Edge Nat}
    (ge : (W.polys p).edges[i]? = some e) (gf : (W.polys q).edges[j]? = some f)
    (hpt : (W.polys p).pt ((i + 1) % (W.polys p).count) = f.vertex.pt) (hs : World.straight e f = true) :
    W.partner e.data = none ↔ W.partner f.data = none := by
  have cp := hL.convex_of ge
  have cq := hL.convex_of gf
  have li : i < (W.polys p).count := (List.getElem?_eq_some_iff.1 ge).1
  have lj : j < (W.polys q).count := (List.getElem?_eq_some_iff.1 gf).1
  have ne : ∀ {K : Polygon Nat} {i : Nat}, IsConvexPolygon K → i < K.count → K.pt i ≠ K.pt ((i + 1) % K.count) := by
    intro K i hK hi
    have n3 := hK.three
    by_cases c : i + 1 < K.count
    · rw [Nat.mod_eq_of_lt c]; exact hK.distinct _ _ (by omega) c
    · rw [show i + 1 = K.count by omega, Nat.mod_self]
      exact (hK.distinct 0 i (by omega) hi).symm
  have l1 := cp.line i li
  have l2 := cq.line j lj
  have d1 := ne cp li
  have d2 := ne cq lj
  have h1 : (e.data, (W.polys p).pt i, (W.polys p).pt ((i + 1) % (W.polys p).count)) ∈ halfEdges (W.polys p).edges :=
    mem_halfEdges.2 ⟨i, e, ge, rfl, rfl, rfl⟩
  have h2 : (f.data, (W.polys q).pt j, (W.polys q).pt ((j + 1) % (W.polys q).count)) ∈ halfEdges (W.polys q).edges :=
    mem_halfEdges.2 ⟨j, f, gf, rfl, rfl, rfl⟩
  rw [hpt] at l1 d1 h1
  rw [(pt_get ge).2.2] at l1
  rw [(pt_get gf).1] at l2 d2 h2
  rw [(pt_get gf).2.2] at l2
  have w := cq.finite j lj
  rw [(pt_get gf).2.1] at w
  have := (straight_iff l1 l2 d1 d2 ((hM p).2 e (List.mem_of_getElem? ge)) ((hM q).2 f (List.mem_of_getElem? gf)) w rfl).1 hs
  exact hE p q _ _ _ _ _ h1 h2 this

/-- `TryMergePolygon` for an edge and its partner. -/
theorem polygon_merged_even {W : World} (hL : Linked W) (hM : NoMinWorld W) (hE : EvenLines W) {dim : Fin 3} {p a q b : Nat} {ea eb : Edge Nat}
    (ga : (W.polys p).edges[a]? = some ea) (gb : (W.polys q).edges[b]? = some eb) (hab : W.partner ea.data = some eb.data)
    (hd : ea.line.d.comp dim ≠ 0) :
    ∃ r W', World.tryMergePolygon dim W p a q b = some (r, W') ∧ Merged W W' p q r := by
  have cp := hL.convex_of ga
  have cq := hL.convex_of gb
  have la : a < (W.polys p).count := (List.getElem?_eq_some_iff.1 ga).1
  have lb : b < (W.polys q).count := (List.getElem?_eq_some_iff.1 gb).1
  have n3 := cp.three
  have k3 := cq.three
  have hha : (ea.data, (W.polys p).pt a, (W.polys p).pt ((a + 1) % (W.polys p).count)) ∈ halfEdges (W.polys p).edges :=
    mem_halfEdges.2 ⟨a, ea, ga, rfl, rfl, rfl⟩
  have hhb : (eb.data, (W.polys q).pt b, (W.polys q).pt ((b + 1) % (W.polys q).count)) ∈ halfEdges (W.polys q).edges :=
    mem_halfEdges.2 ⟨b, eb, gb, rfl, rfl, rfl⟩
  obtain ⟨tb, -⟩ := hL.twin p _ _ _ _ hha hab
  rw [hL.own_edge gb] at tb
  have hpt := label_unique (hL.once q) hhb tb rfl
  simp only [Prod.mk.injEq, true_and] at hpt
  obtain ⟨hB, hA⟩ := hpt
  have wrap : ∀ {i n : Nat}, i < n → ((i + n - 1) % n + 1) % n = i := by
    intro i n h
    rw [Nat.mod_add_mod, show i + n - 1 + 1 = i + n by omega, Nat.add_mod_right, Nat.mod_eq_of_lt h]
  refine polygon_merged hL hM ga gb hab hd (fun e f g1 g2 hs => ?_) (fun e f g1 g2 hs => ?_)
  · refine even_end hL hM hE g1 g2 ?_ hs
    rw [wrap la, ← hA, (pt_get g2).1]
  · refine even_end hL hM hE g1 g2 ?_ hs
    rw [wrap lb, hB, (pt_get g2).1]

theorem SameDir3.refl (a : V3) : SameDir3 a a := ⟨1, 1, one_pos, one_pos, rfl⟩

theorem SameDir3.trans {a b c : V3} (h1 : SameDir3 a b) (h2 : SameDir3 b c) : SameDir3 a c := by
  obtain ⟨k, l, k0, l0, e⟩ := h1
  obtain ⟨k', l', k0', l0', e'⟩ := h2
  refine ⟨k * k', l * l', by positivity, by positivity, ?_⟩
  rw [v3_ext_comp] at *
  intro i
  have e1 := e i
  have e2 := e' i
  rw [comp_scale, comp_scale] at *
  linear_combination k' * e1 + l * e2

/-- The dimension chosen by the visitor. -/
theorem edgeDimension_ne {drop : Fin 3} {n d : V3} (hn : n.comp drop ≠ 0) (hd : d ≠ ⟨0, 0, 0⟩) (h : n.dot d = 0) :
    d.comp (World.edgeDimension drop d) ≠ 0 := by
  unfold World.edgeDimension
  split_ifs with h1
  · intro h2
    apply hd
    obtain ⟨x, y, z⟩ := d
    obtain ⟨u, v, w⟩ := n
    obtain rfl | rfl | rfl := fin3 drop
    · have e1 : y = 0 := h1
      have e2 : z = 0 := h2
      have e3 : u ≠ 0 := hn
      subst e1 e2
      simp only [V3.dot, mul_zero, add_zero] at h
      rw [(mul_eq_zero.1 h).resolve_left e3]
    · have e1 : z = 0 := h1
      have e2 : x = 0 := h2
      have e3 : v ≠ 0 := hn
      subst e1 e2
      simp only [V3.dot, mul_zero, add_zero, zero_add] at h
      rw [(mul_eq_zero.1 h).resolve_left e3]
    · have e1 : x = 0 := h1
      have e2 : y = 0 := h2
      have e3 : w ≠ 0 := hn
      subst e1 e2
      simp only [V3.dot, mul_zero, zero_add] at h
      rw [(mul_eq_zero.1 h).resolve_left e3]
  · exact h1

/-- One step of the loop. -/
theorem mergeAt_merged {W : World} (hL : Linked W) (hM : NoMinWorld W) (hE : EvenLines W) {drop : Fin 3} {n : V3} {x : Nat}
    (hn : n.comp drop ≠ 0) (hp : ∀ p, ∀ e ∈ (W.polys p).edges, e.data = x → n.dot e.line.d = 0) :
    ∃ W', World.mergeAt drop W x = some W' ∧ ∃ p q r, Merged W W' p q r := by
  have keep : World.mergeAt drop W x = some W → ∃ W', World.mergeAt drop W x = some W' ∧ ∃ p q r, Merged W W' p q r := fun h =>
    ⟨W, h, 0, 1, false, Merged.stay hL hM 0 1⟩
  cases hi : W.index x with
  | none => exact keep (by unfold World.mergeAt; rw [hi])
  | some i =>
    obtain ⟨e, ge, rfl⟩ : ∃ e, (W.polys (W.owner x)).edges[i]? = some e ∧ e.data = x := by
      unfold World.index at hi
      rw [List.findIdx?_eq_some_iff_getElem] at hi
      obtain ⟨h1, h2, -⟩ := hi
      exact ⟨_, List.getElem?_eq_getElem h1, by simpa using h2⟩
    have he : W.edge e.data = some e := by
      unfold World.edge; rw [hi]; exact ge
    cases hy : W.partner e.data with
    | none => exact keep (by unfold World.mergeAt; rw [hi, he, hy])
    | some y =>
      have hh : (e.data, (W.polys (W.owner e.data)).pt i, (W.polys (W.owner e.data)).pt ((i + 1) % (W.polys (W.owner e.data)).count)) ∈ halfEdges (W.polys (W.owner e.data)).edges :=
        mem_halfEdges.2 ⟨i, e, ge, rfl, rfl, rfl⟩
      obtain ⟨t1, t2⟩ := hL.twin _ _ _ _ _ hh hy
      obtain ⟨j, f, gf, df, -, -⟩ := mem_halfEdges.1 t1
      dsimp only at df
      have hj : W.index y = some j := by rw [← df]; exact (hL.index_eq gf).1
      have cp := hL.convex_of ge
      have n3 := cp.three
      have li : i < (W.polys (W.owner e.data)).count := (List.getElem?_eq_some_iff.1 ge).1
      have hd : e.line.d ≠ ⟨0, 0, 0⟩ := by
        have l := cp.line i li
        rw [(pt_get ge).2.2] at l
        refine l.d_ne ?_
        by_cases c : i + 1 < (W.polys (W.owner e.data)).count
        · rw [Nat.mod_eq_of_lt c]; exact cp.distinct _ _ (by omega) c
        · rw [show i + 1 = (W.polys (W.owner e.data)).count by omega, Nat.mod_self]
          exact (cp.distinct 0 i (by omega) li).symm
      obtain ⟨r, W', h1, h2⟩ := polygon_merged_even hL hM hE ge gf (by rw [df]; exact hy)
        (edgeDimension_ne hn hd (hp _ e (List.mem_of_getElem? ge) rfl))
      refine ⟨W', ?_, _, _, r, h2⟩
      unfold World.mergeAt
      rw [hi, he, hy]
      dsimp only
      rw [hj, Option.bind_eq_bind, Option.bind_some, h1]; rfl

theorem Groups.refl (W : World) : Groups W W id :=
  ⟨fun p => by simp, fun q => SameDir3.refl _⟩

theorem Groups.trans {W W' W'' : World} {g g' : Nat → Nat} (h : Groups W W' g) (h' : Groups W' W'' g') : Groups W W'' (g' ∘ g) := by
  refine ⟨fun p => ?_, fun q => SameDir3.trans (h'.normals (g q)) (h.normals q)⟩
  rw [h'.regions]
  ext z
  simp only [Set.mem_iUnion, Set.mem_ofPred_eq, h.regions, exists_prop, Function.comp]
  constructor
  · rintro ⟨r, rfl, q, rfl, hz⟩
    exact ⟨q, rfl, hz⟩
  · rintro ⟨q, rfl, hz⟩
    exact ⟨g q, rfl, q, rfl, hz⟩

theorem region_empty {P : Polygon Nat} (h : P.edges = []) : P.region = ∅ := by
  unfold Polygon.region
  have : {q | ∃ i, i < P.count ∧ q = P.pt i} = (∅ : Set Q3) := by
    ext q
    simp [Polygon.count, h]
  rw [this, convexHull_empty]

theorem Merged.groups {W W' : World} {p q : Nat} {r : Bool} (h : Merged W W' p q r) : ∃ g, Groups W W' g := by
  cases r with
  | false =>
    rw [h.stays rfl]
    exact ⟨id, Groups.refl W⟩
  | true =>
    have hpq := h.ne rfl
    refine ⟨fun s => if s = q then p else s, fun s => ?_, fun s => ?_⟩
    · ext z
      simp only [Set.mem_iUnion, Set.mem_ofPred_eq, exists_prop]
      by_cases k1 : s = p
      · subst k1
        rw [h.union rfl]
        constructor
        · rintro (hz | hz)
          · exact ⟨s, by rw [if_neg hpq], hz⟩
          · exact ⟨q, by rw [if_pos rfl], hz⟩
        · rintro ⟨t, ht, hz⟩
          split_ifs at ht with h0
          · subst h0; exact Or.inr hz
          · subst ht; exact Or.inl hz
      · by_cases k2 : s = q
        · subst k2
          rw [region_empty (h.gone rfl)]
          simp only [Set.mem_empty_iff_false, false_iff, not_exists, not_and]
          rintro t ht
          split_ifs at ht with h0
          · exact absurd ht hpq
          · exact absurd ht h0
        · rw [h.regions s k1 k2]
          constructor
          · intro hz; exact ⟨s, by rw [if_neg k2], hz⟩
          · rintro ⟨t, ht, hz⟩
            split_ifs at ht with h0
            · exact absurd ht.symm k1
            · subst ht; exact hz
    · rw [h.planes]
      split_ifs with h0
      · subst h0; exact h.same rfl
      · exact SameDir3.refl _

/-- The loop. -/
theorem mergeList_merged {drop : Fin 3} {n : V3} (hn : n.comp drop ≠ 0) (l : List Nat) {W : World} (hL : Linked W) (hM : NoMinWorld W)
    (hE : EvenLines W) (hp : ∀ x ∈ l, ∀ p, ∀ e ∈ (W.polys p).edges, e.data = x → n.dot e.line.d = 0) :
    ∃ W', World.mergeList drop W l = some W' ∧ Linked W' ∧ EvenLines W' ∧ (NoOpenEdge W → NoOpenEdge W') ∧ ∃ g, Groups W W' g := by
  induction l generalizing W with
  | nil => exact ⟨W, rfl, hL, hE, id, id, Groups.refl W⟩
  | cons x l ih =>
    obtain ⟨W1, h1, p, q, r, h2⟩ := mergeAt_merged hL hM hE hn (hp x (by simp))
    obtain ⟨W2, h3, h4, h5, h6, g', h7⟩ := ih h2.linked h2.small (h2.even hE) (by
      intro y hy s e he hey
      obtain ⟨s', hs'⟩ := h2.edges s e he
      exact hp y (List.mem_cons_of_mem _ hy) s' e hs' hey)
    obtain ⟨g, hg⟩ := h2.groups
    refine ⟨W2, ?_, h4, h5, fun h => h6 (h2.full h), _, hg.trans h7⟩
    unfold World.mergeList at *
    rw [List.foldlM_cons, h1]
    exact h3

end Walnut.Poly
