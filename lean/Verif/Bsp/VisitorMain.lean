/-
What the visitors do with all of the calls of a traversal.
-/
import Verif.Bsp.VisitorProof
import Verif.Bsp.Jump
import Verif.Bsp.BoolRay

namespace Walnut.Bsp
open Walnut.Geom Walnut.Poly Walnut.Props

/-! ### The pointers of emitted polygons -/

theorem Deepest.get {anc : Anc} {C : HS3 → Prop} {s : SplitSide} (h : Deepest anc C s) {a : PlaneRef × Bool} (ha : a ∈ anc) (hc : C a.1.plane) :
    ∃ b ∈ anc, s = ⟨some b.1, b.2⟩ ∧ C b.1.plane := by
  rcases h with ⟨_, h⟩ | ⟨l, b, r, e, h1, _, h2⟩
  · exact absurd hc (h a ha)
  · exact ⟨b, by rw [e]; simp, h2, h1⟩

theorem Highest.get {anc : Anc} {C : HS3 → Prop} {s : SplitSide} (h : Highest anc C s) {a : PlaneRef × Bool} (ha : a ∈ anc) (hc : C a.1.plane) :
    ∃ b ∈ anc, s = ⟨some b.1, b.2⟩ ∧ C b.1.plane := by
  rcases h with ⟨_, h⟩ | ⟨l, b, r, e, h1, _, h2⟩
  · exact absurd hc (h a ha)
  · exact ⟨b, by rw [e]; simp, h2, h1⟩

/-- A plane that contains the plane of a polygon contains its edges. -/
theorem atEdge_of_through {P : Polygon EdgeInfo} (hP : IsConvexPolygon P) {g : HS3} (h : Through g P.plane) {i : Nat} (hi : i < P.count) : AtEdge P i g :=
  ⟨h _ (hP.onPlane i hi), h _ (hP.onPlane _ (Nat.mod_lt _ (by omega)))⟩

/-- The highest plane among the first ones does not depend on the others. -/
theorem highest_same : ∀ {A A' m m' : Anc} {C C' : HS3 → Prop} {s s' : SplitSide}, Highest (A ++ m) C s → Highest (A' ++ m') C' s' → A.map Prod.fst = A'.map Prod.fst →
    (∀ a ∈ A, C a.1.plane ↔ C' a.1.plane) → (∃ a ∈ A, C a.1.plane) → ∃ a ∈ A, s.split = some a.1 ∧ s'.split = some a.1 := by
  intro A
  induction A with
  | nil => intro _ _ _ _ _ _ _ _ _ _ _ h; simp at h
  | cons a A ih =>
    intro A' m m' C C' s s' h h' e hC hex
    cases A' with
    | nil => simp at e
    | cons a' A' =>
      simp only [List.map_cons, List.cons.injEq] at e
      have key : ∀ {A m : Anc} {a : PlaneRef × Bool} {C : HS3 → Prop} {s : SplitSide}, Highest (a :: A ++ m) C s → (C a.1.plane → s.split = some a.1) ∧ (¬ C a.1.plane → Highest (A ++ m) C s) := by
        intro A m a C s h
        rcases h with ⟨h1, h2⟩ | ⟨l, b, r, e, h1, h2, h3⟩
        · exact ⟨fun hc => absurd hc (h2 a (by simp)), fun _ => Or.inl ⟨h1, fun x hx => h2 x (by simp only [List.cons_append, List.mem_cons]; exact Or.inr hx)⟩⟩
        · cases l with
          | nil =>
            simp only [List.cons_append, List.nil_append, List.cons.injEq] at e
            obtain ⟨rfl, e⟩ := e
            exact ⟨fun _ => by rw [h3], fun hc => absurd h1 hc⟩
          | cons x l =>
            simp only [List.cons_append, List.cons.injEq] at e
            obtain ⟨rfl, e⟩ := e
            exact ⟨fun hc => absurd hc (h2 a (by simp)), fun _ => Or.inr ⟨l, b, r, e, h1, fun y hy => h2 y (by simp [hy]), h3⟩⟩
      by_cases hc : C a.1.plane
      · have h1 := (key h).1 hc
        have h2 := (key h').1 (by rw [← e.1]; exact (hC a (by simp)).1 hc)
        exact ⟨a, by simp, h1, by rw [h2, ← e.1]⟩
      · have h1 := (key h).2 hc
        have h2 := (key h').2 (by rw [← e.1]; exact fun h => hc ((hC a (by simp)).2 h))
        obtain ⟨x, hx, hxc⟩ := hex
        rcases List.mem_cons.1 hx with rfl | hx
        · exact absurd hxc hc
        · obtain ⟨y, hy, h⟩ := ih h1 h2 e.2 (fun z hz => hC z (by simp [hz])) ⟨x, hx, hxc⟩
          exact ⟨y, by simp [hy], h⟩

theorem border_ptrs {anc : Anc} {p : BPoly} (h : BorderOK anc p) {fl : Open} (hfl : fl.map Prod.fst = anc.map Prod.fst) : ∀ e ∈ p.poly.edges, EdgePtr fl e := by
  intro e he
  obtain ⟨i, hi, rfl⟩ := List.mem_iff_getElem.1 he
  obtain ⟨h1, h2, h3, h4⟩ := h.edges i _ (List.getElem?_eq_getElem hi)
  obtain ⟨l, a, r, ea, ht, _⟩ := h.on
  have ha : a ∈ anc := by rw [ea]; simp
  have hc := atEdge_of_through h.convex ht hi
  have mem : ∀ {b : PlaneRef × Bool}, b ∈ anc → ∃ x ∈ fl, b.1 = x.1 := by
    intro b hb
    have := List.mem_map_of_mem (f := Prod.fst) hb
    rw [← hfl] at this
    obtain ⟨x, hx, e⟩ := List.mem_map.1 this
    exact ⟨x, hx, e.symm⟩
  refine ⟨?_, ?_, ?_, ?_⟩
  · obtain ⟨b, hb, e, _⟩ := h3.get ha hc
    obtain ⟨x, hx, ex⟩ := mem hb
    exact ⟨x, hx, by rw [e, ← ex]⟩
  · obtain ⟨b, hb, e, _⟩ := h1.get ha hc.1
    obtain ⟨x, hx, ex⟩ := mem hb
    exact ⟨x, hx, by rw [e, ← ex]⟩
  · obtain ⟨b, hb, e, _⟩ := h2.get ha hc
    obtain ⟨x, hx, ex⟩ := mem hb
    exact ⟨x, hx, by rw [e, ← ex]⟩
  · rcases h4 with h4 | ⟨b, hb, _, e⟩
    · exact Or.inl h4
    · obtain ⟨x, hx, ex⟩ := mem hb
      exact Or.inr ⟨x, hx, by rw [e, ← ex]⟩

/-! ### Edges with a common part -/

/-- The ends of the edge. -/
noncomputable def Tag.a (t : Tag) : Q3 := t.p.poly.pt t.entry.edge
noncomputable def Tag.b (t : Tag) : Q3 := t.p.poly.pt ((t.entry.edge + 1) % t.p.poly.count)

/-- The edges lie on a common line and have a common inner point. -/
def Overlap (x y : Tag) : Prop := ∃ (z D : Q3) (k k' : ℚ), Between x.a x.b z ∧ Between y.a y.b z ∧ k ≠ 0 ∧ k' ≠ 0 ∧ x.b - x.a = k • D ∧ y.b - y.a = k' • D

theorem Overlap.symm {x y : Tag} (h : Overlap x y) : Overlap y x := by
  obtain ⟨z, D, k, k', h1, h2, h3, h4, h5, h6⟩ := h
  exact ⟨z, D, k', k, h2, h1, h4, h3, h6, h5⟩

/-- A plane contains the edge if it contains an inner point and the direction. -/
theorem contains_iff {g : HS3} {a b z D : Q3} {k : ℚ} (hz : Between a b z) (hk : k ≠ 0) (e : b - a = k • D) :
    (g.side a = 0 ∧ g.side b = 0) ↔ (g.side z = 0 ∧ dotQ g.n.q D = 0) := by
  obtain ⟨s, _, _, ez⟩ := hz
  have hb : g.side b = g.side a + k * dotQ g.n.q D := by
    rw [show b = a + k • D by rw [← e]; abel, side_ray]
  have hzz : g.side z = g.side a + s * k * dotQ g.n.q D := by
    rw [ez, e, smul_smul, side_ray]
  rw [hb, hzz]
  constructor
  · rintro ⟨h1, h2⟩
    rw [h1, zero_add] at h2
    have := (mul_eq_zero.1 h2).resolve_left hk
    rw [h1, this]; simp
  · rintro ⟨h1, h2⟩
    rw [h2] at h1 ⊢
    simp at h1
    rw [h1]; simp

theorem Overlap.contains {x y : Tag} (h : Overlap x y) (g : HS3) : AtEdge x.p.poly x.entry.edge g ↔ AtEdge y.p.poly y.entry.edge g := by
  obtain ⟨z, D, k, k', h1, h2, h3, h4, h5, h6⟩ := h
  exact (contains_iff h1 h3 h5).trans (contains_iff h2 h4 h6).symm

/-- If the plane separates the edges then it contains them. -/
theorem Overlap.separated {x y : Tag} (h : Overlap x y) {g : HS3} (xa : g.side x.a ≤ 0) (xb : g.side x.b ≤ 0) (ya : 0 ≤ g.side y.a) (yb : 0 ≤ g.side y.b) :
    AtEdge x.p.poly x.entry.edge g := by
  obtain ⟨z, D, k, k', h1, h2, h3, h4, h5, h6⟩ := h
  have conv : ∀ {a b : Q3} {s : ℚ}, g.side (a + s • (b - a)) = (1 - s) * g.side a + s * g.side b := by
    intro a b s
    have h := side_ray g a (b - a) 1
    rw [one_smul, add_sub_cancel, one_mul] at h
    rw [side_ray, h]; ring
  obtain ⟨s, s0, s1, es⟩ := h1
  obtain ⟨t, t0, t1, et⟩ := h2
  have z1 : g.side z ≤ 0 := by rw [es, conv]; nlinarith
  have z2 : 0 ≤ g.side z := by rw [et, conv]; nlinarith
  have z0 : g.side z = 0 := le_antisymm z1 z2
  rw [es, conv] at z0
  constructor
  · change g.side x.a = 0
    have : (1 - s) * g.side x.a = 0 := by nlinarith
    exact (mul_eq_zero.1 this).resolve_left (by linarith)
  · change g.side x.b = 0
    have : s * g.side x.b = 0 := by nlinarith
    exact (mul_eq_zero.1 this).resolve_left (by linarith)

theorem mem_tags {n : Nat} {l : List BPoly} {x : Tag} (h : x ∈ tags n l) :
    ∃ j, l[j]? = some x.p ∧ x.entry.poly = n + j ∧ x.p.poly.edges[x.entry.edge]? = some x.e := by
  induction l generalizing n with
  | nil => simp [tags] at h
  | cons p l ih =>
    rcases List.mem_append.1 h with h | h
    · obtain ⟨h1, h2, j, h3, h4⟩ := mem_edgeTags h
      exact ⟨0, by rw [h1]; rfl, h2, by rw [h1, h4, zero_add]; exact h3⟩
    · obtain ⟨j, h1, h2, h3⟩ := ih h
      exact ⟨j + 1, by simpa using h1, by omega, h3⟩

theorem edgeTags_mem {p : BPoly} {n : Nat} {l : List (Edge EdgeInfo)} {i j : Nat} {e : Edge EdgeInfo} (h : l[j]? = some e) :
    (⟨p, e, ⟨keyDepth e.data.createdBy.ptr, n, i + j⟩⟩ : Tag) ∈ edgeTags p n i l := by
  induction l generalizing i j with
  | nil => simp at h
  | cons f l ih =>
    cases j with
    | zero =>
      simp only [List.getElem?_cons_zero, Option.some.injEq] at h
      subst h; simp [edgeTags]
    | succ j =>
      have := ih (i := i + 1) (j := j) (by simpa using h)
      rw [edgeTags]
      refine List.mem_cons_of_mem _ ?_
      rw [show i + (j + 1) = i + 1 + j by omega]; exact this

theorem tags_mem {n : Nat} {l : List BPoly} {j i : Nat} {p : BPoly} {e : Edge EdgeInfo} (hp : l[j]? = some p) (he : p.poly.edges[i]? = some e) :
    (⟨p, e, ⟨keyDepth e.data.createdBy.ptr, n + j, i⟩⟩ : Tag) ∈ tags n l := by
  induction l generalizing n j with
  | nil => simp at hp
  | cons q l ih =>
    cases j with
    | zero =>
      simp only [List.getElem?_cons_zero, Option.some.injEq] at hp
      subst hp
      refine List.mem_append_left _ ?_
      have := edgeTags_mem (p := q) (n := n) (i := 0) he
      rw [zero_add] at this; exact this
    | succ j =>
      have := ih (n := n + 1) (j := j) (by simpa using hp)
      refine List.mem_append_right _ ?_
      rw [show n + (j + 1) = n + 1 + j by omega]; exact this

/-- Edges of emitted polygons with a common part: either a plane above contains both, or they
are handed to the connector in one call. -/
def Together (anc : Anc) (l : List Tag) (nc : List (PlaneRef × List Entry)) : Prop :=
  ∀ x ∈ l, ∀ y ∈ l, Overlap x y → (∃ a ∈ anc, x.key = some a.1.path ∧ y.key = some a.1.path) ∨ ∃ c ∈ nc, x.entry ∈ c.2 ∧ y.entry ∈ c.2

theorem key_of_split {x : Tag} {r : PlaneRef} (h : x.e.data.first.split = some r) : x.key = some r.path := by
  unfold Tag.key SplitSide.ptr; rw [h]; rfl

/-! ### The partitioner -/

theorem faces_run {base : Anc} {anc : Anc} {tr : List Visit} (h : Faces base anc tr) : ∀ {fl : Open}, fl.map Prod.fst = anc.map Prod.fst → LenOK fl → ∀ s, AtOpen fl s →
    ∃ s' nc, RunOf fl tr s s' nc := by
  induction h with
  | nil => intro fl _ _ s hs; exact ⟨s, [], .nil hs⟩
  | @leaf anc l _ ih =>
    intro fl h1 h2 s hs
    obtain ⟨s', nc, h⟩ := ih h1 h2 s hs
    exact ⟨s', _, (RunOf.leaf hs).append h⟩
  | @accept anc p l hp _ _ _ ih =>
    intro fl h1 h2 s hs
    obtain ⟨s1, r1⟩ := RunOf.accept h2 (border_ptrs hp h1) hs
    obtain ⟨s', nc, h⟩ := ih h1 h2 s1 r1.at'
    exact ⟨s', _, r1.append h⟩
  | @node anc r a b m hr _ _ _ iha ihb ihm =>
    intro fl h1 h2 s hs
    have hlen : r.path.length = fl.length := by
      rw [hr, List.length_map]
      have := congrArg List.length h1
      simpa using this.symm
    have hm : ∀ t, (fl ++ [(r, true)]).map Prod.fst = (anc ++ [(r, t)]).map Prod.fst := by
      intro t; rw [List.map_append, List.map_append, h1]; rfl
    obtain ⟨s1, n1, r1⟩ := iha (hm _) (h2.append hlen true) _ (hs.enter hlen)
    obtain ⟨s2, n2, r2⟩ := ihb (hm _) (h2.append hlen true) s1 r1.at'
    obtain ⟨s3, r3⟩ := RunOf.bracket h2 hlen hs (r1.append r2)
    obtain ⟨s4, n4, r4⟩ := ihm h1 h2 s3 r3.at'
    have := r3.append r4
    rw [show (Visit.enter true r :: (a ++ (b ++ .leave true r :: m))) = (.enter true r :: (a ++ b ++ [.leave true r])) ++ m by simp]
    exact ⟨s4, _, this⟩

theorem faces_together {anc : Anc} {tr : List Visit} (h : Faces anc anc tr) {n : Nat} {nc : List (PlaneRef × List Entry)} : Together anc (tags n (accepted tr)) nc := by
  intro x hx y hy ho
  obtain ⟨j, hj, _, hxe⟩ := mem_tags hx
  obtain ⟨j', hj', _, hye⟩ := mem_tags hy
  obtain ⟨m, bx, _, a, ha, hta⟩ := h.accepted_ok x.p (List.mem_of_getElem? hj)
  obtain ⟨m', by', _⟩ := h.accepted_ok y.p (List.mem_of_getElem? hj')
  obtain ⟨b, hb, e1, e2⟩ := highest_same (bx.edges _ _ hxe).2.2.1 (by'.edges _ _ hye).2.2.1 rfl (fun b _ => ho.contains _)
    ⟨a, ha, atEdge_of_through bx.convex hta (List.getElem?_eq_some_iff.1 hxe).1⟩
  exact Or.inl ⟨b, hb, key_of_split e1, key_of_split e2⟩

/-! ### The tree -/

theorem side_cell {anc m : Anc} {r : PlaneRef} {t : Bool} {x : Tag} (h : BorderOK (anc ++ [(r, t)] ++ m) x.p) (he : x.p.poly.edges[x.entry.edge]? = some x.e) :
    onSide r.plane t x.a ∧ onSide r.plane t x.b := by
  have hi : x.entry.edge < x.p.poly.count := (List.getElem?_eq_some_iff.1 he).1
  exact ⟨h.cell (pt_mem hi) (r, t) (by simp), h.cell (pt_mem (Nat.mod_lt _ (by omega))) (r, t) (by simp)⟩

theorem cross_together {anc : Anc} {r : PlaneRef} {a b : List Visit} (ha : Placed (anc ++ [(r, false)]) a) (hb : Placed (anc ++ [(r, true)]) b) {n n' : Nat} {x y : Tag}
    (hx : x ∈ tags n (accepted a)) (hy : y ∈ tags n' (accepted b)) (ho : Overlap x y) : ∃ c ∈ anc ++ [(r, false)], x.key = some c.1.path ∧ y.key = some c.1.path := by
  obtain ⟨j, hj, _, hxe⟩ := mem_tags hx
  obtain ⟨j', hj', _, hye⟩ := mem_tags hy
  obtain ⟨m, bx, _⟩ := ha.accepted_ok x.p (List.mem_of_getElem? hj)
  obtain ⟨m', by', _⟩ := hb.accepted_ok y.p (List.mem_of_getElem? hj')
  have sx := side_cell bx hxe
  have sy := side_cell by' hye
  simp only [onSide, Bool.false_eq_true, if_false, if_true] at sx sy
  have hc := ho.separated sx.1 sx.2 sy.1 sy.2
  obtain ⟨c, hc, e1, e2⟩ := highest_same (bx.edges _ _ hxe).2.2.1 (by'.edges _ _ hye).2.2.1 (by simp) (fun b _ => ho.contains _) ⟨(r, false), by simp, hc⟩
  exact ⟨c, hc, key_of_split e1, key_of_split e2⟩

theorem placed_run {anc : Anc} {tr : List Visit} (h : Placed anc tr) : ∀ {fl : Open}, fl.map Prod.fst = anc.map Prod.fst → LenOK fl → ∀ s, AtOpen fl s →
    ∃ s' nc, RunOf fl tr s s' nc ∧ Together anc (tags s.polygons.length (accepted tr)) nc := by
  induction h with
  | faces h =>
    intro fl h1 h2 s hs
    obtain ⟨s', nc, h3⟩ := faces_run h h1 h2 s hs
    exact ⟨s', nc, h3, faces_together h⟩
  | @node anc r a b hr ha hb iha ihb =>
    intro fl h1 h2 s hs
    have hlen : r.path.length = fl.length := by
      rw [hr, List.length_map]
      have := congrArg List.length h1
      simpa using this.symm
    have hm : ∀ t, (fl ++ [(r, false)]).map Prod.fst = (anc ++ [(r, t)]).map Prod.fst := by
      intro t; rw [List.map_append, List.map_append, h1]; rfl
    obtain ⟨s1, n1, r1, g1⟩ := iha (hm _) (h2.append hlen false) _ (hs.enter hlen)
    obtain ⟨s2, n2, r2, g2⟩ := ihb (hm _) (h2.append hlen false) s1 r1.at'
    obtain ⟨s3, r3⟩ := RunOf.bracket h2 hlen hs (r1.append r2)
    have e : Visit.enter false r :: (a ++ (b ++ [.leave false r])) = .enter false r :: (a ++ b ++ [.leave false r]) := by rw [List.append_assoc]
    rw [e]
    refine ⟨s3, _, r3, ?_⟩
    rw [← e]
    have hl := r1.length
    have ht : tags s.polygons.length (accepted (.enter false r :: (a ++ (b ++ [.leave false r])))) = tags s.polygons.length (accepted a) ++ tags s1.polygons.length (accepted b) := by
      rw [hl, ← tags_append]; simp [accepted, accepted_append]
    have ht' : tags s.polygons.length (accepted (a ++ b)) = tags s.polygons.length (accepted a) ++ tags s1.polygons.length (accepted b) := by
      rw [hl, ← tags_append, accepted_append]
    have last : ∀ {x y : Tag} {t : Bool}, x ∈ tags s.polygons.length (accepted a) ++ tags s1.polygons.length (accepted b) →
        y ∈ tags s.polygons.length (accepted a) ++ tags s1.polygons.length (accepted b) → (∃ c ∈ anc ++ [(r, t)], x.key = some c.1.path ∧ y.key = some c.1.path) →
        (∃ c ∈ anc, x.key = some c.1.path ∧ y.key = some c.1.path) ∨
          ∃ c ∈ n1 ++ n2 ++ [(r, forKey (some r.path) (tags s.polygons.length (accepted (a ++ b))))], x.entry ∈ c.2 ∧ y.entry ∈ c.2 := by
      rintro x y t hx hy ⟨c, hc, k1, k2⟩
      rcases List.mem_append.1 hc with hc | hc
      · exact Or.inl ⟨c, hc, k1, k2⟩
      · simp only [List.mem_singleton] at hc
        subst hc
        refine Or.inr ⟨_, List.mem_append_right _ (List.mem_singleton.2 rfl), ?_⟩
        rw [ht']
        exact ⟨mem_forKey.2 ⟨x, hx, k1, rfl⟩, mem_forKey.2 ⟨y, hy, k2, rfl⟩⟩
    rw [ht]
    intro x hx y hy ho
    rcases List.mem_append.1 hx with hx' | hx' <;> rcases List.mem_append.1 hy with hy' | hy'
    · rcases g1 x hx' y hy' ho with h | ⟨c, hc, h⟩
      · exact last hx hy h
      · exact Or.inr ⟨c, by simp [hc], h⟩
    · exact last hx hy (cross_together ha hb hx' hy' ho)
    · obtain ⟨c, hc, k1, k2⟩ := cross_together ha hb hy' hx' ho.symm
      exact last hx hy ⟨c, hc, k2, k1⟩
    · rcases g2 x hx' y hy' ho with h | ⟨c, hc, h⟩
      · exact last hx hy h
      · exact Or.inr ⟨c, by simp [hc], h⟩

end Walnut.Bsp
