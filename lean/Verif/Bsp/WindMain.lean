/-
The winding number of a leaf, as a sum over the planes above it.
-/
import Verif.Bsp.WindCode
import Verif.Props.Routing

namespace Walnut.Bsp
open Walnut.Geom Walnut.Poly Walnut.Props Filter Topology

variable {D E : Type}

/-! ### Pieces and sources -/

open Classical in
theorem sum_by_plane {α : Type} (f : α → HS3) (R : α → Set Q3) (X : HS3 → Q3) (G : HS3 → ℤ) (F : Finset HS3) :
    ∀ l : List α, (∀ p ∈ l, f p ∈ F) →
      (l.map fun p => G (f p) * ind (X (f p) ∈ R p)).sum = ∑ h ∈ F, G h * (l.countP fun p => decide (f p = h ∧ X h ∈ R p) : ℕ) := by
  intro l
  induction l with
  | nil => intro _; simp
  | cons p l ih =>
    intro hl
    rw [List.map_cons, List.sum_cons, ih fun q hq => hl q (by simp [hq])]
    simp only [List.countP_cons, Nat.cast_add, mul_add, Finset.sum_add_distrib]
    rw [add_comm]
    congr 1
    rw [Finset.sum_eq_single (f p)]
    · congr 1
      by_cases h : X (f p) ∈ R p
      · rw [ind_true h]; simp [h]
      · rw [ind_false h]; simp [h]
    · intro h _ hne
      simp [Ne.symm hne]
    · intro h; exact absurd (hl p (by simp)) h

open Classical in
/-- The crossings of the pieces are those of the sources. -/
theorem flow_pieces {L : List (Polygon D)} {M : List (Polygon E)} {pl : ℕ → Pl} {S : Finset ℕ} {s : ℕ → ℤ} {a b : ℕ}
    (h : ∀ h : HS3, Inside2 pl S s a b (meet h.n.q h.d (pl a) (pl b)) → det3 h.n.q (pl a).n (pl b).n ≠ 0 →
      (L.countP fun P => decide (P.plane = h ∧ meet h.n.q h.d (pl a) (pl b) ∈ P.region)) =
        M.countP fun P => decide (P.plane = h ∧ meet h.n.q h.d (pl a) (pl b) ∈ P.region)) :
    flow L pl S s a b = flow M pl S s a b := by
  have key : ∀ {C : Type} (l : List (Polygon C)), flow l pl S s a b = (l.map fun P =>
      (sgn (det3 P.plane.n.q (pl a).n (pl b).n) * ind (Inside2 pl S s a b (meet P.plane.n.q P.plane.d (pl a) (pl b)))) *
        ind (meet P.plane.n.q P.plane.d (pl a) (pl b) ∈ P.region)).sum := by
    intro C l
    unfold flow
    congr 1
    refine List.map_congr_left fun P _ => ?_
    unfold term
    by_cases h1 : meet P.plane.n.q P.plane.d (pl a) (pl b) ∈ P.region <;>
      by_cases h2 : Inside2 pl S s a b (meet P.plane.n.q P.plane.d (pl a) (pl b)) <;>
      simp only [ind, h1, h2, and_self, and_true, and_false, if_true, if_false, mul_one, mul_zero]
  rw [key, key]
  have f1 := sum_by_plane (fun P : Polygon D => P.plane) (fun P => P.region) (fun h => meet h.n.q h.d (pl a) (pl b))
    (fun h => sgn (det3 h.n.q (pl a).n (pl b).n) * ind (Inside2 pl S s a b (meet h.n.q h.d (pl a) (pl b))))
    ((L.map fun P => P.plane).toFinset ∪ (M.map fun P => P.plane).toFinset) L (fun p hp => by simp; exact Or.inl ⟨p, hp, rfl⟩)
  have f2 := sum_by_plane (fun P : Polygon E => P.plane) (fun P => P.region) (fun h => meet h.n.q h.d (pl a) (pl b))
    (fun h => sgn (det3 h.n.q (pl a).n (pl b).n) * ind (Inside2 pl S s a b (meet h.n.q h.d (pl a) (pl b))))
    ((L.map fun P => P.plane).toFinset ∪ (M.map fun P => P.plane).toFinset) M (fun p hp => by simp; exact Or.inr ⟨p, hp, rfl⟩)
  rw [f1, f2]
  refine Finset.sum_congr rfl fun g _ => ?_
  by_cases h0 : det3 g.n.q (pl a).n (pl b).n = 0
  · rw [h0, sgn_zero]; simp
  by_cases h1 : Inside2 pl S s a b (meet g.n.q g.d (pl a) (pl b))
  · rw [h g h1 h0]
  · rw [ind_false h1]; simp

/-! ### All leaves -/

/-- All leaves satisfy the property. -/
def AllLeaves (Q : Anc → NodeData → Prop) : Anc → Node → Prop
  | anc, .leaf d => Q anc d
  | anc, .inner _ g n p =>
    AllLeaves Q (anc ++ [(⟨anc.map Prod.snd, g⟩, false)]) n ∧ AllLeaves Q (anc ++ [(⟨anc.map Prod.snd, g⟩, true)]) p

theorem AllLeaves.get {Q : Anc → NodeData → Prop} : ∀ {t : Node} {anc : Anc}, AllLeaves Q anc t → ∀ {anc' : Anc} {d : NodeData},
    (anc', Node.leaf d) ∈ t.subs anc → Q anc' d := by
  intro t
  induction t with
  | leaf d0 =>
    intro anc h anc' d hm
    simp only [Node.subs, List.mem_singleton, Prod.mk.injEq, Node.leaf.injEq] at hm
    rw [hm.1, hm.2]; exact h
  | inner d0 g n p ihn ihp =>
    intro anc h anc' d hm
    simp only [Node.subs, List.mem_cons, Prod.mk.injEq, reduceCtorEq, and_false, false_or, List.mem_append] at hm
    exact hm.elim (ihn h.1) (ihp h.2)

theorem splitAt_leaves {Q : Anc → NodeData → Prop} (hQ : ∀ (anc : Anc) (d : NodeData) (g : HS3) (k : NodeData × NodeData), Q anc d → g.n ≠ ⟨0, 0, 0⟩ →
      pushChildren ⟨anc.map Prod.snd, g⟩ d (setPwn d.info, setPwn d.info) = some k →
      Q (anc ++ [(⟨anc.map Prod.snd, g⟩, false)]) k.1 ∧ Q (anc ++ [(⟨anc.map Prod.snd, g⟩, true)]) k.2) :
    ∀ (t : Node) (anc : Anc) (path : List Bool) (g : HS3) (t' : Node), AllLeaves Q anc t → t.splitAt (anc.map Prod.snd) path g = some t' →
      AllLeaves Q anc t' := by
  intro t
  induction t with
  | leaf d =>
    intro anc path g t' h ht
    cases path with
    | nil =>
      simp only [Node.splitAt] at ht
      unfold split at ht
      split_ifs at ht with hz
      have hg : g.n ≠ ⟨0, 0, 0⟩ := by
        intro e; apply hz; rw [e]; rfl
      obtain ⟨k, hk, rfl⟩ := Option.map_eq_some_iff.1 ht
      exact hQ anc d g k h hg hk
    | cons b path => simp [Node.splitAt] at ht
  | inner d h0 n p ihn ihp =>
    intro anc path g t' h ht
    cases path with
    | nil => simp [Node.splitAt] at ht
    | cons b path =>
      cases b
      · simp only [Node.splitAt, Option.map_eq_some_iff] at ht
        obtain ⟨n', hn, rfl⟩ := ht
        exact ⟨ihn (anc ++ [(⟨anc.map Prod.snd, h0⟩, false)]) path g n' h.1 (by simpa using hn), h.2⟩
      · simp only [Node.splitAt, Option.map_eq_some_iff] at ht
        obtain ⟨n', hn, rfl⟩ := ht
        exact ⟨h.1, ihp (anc ++ [(⟨anc.map Prod.snd, h0⟩, true)]) path g n' h.2 (by simpa using hn)⟩

/-! ### The invariant -/

theorem Sees.mono {c : Q3} {l l' : List V3} (h : Sees c l) (hl : ∀ u ∈ l', u ∈ l) : Sees c l' := fun u hu v hv => h u (hl u hu) v (hl v hv)

/-- The point is inside of the cell and not on its border. -/
def InCell (anc : Anc) (x : Q3) : Prop := ∀ a ∈ anc, (outPl a).val x < 0

open Classical in
/-- How many of the sources belong to the content, lie in the plane and contain the point. -/
noncomputable def srcCov (S : List Source) (id : ℕ) (h : HS3) (x : Q3) : ℕ :=
  S.countP fun s => decide (s.id = id ∧ s.poly.plane = h ∧ x ∈ s.poly.region)

/-- The facets of a content. -/
def facets (S : List Source) (id : ℕ) : List (Polygon Unit) := (S.filter fun s => s.id == id).map Source.poly

/-- What holds at a leaf. -/
structure LeafInv (S : List Source) (id : ℕ) (anc : Anc) (d : NodeData) : Prop where
  normals : ∀ a ∈ anc, a.1.plane.n ≠ ⟨0, 0, 0⟩
  contents : ∀ x ∈ d.contents, ContentOK anc x
  border : ∀ x ∈ d.border, BorderOK anc x
  covers : ∀ h x, InCell anc x → cov d.contents id h x = srcCov S id h x
  winding : ∀ (c : Q3) (pl : ℕ → Pl) (m : ℕ) (q : Q3), Starts pl anc → anc.length ≤ m → Sees c (anc.map fun a => a.1.plane.n) → InCell anc q →
    Ev fun ε => 2 * pwnOf d id = total c (facets S id) (sh m pl ε) (List.range anc.length).reverse

theorem cov_zero {l : List BPoly} {id : ℕ} {h : HS3} {x : Q3} (hl : ∀ p ∈ l, x ∉ p.poly.region) : cov l id h x = 0 := by
  unfold cov
  rw [List.countP_eq_zero]
  intro p hp
  simp only [decide_eq_true_eq]
  exact fun hc => hl p hp hc.2.2

theorem border_not {anc : Anc} {p : BPoly} (h : BorderOK anc p) {x : Q3} (hx : InCell anc x) : x ∉ p.poly.region := by
  intro hr
  obtain ⟨a, ha, ht⟩ := h.kind
  have := (outPl_zero a x).2 (ht x (by
    rw [side_dot, region_onPlane h.convex hr, sub_self]))
  exact absurd this (hx a ha).ne

theorem cell_not {anc : Anc} {p : BPoly} (h : PieceOK anc p) {x : Q3} {a : PlaneRef × Bool} (ha : a ∈ anc) (hx : 0 < (outPl a).val x) : x ∉ p.poly.region := by
  intro hr
  exact absurd ((outPl_side a x).2 (h.cell hr a ha)) (not_le.2 hx)

theorem outPl_flip (r : PlaneRef) (pos : Bool) (x : Q3) : (outPl (r, !pos)).val x = -(outPl (r, pos)).val x := by
  rw [outPl_val, outPl_val]
  cases pos <;> simp

theorem covers_step {S : List Source} {id : ℕ} {anc : Anc} {d : NodeData} (hl : LeafInv S id anc d) {r : PlaneRef} {o : Out}
    (ho : Delivers anc r (d.contents ++ d.border) o) (h : HS3) (x : Q3) (pos : Bool) (hx : InCell (anc ++ [(r, pos)]) x) :
    cov (if pos then o.cp else o.cn) id h x = srcCov S id h x := by
  have hx' : InCell anc x := fun a ha => hx a (List.mem_append_left _ ha)
  have hr : (outPl (r, pos)).val x < 0 := hx _ (by simp)
  have e := ho.cons.mult id h x (by
    intro g hg
    rw [List.mem_singleton] at hg
    rw [hg]
    left
    rw [Ne, ← outPl_zero (r, pos)]
    exact hr.ne)
  rw [cov_append, cov_zero (l := d.border) (fun p hp => border_not (hl.border p hp) hx'), add_zero, hl.covers h x hx'] at e
  rw [← e]
  unfold Out.all
  rw [cov_append, cov_append, cov_append]
  have f : ∀ b, b = !pos → ∀ p, PieceOK (anc ++ [(r, b)]) p → x ∉ p.poly.region := by
    intro b hb p hp
    refine cell_not hp (a := (r, b)) (by simp) ?_
    rw [hb, outPl_flip]; linarith
  cases pos
  · rw [cov_zero (l := o.bn) fun p hp => border_not (ho.bn p hp) hx, cov_zero (l := o.bp) fun p hp => f true rfl p (ho.bp p hp).toPieceOK,
      cov_zero (l := o.cp) fun p hp => f true rfl p (ho.cp p hp).toPieceOK]; simp
  · rw [cov_zero (l := o.bp) fun p hp => border_not (ho.bp p hp) hx, cov_zero (l := o.bn) fun p hp => f false rfl p (ho.bn p hp).toPieceOK,
      cov_zero (l := o.cn) fun p hp => f false rfl p (ho.cn p hp).toPieceOK]; simp

theorem content_off {anc : Anc} {p : BPoly} (h : ContentOK anc p) {a : PlaneRef × Bool} (ha : a ∈ anc) : ∃ x ∈ p.poly.region, (outPl a).val x < 0 := by
  by_contra hc
  push Not at hc
  refine h.kind a ha (through_of_vertices h.convex _ fun i hi => ?_)
  rw [← outPl_zero]
  exact le_antisymm ((outPl_side a _).2 (h.cell (pt_mem hi) a ha)) (hc _ (pt_mem hi))

theorem sum_swap {α : Type} (l : List α) (K : Finset ℕ) (f : α → ℕ → ℤ) : (l.map fun p => ∑ a ∈ K, f p a).sum = ∑ a ∈ K, (l.map fun p => f p a).sum := by
  induction l with
  | nil => simp
  | cons p l ih => simp only [List.map_cons, List.sum_cons, ih, Finset.sum_add_distrib]

/-- What the pieces add is what the new plane cuts off. -/
theorem ev_cutOff {S : List Source} {id : ℕ} {anc : Anc} {d : NodeData} (hl : LeafInv S id anc d) (c : Q3) {pl : ℕ → Pl} (hpl : Starts pl anc) {m : ℕ}
    (hm : anc.length < m) : Ev fun ε => 2 * ((d.contents.filter fun p => p.id == id).map fun p => cornerGain c pl anc.length p.poly).sum =
      cutOff c (facets S id) (sh m pl ε) (Finset.range anc.length) anc.length := by
  have pos : ∀ k < anc.length, ∃ a ∈ anc, pl k = outPl a := fun k hk =>
    ⟨anc[k], List.getElem_mem hk, hpl k _ (List.getElem?_eq_getElem hk)⟩
  have h1 := ev_list (d.contents.filter fun p => p.id == id) (p := fun p ε => ∑ a ∈ Finset.range anc.length, ∑ b ∈ Finset.range anc.length,
      tau c (pl anc.length).n (pl a).n (pl b).n * term p.poly (sh m pl ε) (insert anc.length (Finset.range anc.length)) (fl {anc.length}) a b =
      2 * cornerGain c pl anc.length p.poly) (fun p hp => by
    have hC := hl.contents p (List.mem_of_mem_filter hp)
    refine cut_corners hC.convex hm (fun k hk x hx => ?_) (fun k hk => ?_) (fun a b => tau c (pl anc.length).n (pl a).n (pl b).n) (fun a b => tau_swap _ _ _ _)
    · obtain ⟨a, ha, e⟩ := pos k hk
      rw [e]; exact (outPl_side a x).2 (hC.cell hx a ha)
    · obtain ⟨a, ha, e⟩ := pos k hk
      rw [e]; exact content_off hC ha)
  filter_upwards [h1, ev_pos] with ε he h0
  have e1 : 2 * ((d.contents.filter fun p => p.id == id).map fun p => cornerGain c pl anc.length p.poly).sum =
      ((d.contents.filter fun p => p.id == id).map fun p => ∑ a ∈ Finset.range anc.length, ∑ b ∈ Finset.range anc.length,
      tau c (pl anc.length).n (pl a).n (pl b).n * term p.poly (sh m pl ε) (insert anc.length (Finset.range anc.length)) (fl {anc.length}) a b).sum := by
    rw [← List.sum_map_mul_left]
    congr 1
    exact List.map_congr_left fun p hp => (he p hp).symm
  rw [e1, sum_swap]
  unfold cutOff
  refine Finset.sum_congr rfl fun a ha => ?_
  rw [sum_swap]
  refine Finset.sum_congr rfl fun b hb => ?_
  rw [List.sum_map_mul_left]
  congr 1
  have e2 : ((d.contents.filter fun p => p.id == id).map fun p => term p.poly (sh m pl ε) (insert anc.length (Finset.range anc.length)) (fl {anc.length}) a b).sum =
      flow ((d.contents.filter fun p => p.id == id).map BPoly.poly) (sh m pl ε) (insert anc.length (Finset.range anc.length)) (fl {anc.length}) a b := by
    unfold flow; rw [List.map_map]; rfl
  rw [e2]
  refine flow_pieces fun h hi hd => ?_
  obtain ⟨_, s1, s2⟩ := meet_spec (D := h.d) hd
  set x := meet h.n.q h.d (sh m pl ε a) (sh m pl ε b) with hx
  have hc : InCell anc x := by
    intro t ht
    obtain ⟨k, hk, rfl⟩ := List.getElem_of_mem ht
    rw [← hpl k _ (List.getElem?_eq_getElem hk)]
    have ep : 0 < ε ^ (m - k) := pow_pos h0 _
    by_cases ka : k = a
    · rw [← ka, sh_val] at s1; linarith
    by_cases kb : k = b
    · rw [← kb, sh_val] at s2; linarith
    have := hi k (by simp [hk]) ka kb
    rw [sh_val, fl, if_neg (by simp; omega)] at this
    push_cast at this
    linarith
  have := hl.covers h x hc
  unfold cov srcCov at this
  unfold facets
  rw [List.countP_map, List.countP_map, List.countP_filter, List.countP_filter]
  refine Eq.trans (List.countP_congr fun p _ => ?_) (this.trans (List.countP_congr fun p _ => ?_))
  · classical
    refine Iff.trans ?_ ⟨decide_eq_true, of_decide_eq_true⟩
    simp only [Covers, Function.comp, Bool.and_eq_true, decide_eq_true_eq, beq_iff_eq]; tauto
  · simp only [Function.comp, Bool.and_eq_true, decide_eq_true_eq, beq_iff_eq]; tauto

theorem LeafInv.step {S : List Source} {id : ℕ} {anc : Anc} {d : NodeData} {g : HS3} {k : NodeData × NodeData} (hl : LeafInv S id anc d) (hg : g.n ≠ ⟨0, 0, 0⟩)
    (h : pushChildren ⟨anc.map Prod.snd, g⟩ d (setPwn d.info, setPwn d.info) = some k) :
    LeafInv S id (anc ++ [(⟨anc.map Prod.snd, g⟩, false)]) k.1 ∧ LeafInv S id (anc ++ [(⟨anc.map Prod.snd, g⟩, true)]) k.2 := by
  obtain ⟨o, ho, r1, r2⟩ := pushChildren_spec hg hl.contents hl.border h
  have hpw : pwnOf (setPwn d.info) id = pwnOf d id := by
    unfold pwnOf NodeData.infoFor
    simp only [setPwn, List.getD_eq_getElem?_getD, List.getElem?_map]
    cases d.info[id]? <;> rfl
  have hw : ∀ pos, ∀ (c : Q3) (pl : ℕ → Pl) (m : ℕ) (q : Q3), Starts pl (anc ++ [(⟨anc.map Prod.snd, g⟩, pos)]) →
      (anc ++ [((⟨anc.map Prod.snd, g⟩ : PlaneRef), pos)]).length ≤ m → Sees c ((anc ++ [((⟨anc.map Prod.snd, g⟩ : PlaneRef), pos)]).map fun a => a.1.plane.n) →
      InCell (anc ++ [(⟨anc.map Prod.snd, g⟩, pos)]) q → Ev fun ε => 2 * pwnOf (if pos then k.2 else k.1) id =
        total c (facets S id) (sh m pl ε) (List.range (anc ++ [((⟨anc.map Prod.snd, g⟩ : PlaneRef), pos)]).length).reverse := by
    intro pos c pl m q hst hm hs hq
    rw [List.length_append, List.length_singleton] at hm ⊢
    have hs' : Sees c (g.n :: anc.map fun a => a.1.plane.n) := by
      refine hs.mono fun u hu => ?_
      rw [List.map_append, List.mem_append, List.map_singleton, List.mem_singleton]
      exact (List.mem_cons.1 hu).symm
    have gn := pushChildren_gain (r := ⟨anc.map Prod.snd, g⟩) ⟨hs', hst, hq⟩ id (fun p hp => ⟨(hl.contents p hp).convex, (hl.contents p hp).edges⟩) h
    have e0 : pwnOf (if pos = true then setPwn d.info else setPwn d.info) id = pwnOf d id := by rw [ite_self]; exact hpw
    have w := hl.winding c pl m q hst.left (by omega) (hs'.mono fun u hu => List.mem_cons_of_mem _ hu)
      (fun a ha => hq a (List.mem_append_left _ ha))
    filter_upwards [w, ev_cutOff hl c hst.left (show anc.length < m by omega)] with ε h1 h2
    rw [List.range_succ, List.reverse_append, List.reverse_singleton, List.singleton_append, total, ← h1]
    rw [show (List.range anc.length).reverse.toFinset = Finset.range anc.length by ext; simp, ← h2]
    simp only at gn
    rw [gn, e0]
    ring
  have hn : ∀ pos, ∀ a ∈ anc ++ [((⟨anc.map Prod.snd, g⟩ : PlaneRef), pos)], a.1.plane.n ≠ ⟨0, 0, 0⟩ := by
    intro pos a ha
    rcases List.mem_append.1 ha with ha | ha
    · exact hl.normals a ha
    · rw [List.mem_singleton.1 ha]; exact hg
  refine ⟨⟨hn _, ?_, ?_, ?_, hw false⟩, ⟨hn _, ?_, ?_, ?_, hw true⟩⟩
  · rw [r1.contents]; simpa [setPwn] using ho.cn
  · rw [r1.border]; simpa [setPwn] using ho.bn
  · intro f x hx
    rw [r1.contents]; simpa [setPwn] using covers_step hl ho f x false hx
  · rw [r2.contents]; simpa [setPwn] using ho.cp
  · rw [r2.border]; simpa [setPwn] using ho.bp
  · intro f x hx
    rw [r2.contents]; simpa [setPwn] using covers_step hl ho f x true hx

/-! ### The root -/

theorem Reach.leaf_pwn {aabb : Bool} {t : Node} {S : List Source} (h : Reach aabb t S) :
    (∀ s ∈ S, IsConvexPolygon s.poly) ∧ ∀ d, t = .leaf d → d.border = [] ∧ ∀ id, pwnOf d id = 0 := by
  induction h with
  | empty =>
    refine ⟨by simp, fun d hd => ?_⟩
    cases hd
    exact ⟨rfl, fun id => by simp [pwnOf, NodeData.infoFor]⟩
  | @add t t' S id P _ hP ht ih =>
    refine ⟨fun s hs => ?_, fun d hd => ?_⟩
    · rcases List.mem_append.1 hs with h | h
      · exact ih.1 s h
      · rw [List.mem_singleton.1 h]; exact hP
    · unfold Node.addRoot at ht
      obtain ⟨d1, h1, rfl⟩ := Option.map_eq_some_iff.1 ht
      cases t with
      | inner d0 g n p => simp [Node.setData] at hd
      | leaf d0 =>
        simp only [Node.setData, Node.leaf.injEq] at hd
        subst hd
        obtain ⟨h2, h3⟩ := ih.2 d0 rfl
        simp only [Node.data] at h1
        unfold NodeData.addRoot at h1
        simp only at h1
        split at h1
        · simp at h1
        · rw [← Option.some.inj h1]
          refine ⟨h2, fun j => ?_⟩
          have := h3 j
          unfold pwnOf NodeData.infoFor at this ⊢
          simp only [List.getD_eq_getElem?_getD, modify_get] at this ⊢
          by_cases hl : j < d0.info.length
          · rw [List.getElem?_append_left hl]
            cases e : d0.info[j]? with
            | none => simp
            | some i =>
              rw [e] at this
              simp only [Option.getD_some] at this
              split_ifs <;> simpa using this
          · rw [List.getElem?_append_right (by omega), List.getElem?_replicate]
            split_ifs <;> simp
  | @push t t' S _ ht ih =>
    refine ⟨ih.1, fun d hd => ?_⟩
    cases t with
    | leaf d0 =>
      simp only [Node.pushToLeaves, Node.data, Node.pushDown, Option.some.injEq] at ht
      exact ih.2 d (by rw [ht, hd])
    | inner d0 g n p =>
      unfold Node.pushToLeaves Node.pushDown at ht
      split_ifs at ht
      · simp [← Option.some.inj ht] at hd
      · split at ht
        · simp at ht
        · split at ht
          · rw [← Option.some.inj ht] at hd; simp at hd
          · simp at ht
  | @pushAt t t' S path _ ht ih =>
    refine ⟨ih.1, fun d hd => ?_⟩
    cases t with
    | leaf d0 =>
      cases path with
      | nil =>
        simp only [Node.pushAt, Option.some.injEq] at ht
        exact ih.2 d (by rw [ht, hd])
      | cons b path => simp [Node.pushAt] at ht
    | inner d0 g n p =>
      subst hd
      rcases path with _ | ⟨_ | _, path⟩ <;> simp [Node.pushAt] at ht
  | @split t t' S path g _ ht ih =>
    refine ⟨ih.1, fun d hd => ?_⟩
    cases t with
    | leaf d0 =>
      cases path with
      | nil =>
        simp only [Node.splitAt] at ht
        unfold Bsp.split at ht
        split_ifs at ht
        obtain ⟨k, hk, rfl⟩ := Option.map_eq_some_iff.1 ht
        simp at hd
      | cons b path => simp [Node.splitAt] at ht
    | inner d0 g n p =>
      subst hd
      rcases path with _ | ⟨_ | _, path⟩ <;> simp [Node.splitAt] at ht

theorem LeafInv.root {aabb : Bool} {d : NodeData} {S : List Source} (h : Reach aabb (.leaf d) S) (id : ℕ) : LeafInv S id [] d := by
  obtain ⟨hb, hp⟩ := h.leaf_pwn.2 d rfl
  have ht := h.spec.1
  refine ⟨by simp, ht.1, ht.2.1, fun f x _ => ?_, fun c pl m q _ _ _ _ => ?_⟩
  · classical
    have := C39_multiplicity h id f x (by simp [Node.planes])
    rw [show (Node.leaf d).polys = d.contents by simp [Node.polys, hb]] at this
    unfold cov srcCov
    refine Eq.trans (List.countP_congr fun p _ => ?_) (this.trans (List.countP_congr fun p _ => ?_))
    · refine Iff.trans ⟨of_decide_eq_true, decide_eq_true⟩ ?_
      simp only [Covers, decide_eq_true_eq]
    · simp only [decide_eq_true_eq]
  · refine Filter.Eventually.of_forall fun ε => ?_
    simp [hp id, total]

/-- The winding number at a leaf. -/
theorem leaf_winding {aabb : Bool} {d : NodeData} {S : List Source} (h : Reach aabb (.leaf d) S) (id : ℕ) {t : Node} (ht : Splits d t) :
    AllLeaves (LeafInv S id) [] t := by
  induction ht with
  | leaf => exact LeafInv.root h id
  | split _ ht' ih => exact splitAt_leaves (fun _ _ _ _ hl hg hk => hl.step hg hk) _ _ _ _ _ ih ht'

end Walnut.Bsp
