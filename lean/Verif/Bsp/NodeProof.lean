/-
Splitting nodes and pushing polygons down a binary space partition keeps the tree
consistent and loses nothing.
-/
import Verif.Bsp.PwnProof

namespace Walnut.Bsp
open Walnut.Geom Walnut.Poly

/-! ### Conservation -/

theorem cov_append (l m : List BPoly) (id : Nat) (pl : HS3) (q : Q3) : cov (l ++ m) id pl q = cov l id pl q + cov m id pl q := by
  unfold cov; exact List.countP_append

theorem cov_perm {l m : List BPoly} (h : l.Perm m) (id : Nat) (pl : HS3) (q : Q3) : cov l id pl q = cov m id pl q := by
  unfold cov; exact h.countP_eq _

theorem cov_single_pos {p : BPoly} {id : Nat} {pl : HS3} {q : Q3} (h : Covers id pl q p) : cov [p] id pl q = 1 := by
  unfold cov; simp [h]

theorem cov_single_neg {p : BPoly} {id : Nat} {pl : HS3} {q : Q3} (h : ¬ Covers id pl q p) : cov [p] id pl q = 0 := by
  unfold cov; simp [h]

theorem cov_single_congr {p p' : BPoly} {id : Nat} {pl : HS3} {q : Q3} (h : Covers id pl q p ↔ Covers id pl q p') :
    cov [p] id pl q = cov [p'] id pl q := by
  by_cases hc : Covers id pl q p
  · rw [cov_single_pos hc, cov_single_pos (h.1 hc)]
  · rw [cov_single_neg hc, cov_single_neg (fun x => hc (h.2 x))]

namespace Conserved
variable {G G' : List HS3} {l l' m m' : List BPoly}

theorem perm (h : l.Perm l') (G : List HS3) : Conserved G l l' :=
  ⟨fun id pl q => by simp only [h.mem_iff], fun id pl q _ => (cov_perm h id pl q).symm, fun x hx => ⟨x, h.mem_iff.2 hx, rfl, id⟩⟩

theorem refl (G : List HS3) (l : List BPoly) : Conserved G l l := perm (.refl _) G

theorem mono (h : Conserved G l l') (hG : ∀ g ∈ G, g ∈ G') : Conserved G' l l' :=
  ⟨h.cover, fun id pl q hq => h.mult id pl q fun g hg => hq g (hG g hg), h.back⟩

theorem trans (h : Conserved G l l') (h' : Conserved G l' m) : Conserved G l m := by
  refine ⟨fun id pl q => (h.cover id pl q).trans (h'.cover id pl q), fun id pl q hq => (h'.mult id pl q hq).trans (h.mult id pl q hq), ?_⟩
  intro x hx
  obtain ⟨y, hy, e1, e2⟩ := h'.back x hx
  obtain ⟨z, hz, e3, e4⟩ := h.back y hy
  exact ⟨z, hz, e1.trans e3, fun h => e2 (e4 h)⟩

theorem append (h : Conserved G l l') (h' : Conserved G m m') : Conserved G (l ++ m) (l' ++ m') := by
  refine ⟨fun id pl q => ?_, fun id pl q hq => ?_, ?_⟩
  · simp only [List.mem_append, or_and_right, exists_or, h.cover id pl q, h'.cover id pl q]
  · rw [cov_append, cov_append, h.mult id pl q hq, h'.mult id pl q hq]
  · intro x hx
    rcases List.mem_append.1 hx with hx | hx
    · obtain ⟨z, hz, e⟩ := h.back x hx
      exact ⟨z, List.mem_append_left _ hz, e⟩
    · obtain ⟨z, hz, e⟩ := h'.back x hx
      exact ⟨z, List.mem_append_right _ hz, e⟩

/-- One polygon is replaced by another one with the same points. -/
theorem same {p p' : BPoly} (e1 : p'.id = p.id) (e2 : p'.poly.plane = p.poly.plane) (e3 : p'.poly.region = p.poly.region)
    (e4 : p.tracker = none → p'.tracker = none) (G : List HS3) : Conserved G [p] [p'] := by
  have key : ∀ id pl q, Covers id pl q p ↔ Covers id pl q p' := by
    intro id pl q; unfold Covers; rw [e1, e2, e3]
  refine ⟨fun id pl q => by simp only [List.mem_singleton, exists_eq_left]; exact key id pl q,
    fun id pl q _ => (cov_single_congr (key id pl q)).symm, fun x hx => ⟨p, by simp, ?_⟩⟩
  rw [List.mem_singleton.1 hx]; exact ⟨e1, e4⟩

/-- The planes and contents that occur are the same, if the polygons of the first list have points. -/
theorem occurs (h : Conserved G l l') (hl : ∀ x ∈ l, x.poly.region.Nonempty) (hl' : ∀ x ∈ l', x.poly.region.Nonempty)
    (id : Nat) (C : HS3 → Prop) : (∃ x ∈ l, x.id = id ∧ C x.poly.plane) ↔ ∃ x ∈ l', x.id = id ∧ C x.poly.plane := by
  constructor
  · rintro ⟨x, hx, e, hc⟩
    obtain ⟨q, hq⟩ := hl x hx
    obtain ⟨y, hy, e1, e2, _⟩ := (h.cover x.id x.poly.plane q).1 ⟨x, hx, rfl, rfl, hq⟩
    exact ⟨y, hy, e1.trans e, by rw [e2]; exact hc⟩
  · rintro ⟨x, hx, e, hc⟩
    obtain ⟨q, hq⟩ := hl' x hx
    obtain ⟨y, hy, e1, e2, _⟩ := (h.cover x.id x.poly.plane q).2 ⟨x, hx, rfl, rfl, hq⟩
    exact ⟨y, hy, e1.trans e, by rw [e2]; exact hc⟩

end Conserved

/-! ### Counting -/

/-- The counters grow by the numbers of interior polygons `c` and border polygons `b`. -/
def InfoStep (info info' : List Info) (c b : List BPoly) : Prop :=
  ∀ id, (info'.getD id {}).interior = (info.getD id {}).interior + c.countP (fun x => x.id == id) ∧
    (info'.getD id {}).border = (info.getD id {}).border + b.countP (fun x => x.id == id)

theorem InfoStep.trans {a b c : List Info} {l m l' m' : List BPoly} (h : InfoStep a b l m) (h' : InfoStep b c l' m') :
    InfoStep a c (l ++ l') (m ++ m') := by
  intro id
  rw [(h' id).1, (h' id).2, (h id).1, (h id).2, List.countP_append, List.countP_append]
  omega

theorem SameCounts.step {a b : List Info} (h : SameCounts a b) : InfoStep a b [] [] := by
  intro id
  have h1 := congrArg (fun l : List (Nat × Nat) => l.getD id (0, 0)) h
  simp only [List.getD_eq_getElem?_getD, List.getElem?_map] at h1
  simp only [List.getD_eq_getElem?_getD, List.countP_nil, Nat.add_zero]
  cases ha : a[id]? <;> cases hb : b[id]? <;> rw [ha, hb] at h1 <;> simp at h1 ⊢ <;> omega

theorem bump_getD {info info' : List Info} {id : Nat} {f : Info → Info} (h : bump info id f = some info') (j : Nat) :
    info'.getD j {} = if id = j then f (info.getD j {}) else info.getD j {} := by
  unfold bump at h
  split_ifs at h with hi
  rw [← Option.some.inj h]
  simp only [List.getD_eq_getElem?_getD, modify_get]
  by_cases e : id = j
  · subst e; simp [hi]
  · simp [e]

/-- The vectors of a node after receiving polygons. -/
structure Received (d d' : NodeData) (c b : List BPoly) : Prop where
  contents : d'.contents = d.contents ++ c
  border : d'.border = d.border ++ b
  info : InfoStep d.info d'.info c b
  length : d.info.length ≤ d'.info.length

theorem Received.trans {d e f : NodeData} {c b c' b' : List BPoly} (h : Received d e c b) (h' : Received e f c' b') :
    Received d f (c ++ c') (b ++ b') :=
  ⟨by rw [h'.contents, h.contents, List.append_assoc], by rw [h'.border, h.border, List.append_assoc], h.info.trans h'.info,
    h.length.trans h'.length⟩

theorem Received.refl (d : NodeData) : Received d d [] [] := ⟨by simp, by simp, SameCounts.step (.refl _), le_rfl⟩

theorem addInterior_received {d d' : NodeData} {p : BPoly} (h : d.addInterior p = some d') : Received d d' [p] [] := by
  unfold NodeData.addInterior at h
  obtain ⟨info, hi, rfl⟩ := Option.map_eq_some_iff.1 h
  refine ⟨rfl, by simp, fun id => ?_, (bump_length hi).1.ge⟩
  rw [bump_getD hi]
  by_cases e : p.id = id <;> simp [e]

theorem addBorder_received {d d' : NodeData} {p : BPoly} (h : d.addBorder p = some d') : Received d d' [] [p] := by
  unfold NodeData.addBorder at h
  obtain ⟨info, hi, rfl⟩ := Option.map_eq_some_iff.1 h
  refine ⟨by simp, rfl, fun id => ?_, (bump_length hi).1.ge⟩
  rw [bump_getD hi]
  by_cases e : p.id = id <;> simp [e]

theorem addInterior_defined {d : NodeData} {p : BPoly} (h : p.id < d.info.length) : ∃ d', d.addInterior p = some d' := by
  unfold NodeData.addInterior bump; rw [if_pos h]; exact ⟨_, rfl⟩

theorem addBorder_defined {d : NodeData} {p : BPoly} (h : p.id < d.info.length) : ∃ d', d.addBorder p = some d' := by
  unfold NodeData.addBorder bump; rw [if_pos h]; exact ⟨_, rfl⟩

theorem both_some {n p : Option NodeData} {k : NodeData × NodeData} (h : both n p = some k) : n = some k.1 ∧ p = some k.2 := by
  unfold both at h
  split at h
  · rw [← Option.some.inj h]; exact ⟨rfl, rfl⟩
  · simp at h

theorem both_defined {n p : Option NodeData} (hn : ∃ d, n = some d) (hp : ∃ d, p = some d) : ∃ k, both n p = some k := by
  obtain ⟨a, rfl⟩ := hn
  obtain ⟨b, rfl⟩ := hp
  exact ⟨_, rfl⟩

/-! ### Delivering polygons to the children -/

/-- What the two children receive. -/
structure Out where
  cn : List BPoly
  bn : List BPoly
  cp : List BPoly
  bp : List BPoly

def Out.all (o : Out) : List BPoly := o.cn ++ o.bn ++ (o.cp ++ o.bp)

structure Delivers (anc : Anc) (ref : PlaneRef) (l : List BPoly) (o : Out) : Prop where
  cn : ∀ x ∈ o.cn, ContentOK (anc ++ [(ref, false)]) x
  bn : ∀ x ∈ o.bn, BorderOK (anc ++ [(ref, false)]) x
  cp : ∀ x ∈ o.cp, ContentOK (anc ++ [(ref, true)]) x
  bp : ∀ x ∈ o.bp, BorderOK (anc ++ [(ref, true)]) x
  cons : Conserved [ref.plane] l o.all

theorem Delivers.append {anc : Anc} {ref : PlaneRef} {l m : List BPoly} {o o' : Out} (h : Delivers anc ref l o) (h' : Delivers anc ref m o') :
    Delivers anc ref (l ++ m) ⟨o.cn ++ o'.cn, o.bn ++ o'.bn, o.cp ++ o'.cp, o.bp ++ o'.bp⟩ := by
  refine ⟨fun x hx => (List.mem_append.1 hx).elim (h.cn x) (h'.cn x), fun x hx => (List.mem_append.1 hx).elim (h.bn x) (h'.bn x),
    fun x hx => (List.mem_append.1 hx).elim (h.cp x) (h'.cp x), fun x hx => (List.mem_append.1 hx).elim (h.bp x) (h'.bp x),
    (h.cons.append h'.cons).trans (Conserved.perm ?_ _)⟩
  classical
  rw [List.perm_iff_count]
  intro a
  simp only [Out.all, List.count_append]
  omega

theorem Delivers.nil (anc : Anc) (ref : PlaneRef) : Delivers anc ref [] ⟨[], [], [], []⟩ :=
  ⟨by simp, by simp, by simp, by simp, Conserved.refl _ _⟩

/-- A polygon cut in two. -/
theorem both_cons {anc : Anc} {ref : PlaneRef} {p N Q : BPoly} (h : PieceOK anc p) (hr : RouteOK anc ref p (.both N Q)) :
    Conserved [ref.plane] [p] ([N] ++ [Q]) := by
  obtain ⟨⟨i, hi, hneg⟩, _, _, _, n1, q1, n2, q2, _, _, n3, q3, ht⟩ := hr
  have key : ∀ id pl q, (Covers id pl q N ↔ Covers id pl q p ∧ ref.plane.side q ≤ 0) ∧
      (Covers id pl q Q ↔ Covers id pl q p ∧ 0 ≤ ref.plane.side q) := by
    intro id pl q
    unfold Covers
    rw [n1, n2, n3, q1, q2, q3]
    simp only [Set.mem_inter_iff, Set.mem_ofPred_eq]
    tauto
  refine ⟨fun id pl q => ?_, fun id pl q hq => ?_, fun x hx => ⟨p, by simp, ?_⟩⟩
  · simp only [List.cons_append, List.nil_append, List.mem_cons, List.not_mem_nil, or_false, exists_eq_or_imp, exists_eq_left,
      (key id pl q).1, (key id pl q).2]
    have := le_total (ref.plane.side q) 0
    tauto
  · rw [cov_append]
    by_cases hc : Covers id pl q p
    · have hs : ref.plane.side q ≠ 0 := by
        rcases hq ref.plane (by simp) with h' | h'
        · exact h'
        · rw [← hc.2.1] at h'
          exact absurd h' (not_through h.convex hi (ne_of_lt hneg))
      rw [cov_single_pos hc]
      rcases lt_or_gt_of_ne hs with hs | hs
      · rw [cov_single_pos ((key id pl q).1.2 ⟨hc, hs.le⟩), cov_single_neg fun hh => by have := ((key id pl q).2.1 hh).2; linarith]
      · rw [cov_single_pos ((key id pl q).2.2 ⟨hc, hs.le⟩), cov_single_neg fun hh => by have := ((key id pl q).1.1 hh).2; linarith]
    · rw [cov_single_neg hc, cov_single_neg fun hh => hc ((key id pl q).1.1 hh).1, cov_single_neg fun hh => hc ((key id pl q).2.1 hh).1]
  · simp only [List.cons_append, List.nil_append, List.mem_cons, List.not_mem_nil, or_false] at hx
    rcases hx with rfl | rfl
    · exact ⟨n2, fun h => (ht h).1⟩
    · exact ⟨q2, fun h => (ht h).2⟩

theorem pushContent_spec {anc : Anc} {ref : PlaneRef} (hg : ref.plane.n ≠ ⟨0, 0, 0⟩) {p : BPoly} (h : ContentOK anc p)
    {k k' : NodeData × NodeData} (hp : pushContent ref p k = some k') :
    ∃ o, Delivers anc ref [p] o ∧ Received k.1 k'.1 o.cn o.bn ∧ Received k.2 k'.2 o.cp o.bp := by
  unfold pushContent at hp
  have hs := (route_spec h.toPieceOK (Or.inl h.off) ref true).1
  split at hp
  · simp at hp
  · rename_i N Q e
    have r := hs _ e
    obtain ⟨a1, a2⟩ := both_some hp
    have c := both_cons h.toPieceOK r
    obtain ⟨⟨i, hi, hneg⟩, _, pn, pq, n1, q1, n2, q2, n4, q4, _⟩ := r
    have nt := not_through h.convex hi (ne_of_lt hneg)
    refine ⟨⟨[N], [], [Q], []⟩, ⟨?_, by simp, ?_, by simp, c⟩, addInterior_received a1, addInterior_received a2⟩
    · simp only [List.mem_singleton, forall_eq]; exact h.step pn n1 n4 nt
    · simp only [List.mem_singleton, forall_eq]; exact h.step pq q1 q4 nt
  · rename_i N e
    obtain ⟨⟨i, hi, hneg⟩, _, pn, hsame, e1, e2, e3⟩ := hs _ e
    obtain ⟨a1, a2⟩ := both_some hp
    refine ⟨⟨[N], [], [], []⟩, ⟨?_, by simp, by simp, by simp,
      Conserved.same e1 hsame.plane hsame.region (fun ht => e3.trans ht) _⟩, addInterior_received a1, ?_⟩
    · simp only [List.mem_singleton, forall_eq]
      exact h.step pn hsame.plane e2 (not_through h.convex hi (ne_of_lt hneg))
    · rw [← Option.some.inj a2]; exact .refl _
  · rename_i Q e
    obtain ⟨⟨i, hi, hpos⟩, _, pn, hsame, e1, e2, e3⟩ := hs _ e
    obtain ⟨a1, a2⟩ := both_some hp
    refine ⟨⟨[], [], [Q], []⟩, ⟨by simp, by simp, ?_, by simp,
      Conserved.same e1 hsame.plane hsame.region (fun ht => e3.trans ht) _⟩, ?_, addInterior_received a2⟩
    · simp only [List.mem_singleton, forall_eq]
      exact h.step pn hsame.plane e2 (not_through h.convex hi (ne_of_gt hpos))
    · rw [← Option.some.inj a1]; exact .refl _
  · rename_i e
    obtain ⟨hb, hsame, e1, e2⟩ := onPlane_border h hg (hs _ e)
    have hc := Conserved.same e1 hsame.plane hsame.region (fun ht => e2.trans ht) [ref.plane]
    split_ifs at hp with hpos
    · obtain ⟨a1, a2⟩ := both_some hp
      refine ⟨⟨[], [], [], [onPlane ref p]⟩, ⟨by simp, by simp, by simp, ?_, hc⟩, ?_, addBorder_received a2⟩
      · simp only [List.mem_singleton, forall_eq]; rw [hpos] at hb; exact hb
      · rw [← Option.some.inj a1]; exact .refl _
    · obtain ⟨a1, a2⟩ := both_some hp
      refine ⟨⟨[], [onPlane ref p], [], []⟩, ⟨by simp, ?_, by simp, by simp, hc⟩, addBorder_received a1, ?_⟩
      · simp only [List.mem_singleton, forall_eq]; rw [Bool.not_eq_true] at hpos; rw [hpos] at hb; exact hb
      · rw [← Option.some.inj a2]; exact .refl _

theorem pushBorder_spec {anc : Anc} {ref : PlaneRef} {p : BPoly} (h : BorderOK anc p)
    {k k' : NodeData × NodeData} (hp : pushBorder ref p k = some k') :
    ∃ o, Delivers anc ref [p] o ∧ Received k.1 k'.1 o.cn o.bn ∧ Received k.2 k'.2 o.cp o.bp := by
  unfold pushBorder at hp
  have hs := (route_spec h.toPieceOK (Or.inr h.on) ref false).1
  split at hp
  · simp at hp
  · rename_i N Q e
    have r := hs _ e
    obtain ⟨a1, a2⟩ := both_some hp
    have c := both_cons h.toPieceOK r
    obtain ⟨⟨i, hi, hneg⟩, _, pn, pq, n1, q1, n2, q2, n4, q4, _⟩ := r
    have nt := not_through h.convex hi (ne_of_lt hneg)
    refine ⟨⟨[], [N], [], [Q]⟩, ⟨by simp, ?_, by simp, ?_, c⟩, addBorder_received a1, addBorder_received a2⟩
    · simp only [List.mem_singleton, forall_eq]; exact h.step pn n1 n4 nt
    · simp only [List.mem_singleton, forall_eq]; exact h.step pq q1 q4 nt
  · rename_i N e
    obtain ⟨⟨i, hi, hneg⟩, _, pn, hsame, e1, e2, e3⟩ := hs _ e
    obtain ⟨a1, a2⟩ := both_some hp
    refine ⟨⟨[], [N], [], []⟩, ⟨by simp, ?_, by simp, by simp,
      Conserved.same e1 hsame.plane hsame.region (fun ht => e3.trans ht) _⟩, addBorder_received a1, ?_⟩
    · simp only [List.mem_singleton, forall_eq]
      exact h.step pn hsame.plane e2 (not_through h.convex hi (ne_of_lt hneg))
    · rw [← Option.some.inj a2]; exact .refl _
  · rename_i Q e
    obtain ⟨⟨i, hi, hpos⟩, _, pn, hsame, e1, e2, e3⟩ := hs _ e
    obtain ⟨a1, a2⟩ := both_some hp
    refine ⟨⟨[], [], [], [Q]⟩, ⟨by simp, by simp, by simp, ?_,
      Conserved.same e1 hsame.plane hsame.region (fun ht => e3.trans ht) _⟩, ?_, addBorder_received a2⟩
    · simp only [List.mem_singleton, forall_eq]
      exact h.step pn hsame.plane e2 (not_through h.convex hi (ne_of_gt hpos))
    · rw [← Option.some.inj a1]; exact .refl _
  · simp at hp

theorem pushAll_spec {anc : Anc} {ref : PlaneRef} {f : BPoly → NodeData × NodeData → Option (NodeData × NodeData)} {C : BPoly → Prop}
    (hf : ∀ p k k', C p → f p k = some k' →
      ∃ o, Delivers anc ref [p] o ∧ Received k.1 k'.1 o.cn o.bn ∧ Received k.2 k'.2 o.cp o.bp) :
    ∀ (l : List BPoly) (k k' : NodeData × NodeData), (∀ p ∈ l, C p) → pushAll f l k = some k' →
      ∃ o, Delivers anc ref l o ∧ Received k.1 k'.1 o.cn o.bn ∧ Received k.2 k'.2 o.cp o.bp := by
  intro l
  induction l with
  | nil =>
    intro k k' _ h
    rw [← Option.some.inj h]
    exact ⟨_, Delivers.nil _ _, .refl _, .refl _⟩
  | cons p l ih =>
    intro k k' hC h
    unfold pushAll at h
    split at h
    · simp at h
    · rename_i k1 e
      obtain ⟨o1, d1, r1, s1⟩ := hf p k k1 (hC p (by simp)) e
      obtain ⟨o2, d2, r2, s2⟩ := ih k1 k' (fun x hx => hC x (by simp [hx])) h
      exact ⟨_, d1.append d2, r1.trans r2, s1.trans s2⟩

theorem pushChildren_spec {anc : Anc} {ref : PlaneRef} (hg : ref.plane.n ≠ ⟨0, 0, 0⟩) {d : NodeData}
    (hc : ∀ x ∈ d.contents, ContentOK anc x) (hb : ∀ x ∈ d.border, BorderOK anc x) {k k' : NodeData × NodeData}
    (h : pushChildren ref d k = some k') :
    ∃ o, Delivers anc ref (d.contents ++ d.border) o ∧ Received k.1 k'.1 o.cn o.bn ∧ Received k.2 k'.2 o.cp o.bp := by
  unfold pushChildren at h
  split at h
  · simp at h
  · rename_i i e
    obtain ⟨s1, s2⟩ := pushPwn_same _ e
    split at h
    · simp at h
    · rename_i k1 e1
      obtain ⟨o1, d1, r1, t1⟩ := pushAll_spec (fun p k k' hC hk => pushContent_spec hg hC hk) _ _ _ hc e1
      obtain ⟨o2, d2, r2, t2⟩ := pushAll_spec (fun p k k' hC hk => pushBorder_spec hC hk) _ _ _ hb h
      have len : ∀ {a b : List Info}, SameCounts a b → b.length = a.length := by
        intro a b hh; have := congrArg List.length hh; simpa using this
      have r0 : Received k.1 { k.1 with info := i.1 } [] [] := ⟨by simp, by simp, s1.step, (len s1).ge⟩
      have t0 : Received k.2 { k.2 with info := i.2 } [] [] := ⟨by simp, by simp, s2.step, (len s2).ge⟩
      exact ⟨_, d1.append d2, (r0.trans r1).trans r2, (t0.trans t1).trans t2⟩

/-! ### Trees -/

theorem region_nonempty {anc : Anc} {x : BPoly} (h : PieceOK anc x) : x.poly.region.Nonempty := ⟨_, pt_mem h.convex.count_pos⟩

theorem TreeOK.nonempty : ∀ {t : Node} {anc : Anc}, TreeOK anc t → ∀ x ∈ t.polys, x.poly.region.Nonempty := by
  intro t
  induction t with
  | leaf d =>
    intro anc h x hx
    obtain ⟨h1, h2, _⟩ := h
    rcases List.mem_append.1 hx with hx | hx
    · exact region_nonempty (h1 x hx).toPieceOK
    · exact region_nonempty (h2 x hx).toPieceOK
  | inner d g n p ihn ihp =>
    intro anc h x hx
    obtain ⟨h1, h2, _, _, h3, h4⟩ := h
    unfold Node.polys at hx
    rcases List.mem_append.1 hx with hx | hx
    · rcases List.mem_append.1 hx with hx | hx
      · exact region_nonempty (h1 x hx).toPieceOK
      · exact region_nonempty (h2 x hx).toPieceOK
    · rcases List.mem_append.1 hx with hx | hx
      · exact ihn h3 x hx
      · exact ihp h4 x hx

theorem ContentOK.kind {anc : Anc} {x : BPoly} (h : ContentOK anc x) : ∀ a ∈ anc, ¬ Through a.1.plane x.poly.plane := h.off.2

theorem BorderOK.kind {anc : Anc} {x : BPoly} (h : BorderOK anc x) : ∃ a ∈ anc, Through a.1.plane x.poly.plane := by
  obtain ⟨l, a, r, rfl, ht, _⟩ := h.on
  exact ⟨a, by simp, ht⟩

theorem countP_id_pos {l : List BPoly} {id : Nat} : 0 < l.countP (fun x => x.id == id) ↔ ∃ x ∈ l, x.id = id := by
  rw [List.countP_pos_iff]; simp

/-- The polygons `l` and `m` belong to the same contents and lie in the same planes. -/
def SameKinds (l m : List BPoly) : Prop := ∀ id (C : HS3 → Prop), (∃ x ∈ l, x.id = id ∧ C x.poly.plane) ↔ ∃ x ∈ m, x.id = id ∧ C x.poly.plane

theorem SameKinds.perm {l m : List BPoly} (h : l.Perm m) : SameKinds l m := fun id C => by simp only [h.mem_iff]

theorem Marked.congr {anc : Anc} {l m : List BPoly} {d e : NodeData} (h : Marked anc l d) (hk : SameKinds l m) (he : e.info = d.info) :
    Marked anc m e := by
  intro id
  unfold NodeData.infoFor
  rw [he]
  exact ⟨(h id).1.trans (hk id fun pl => ∀ a ∈ anc, ¬ Through a.1.plane pl), (h id).2.trans (hk id fun pl => ∃ a ∈ anc, Through a.1.plane pl)⟩

theorem Marked.receive {anc : Anc} {l c b : List BPoly} {d d' : NodeData} (h : Marked anc l d) (hr : Received d d' c b)
    (hc : ∀ x ∈ c, ContentOK anc x) (hb : ∀ x ∈ b, BorderOK anc x) : Marked anc (l ++ (c ++ b)) d' := by
  intro id
  have h1 := (hr.info id).1
  have h2 := (hr.info id).2
  unfold NodeData.infoFor
  rw [h1, h2]
  constructor
  · rw [Nat.add_pos_iff_pos_or_pos, countP_id_pos]
    refine Iff.trans (or_congr (h id).1 Iff.rfl) ⟨?_, ?_⟩
    · rintro (⟨x, hx, e⟩ | ⟨x, hx, e⟩)
      · exact ⟨x, by simp [hx], e⟩
      · exact ⟨x, by simp [hx], e, (hc x hx).kind⟩
    · rintro ⟨x, hx, e1, e2⟩
      rcases List.mem_append.1 hx with hx | hx
      · exact Or.inl ⟨x, hx, e1, e2⟩
      · rcases List.mem_append.1 hx with hx | hx
        · exact Or.inr ⟨x, hx, e1⟩
        · obtain ⟨a, ha, ht⟩ := (hb x hx).kind
          exact absurd ht (e2 a ha)
  · rw [Nat.add_pos_iff_pos_or_pos, countP_id_pos]
    refine Iff.trans (or_congr (h id).2 Iff.rfl) ⟨?_, ?_⟩
    · rintro (⟨x, hx, e⟩ | ⟨x, hx, e⟩)
      · exact ⟨x, by simp [hx], e⟩
      · exact ⟨x, by simp [hx], e, (hb x hx).kind⟩
    · rintro ⟨x, hx, e1, a, ha, ht⟩
      rcases List.mem_append.1 hx with hx | hx
      · exact Or.inl ⟨x, hx, e1, a, ha, ht⟩
      · rcases List.mem_append.1 hx with hx | hx
        · exact absurd ht ((hc x hx).kind a ha)
        · exact Or.inr ⟨x, hx, e1⟩

theorem Counted.receive {d d' : NodeData} {c b : List BPoly} (h : Counted d) (hr : Received d d' c b) : Counted d' := by
  intro id
  have h1 := (hr.info id).1
  have h2 := (hr.info id).2
  unfold NodeData.infoFor
  rw [h1, h2, hr.contents, hr.border, List.countP_append, List.countP_append]
  have := h id
  unfold NodeData.infoFor at this
  omega

theorem Counted.marked {anc : Anc} {d : NodeData} (h : Counted d) (hc : ∀ x ∈ d.contents, ContentOK anc x)
    (hb : ∀ x ∈ d.border, BorderOK anc x) : Marked anc (d.contents ++ d.border) d := by
  intro id
  rw [(h id).1, (h id).2, countP_id_pos, countP_id_pos]
  constructor
  · constructor
    · rintro ⟨x, hx, e⟩
      exact ⟨x, by simp [hx], e, (hc x hx).kind⟩
    · rintro ⟨x, hx, e1, e2⟩
      rcases List.mem_append.1 hx with hx | hx
      · exact ⟨x, hx, e1⟩
      · obtain ⟨a, ha, ht⟩ := (hb x hx).kind
        exact absurd ht (e2 a ha)
  · constructor
    · rintro ⟨x, hx, e⟩
      exact ⟨x, by simp [hx], e, (hb x hx).kind⟩
    · rintro ⟨x, hx, e1, a, ha, ht⟩
      rcases List.mem_append.1 hx with hx | hx
      · exact absurd ht ((hc x hx).kind a ha)
      · exact ⟨x, hx, e1⟩

theorem TreeOK.marked : ∀ {t : Node} {anc : Anc}, TreeOK anc t → Marked anc t.polys t.data
  | .leaf _, _, h => h.2.2.marked h.1 h.2.1
  | .inner _ _ _ _, _, h => h.2.2.1

theorem TreeOK.contents : ∀ {t : Node} {anc : Anc}, TreeOK anc t → ∀ x ∈ t.data.contents, ContentOK anc x
  | .leaf _, _, h => h.1
  | .inner _ _ _ _, _, h => h.1

theorem TreeOK.border : ∀ {t : Node} {anc : Anc}, TreeOK anc t → ∀ x ∈ t.data.border, BorderOK anc x
  | .leaf _, _, h => h.2.1
  | .inner _ _ _ _, _, h => h.2.1

theorem setData_planes : ∀ (t : Node) (d : NodeData), (t.setData d).planes = t.planes
  | .leaf _, _ => rfl
  | .inner _ _ _ _, _ => rfl

theorem setData_self : ∀ (t : Node), t.setData t.data = t
  | .leaf _ => rfl
  | .inner _ _ _ _ => rfl

theorem setData_data : ∀ (t : Node) (d : NodeData), (t.setData d).data = d
  | .leaf _, _ => rfl
  | .inner _ _ _ _, _ => rfl

theorem receive_polys {t : Node} {d : NodeData} {c b : List BPoly} (hr : Received t.data d c b) :
    (t.setData d).polys.Perm (t.polys ++ (c ++ b)) := by
  classical
  rw [List.perm_iff_count]
  intro a
  cases t with
  | leaf d0 =>
    unfold Node.setData Node.polys
    rw [hr.contents, hr.border]
    simp only [Node.data, List.count_append]; omega
  | inner d0 g n p =>
    unfold Node.setData Node.polys
    rw [hr.contents, hr.border]
    simp only [Node.data, List.count_append]; omega

theorem TreeOK.receive {t : Node} {anc : Anc} (h : TreeOK anc t) {d : NodeData} {c b : List BPoly} (hr : Received t.data d c b)
    (hc : ∀ x ∈ c, ContentOK anc x) (hb : ∀ x ∈ b, BorderOK anc x) : TreeOK anc (t.setData d) := by
  have c1 : ∀ x ∈ d.contents, ContentOK anc x := by
    rw [hr.contents]; intro x hx
    exact (List.mem_append.1 hx).elim (h.contents x) (hc x)
  have b1 : ∀ x ∈ d.border, BorderOK anc x := by
    rw [hr.border]; intro x hx
    exact (List.mem_append.1 hx).elim (h.border x) (hb x)
  have hm := (h.marked.receive hr hc hb).congr (SameKinds.perm (receive_polys hr).symm) rfl
  cases t with
  | leaf d0 => exact ⟨c1, b1, h.2.2.receive hr⟩
  | inner d0 g n p => exact ⟨c1, b1, hm, h.2.2.2⟩

/-- `PushContentsToChildren` on a consistent subtree. -/
theorem TreeOK.push {d : NodeData} {g : HS3} {n p : Node} {anc : Anc} (h : TreeOK anc (.inner d g n p)) {k : NodeData × NodeData}
    (hk : pushChildren ⟨anc.map Prod.snd, g⟩ d (n.data, p.data) = some k) :
    TreeOK (anc ++ [(⟨anc.map Prod.snd, g⟩, false)]) (n.setData k.1) ∧ TreeOK (anc ++ [(⟨anc.map Prod.snd, g⟩, true)]) (p.setData k.2) ∧
    Conserved [g] (Node.inner d g n p).polys ((n.setData k.1).polys ++ (p.setData k.2).polys) := by
  obtain ⟨h1, h2, h3, h4, h5, h6⟩ := h
  obtain ⟨o, hd, r1, r2⟩ := pushChildren_spec (ref := ⟨anc.map Prod.snd, g⟩) h4 h1 h2 hk
  refine ⟨h5.receive r1 hd.cn hd.bn, h6.receive r2 hd.cp hd.bp, ?_⟩
  refine (hd.cons.append (Conserved.refl _ (n.polys ++ p.polys))).trans (Conserved.perm ?_ _)
  refine List.Perm.trans ?_ ((receive_polys r1).symm.append (receive_polys r2).symm)
  classical
  rw [List.perm_iff_count]
  intro a
  simp only [Out.all, List.count_append]; omega

/-- A consistent interior node whose polygons have been moved down. -/
theorem TreeOK.rebuild {d : NodeData} {g : HS3} {n p n' p' : Node} {anc : Anc} {G : List HS3} (h : TreeOK anc (.inner d g n p))
    (hn : TreeOK (anc ++ [(⟨anc.map Prod.snd, g⟩, false)]) n') (hp : TreeOK (anc ++ [(⟨anc.map Prod.snd, g⟩, true)]) p')
    {e : NodeData} (he : e.info = d.info) (hc : ∀ x ∈ e.contents, ContentOK anc x) (hb : ∀ x ∈ e.border, BorderOK anc x)
    (hcons : Conserved G (Node.inner d g n p).polys (Node.inner e g n' p').polys) : TreeOK anc (.inner e g n' p') := by
  have hne : ∀ x ∈ (Node.inner e g n' p').polys, x.poly.region.Nonempty := by
    intro x hx
    unfold Node.polys at hx
    rcases List.mem_append.1 hx with hx | hx
    · rcases List.mem_append.1 hx with hx | hx
      · exact region_nonempty (hc x hx).toPieceOK
      · exact region_nonempty (hb x hx).toPieceOK
    · exact (List.mem_append.1 hx).elim (hn.nonempty x) (hp.nonempty x)
  exact ⟨hc, hb, h.marked.congr (hcons.occurs h.nonempty hne) he, h.2.2.2.1, hn, hp⟩

theorem map_snd_append (anc : Anc) (r : PlaneRef) (s : Bool) : (anc ++ [(r, s)]).map Prod.snd = anc.map Prod.snd ++ [s] := by simp

theorem clear_polys (d : NodeData) (g : HS3) (n p : Node) : (Node.inner d.clear g n p).polys = n.polys ++ p.polys := rfl

/-- `PushContentsToLeaves`. -/
theorem pushDown_ok : ∀ (t : Node) (anc : Anc) (d : NodeData) (t' : Node), TreeOK anc (t.setData d) →
    t.pushDown (anc.map Prod.snd) d = some t' →
    TreeOK anc t' ∧ Conserved t.planes (t.setData d).polys t'.polys ∧ t'.planes = t.planes := by
  intro t
  induction t with
  | leaf d0 =>
    intro anc d t' h ht
    rw [← Option.some.inj ht]
    exact ⟨h, Conserved.refl _ _, rfl⟩
  | inner d0 g n p ihn ihp =>
    intro anc d t' h ht
    unfold Node.pushDown at ht
    split_ifs at ht with he
    · rw [← Option.some.inj ht]
      exact ⟨h, Conserved.refl _ _, rfl⟩
    · split at ht
      · simp at ht
      · rename_i k hk
        obtain ⟨h5, h6, hcons⟩ := TreeOK.push h hk
        split at ht
        · rename_i n' p' en ep
          rw [← map_snd_append anc ⟨anc.map Prod.snd, g⟩] at en ep
          obtain ⟨tn, cn, pn⟩ := ihn _ _ _ h5 en
          obtain ⟨tp, cp, pp⟩ := ihp _ _ _ h6 ep
          have hc : Conserved (g :: (n.planes ++ p.planes)) (Node.inner d g n p).polys (Node.inner d.clear g n' p').polys := by
            rw [clear_polys]
            refine (hcons.mono (by simp)).trans (Conserved.append (cn.mono ?_) (cp.mono ?_)) <;> intro x hx <;> simp [hx]
          rw [← Option.some.inj ht]
          refine ⟨TreeOK.rebuild h tn tp rfl (by simp [NodeData.clear]) (by simp [NodeData.clear]) hc, hc, ?_⟩
          unfold Node.planes
          rw [pn, pp]
        · simp at ht

theorem pushToLeaves_ok {t t' : Node} {anc : Anc} (h : TreeOK anc t) (ht : t.pushToLeaves (anc.map Prod.snd) = some t') :
    TreeOK anc t' ∧ Conserved t.planes t.polys t'.polys ∧ t'.planes = t.planes := by
  have := pushDown_ok t anc t.data t' (by rw [setData_self]; exact h) ht
  rw [setData_self] at this
  exact this

theorem setPwn_counted (info : List Info) : Counted (setPwn info) := by
  intro id
  unfold NodeData.infoFor setPwn
  simp only [List.getD_eq_getElem?_getD, List.getElem?_map]
  cases info[id]? <;> simp

/-- `Split`. -/
theorem split_ok {d : NodeData} {g : HS3} {anc : Anc} {t' : Node} (h : TreeOK anc (.leaf d)) (ht : split (anc.map Prod.snd) d g = some t') :
    TreeOK anc t' ∧ Conserved [g] (Node.leaf d).polys t'.polys ∧ t'.planes = [g] := by
  unfold split at ht
  split_ifs at ht with hz
  have hg : g.n ≠ ⟨0, 0, 0⟩ := by
    intro e; apply hz; rw [e]; rfl
  obtain ⟨k, hk, rfl⟩ := Option.map_eq_some_iff.1 ht
  have empty : ∀ s, TreeOK (anc ++ [(⟨anc.map Prod.snd, g⟩, s)]) (.leaf (setPwn d.info)) := by
    intro s
    refine ⟨by simp [setPwn], by simp [setPwn], setPwn_counted _⟩
  have e1 : (Node.inner d g (.leaf (setPwn d.info)) (.leaf (setPwn d.info))).polys = (Node.leaf d).polys := by
    simp [Node.polys, setPwn]
  have h0 : TreeOK anc (.inner d g (.leaf (setPwn d.info)) (.leaf (setPwn d.info))) :=
    ⟨h.1, h.2.1, by rw [e1]; exact h.marked, hg, empty _, empty _⟩
  obtain ⟨h5, h6, hcons⟩ := TreeOK.push h0 (k := k) hk
  have hc : Conserved [g] (Node.leaf d).polys (Node.inner d.clear g (.leaf k.1) (.leaf k.2)).polys := by
    rw [clear_polys, ← e1]; exact hcons
  refine ⟨TreeOK.rebuild h0 h5 h6 rfl (by simp [NodeData.clear]) (by simp [NodeData.clear]) (G := [g]) (by rw [e1]; exact hc), hc, rfl⟩

theorem inner_cons {d : NodeData} {g : HS3} {n p n' p' : Node} {G : List HS3} (h : Conserved G n.polys n'.polys) (h' : Conserved G p.polys p'.polys) :
    Conserved G (Node.inner d g n p).polys (Node.inner d g n' p').polys :=
  (Conserved.refl _ _).append (h.append h')

theorem splitAt_ok : ∀ (t : Node) (anc : Anc) (path : List Bool) (g : HS3) (t' : Node), TreeOK anc t →
    t.splitAt (anc.map Prod.snd) path g = some t' →
    TreeOK anc t' ∧ Conserved [g] t.polys t'.polys ∧ (∀ h, h ∈ t'.planes ↔ h ∈ t.planes ∨ h = g) := by
  intro t
  induction t with
  | leaf d =>
    intro anc path g t' h ht
    cases path with
    | nil =>
      obtain ⟨a, b, c⟩ := split_ok h ht
      exact ⟨a, b, fun x => by rw [c]; simp [Node.planes]⟩
    | cons b path => simp [Node.splitAt] at ht
  | inner d h0 n p ihn ihp =>
    intro anc path g t' h ht
    cases path with
    | nil => simp [Node.splitAt] at ht
    | cons b path =>
      cases b
      · unfold Node.splitAt at ht
        obtain ⟨n', hn, rfl⟩ := Option.map_eq_some_iff.1 ht
        rw [← map_snd_append anc ⟨anc.map Prod.snd, h0⟩] at hn
        obtain ⟨a1, a2, a3⟩ := ihn _ _ _ _ h.2.2.2.2.1 hn
        have hc : Conserved [g] (Node.inner d h0 n p).polys (Node.inner d h0 n' p).polys := inner_cons a2 (Conserved.refl _ _)
        refine ⟨TreeOK.rebuild h a1 h.2.2.2.2.2 rfl h.1 h.2.1 hc, hc, fun x => ?_⟩
        unfold Node.planes
        simp only [List.mem_cons, List.mem_append, a3]; tauto
      · unfold Node.splitAt at ht
        obtain ⟨p', hp, rfl⟩ := Option.map_eq_some_iff.1 ht
        rw [← map_snd_append anc ⟨anc.map Prod.snd, h0⟩] at hp
        obtain ⟨a1, a2, a3⟩ := ihp _ _ _ _ h.2.2.2.2.2 hp
        have hc : Conserved [g] (Node.inner d h0 n p).polys (Node.inner d h0 n p').polys := inner_cons (Conserved.refl _ _) a2
        refine ⟨TreeOK.rebuild h h.2.2.2.2.1 a1 rfl h.1 h.2.1 hc, hc, fun x => ?_⟩
        unfold Node.planes
        simp only [List.mem_cons, List.mem_append, a3]; tauto

theorem pushAt_ok : ∀ (t : Node) (anc : Anc) (path : List Bool) (t' : Node), TreeOK anc t →
    t.pushAt (anc.map Prod.snd) path = some t' →
    TreeOK anc t' ∧ Conserved t.planes t.polys t'.polys ∧ t'.planes = t.planes := by
  intro t
  induction t with
  | leaf d =>
    intro anc path t' h ht
    cases path with
    | nil => rw [← Option.some.inj ht]; exact ⟨h, Conserved.refl _ _, rfl⟩
    | cons b path => simp [Node.pushAt] at ht
  | inner d h0 n p ihn ihp =>
    intro anc path t' h ht
    cases path with
    | nil =>
      unfold Node.pushAt at ht
      obtain ⟨k, hk, rfl⟩ := Option.map_eq_some_iff.1 ht
      obtain ⟨h5, h6, hcons⟩ := TreeOK.push h hk
      have hc : Conserved [h0] (Node.inner d h0 n p).polys (Node.inner d.clear h0 (n.setData k.1) (p.setData k.2)).polys := hcons
      refine ⟨TreeOK.rebuild h h5 h6 rfl (by simp [NodeData.clear]) (by simp [NodeData.clear]) hc,
        hc.mono (by simp [Node.planes]), ?_⟩
      unfold Node.planes
      rw [setData_planes, setData_planes]
    | cons b path =>
      cases b
      · unfold Node.pushAt at ht
        obtain ⟨n', hn, rfl⟩ := Option.map_eq_some_iff.1 ht
        rw [← map_snd_append anc ⟨anc.map Prod.snd, h0⟩] at hn
        obtain ⟨a1, a2, a3⟩ := ihn _ _ _ h.2.2.2.2.1 hn
        have hc : Conserved (Node.inner d h0 n p).planes (Node.inner d h0 n p).polys (Node.inner d h0 n' p).polys :=
          inner_cons (a2.mono fun x hx => by simp [Node.planes, hx]) (Conserved.refl _ _)
        refine ⟨TreeOK.rebuild h a1 h.2.2.2.2.2 rfl h.1 h.2.1 hc, hc, ?_⟩
        unfold Node.planes
        rw [a3]
      · unfold Node.pushAt at ht
        obtain ⟨p', hp, rfl⟩ := Option.map_eq_some_iff.1 ht
        rw [← map_snd_append anc ⟨anc.map Prod.snd, h0⟩] at hp
        obtain ⟨a1, a2, a3⟩ := ihp _ _ _ h.2.2.2.2.2 hp
        have hc : Conserved (Node.inner d h0 n p).planes (Node.inner d h0 n p).polys (Node.inner d h0 n p').polys :=
          inner_cons (Conserved.refl _ _) (a2.mono fun x hx => by simp [Node.planes, hx])
        refine ⟨TreeOK.rebuild h h.2.2.2.2.1 a1 rfl h.1 h.2.1 hc, hc, ?_⟩
        unfold Node.planes
        rw [a3]

end Walnut.Bsp
