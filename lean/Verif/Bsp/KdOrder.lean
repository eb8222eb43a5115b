/- A k-d split gives the children of the ordinary split, with their polygons in another order. -/
import Verif.Bsp.KdStart

namespace Walnut.Bsp
open Walnut.Geom Walnut.Poly

/-- The same vectors of polygons up to their order, and the same information. -/
structure NodeData.Reorders (d d' : NodeData) : Prop where
  contents : d.contents.Perm d'.contents
  border : d.border.Perm d'.border
  info : d.info = d'.info

/-- The same planes, and the same polygons at every node up to their order. -/
def Node.Reorders : Node → Node → Prop
  | .leaf d, .leaf d' => d.Reorders d'
  | .inner d g n p, .inner d' g' n' p' => d.Reorders d' ∧ g = g' ∧ n.Reorders n' ∧ p.Reorders p'
  | _, _ => False

theorem NodeData.Reorders.refl (d : NodeData) : d.Reorders d := ⟨.refl _, .refl _, rfl⟩

/-- The counters after `c` and `b` are counted. -/
def addCounts (info : List Info) (c b : List BPoly) : List Info :=
  info.mapIdx fun id i => { i with interior := i.interior + c.countP (fun x => x.id == id), border := i.border + b.countP (fun x => x.id == id) }

theorem addCounts_nil (info : List Info) : addCounts info [] [] = info := by
  unfold addCounts
  apply List.ext_getElem (by simp)
  intro k h1 h2
  simp

theorem addCounts_length (info : List Info) (c b : List BPoly) : (addCounts info c b).length = info.length := by simp [addCounts]

theorem addCounts_add (info : List Info) (c b c' b' : List BPoly) : addCounts (addCounts info c b) c' b' = addCounts info (c ++ c') (b ++ b') := by
  unfold addCounts
  rw [List.mapIdx_mapIdx]
  congr 1
  funext id i
  simp [List.countP_append, Nat.add_assoc]

theorem addCounts_perm (info : List Info) {c b c' b' : List BPoly} (h : c.Perm c') (h' : b.Perm b') : addCounts info c b = addCounts info c' b' := by
  unfold addCounts
  congr 1
  funext id i
  rw [h.countP_eq, h'.countP_eq]

theorem addCounts_get {info : List Info} {c b : List BPoly} {k : Nat} (h : k < info.length) (h' : k < (addCounts info c b).length) :
    (addCounts info c b)[k] = { info[k] with interior := info[k].interior + c.countP (fun x => x.id == k), border := info[k].border + b.countP (fun x => x.id == k) } := by
  simp [addCounts]

theorem bump_interior {info : List Info} {p : BPoly} : bump info p.id (fun i => { i with interior := i.interior + 1 }) = if p.id < info.length then some (addCounts info [p] []) else none := by
  unfold bump
  split_ifs with h
  · congr 1
    apply List.ext_getElem (by simp [addCounts])
    intro k h1 h2
    rw [addCounts_length] at h2
    rw [List.getElem_modify, addCounts_get h2]
    by_cases e : p.id = k
    · simp [e]
    · simp [e]
  · rfl

theorem bump_border {info : List Info} {p : BPoly} : bump info p.id (fun i => { i with border := i.border + 1 }) = if p.id < info.length then some (addCounts info [] [p]) else none := by
  unfold bump
  split_ifs with h
  · congr 1
    apply List.ext_getElem (by simp [addCounts])
    intro k h1 h2
    rw [addCounts_length] at h2
    rw [List.getElem_modify, addCounts_get h2]
    by_cases e : p.id = k
    · simp [e]
    · simp [e]
  · rfl

/-- A node's vectors after polygons were appended and counted. -/
def NodeData.plus (d : NodeData) (c b : List BPoly) : NodeData := ⟨d.contents ++ c, d.border ++ b, addCounts d.info c b⟩

theorem NodeData.plus_nil (d : NodeData) : d.plus [] [] = d := by unfold NodeData.plus; rw [addCounts_nil]; simp

theorem NodeData.plus_plus (d : NodeData) (c b c' b' : List BPoly) : (d.plus c b).plus c' b' = d.plus (c ++ c') (b ++ b') := by
  unfold NodeData.plus; rw [addCounts_add]; simp

theorem addInterior_eq (d : NodeData) (p : BPoly) (h : p.id < d.info.length) : d.addInterior p = some (d.plus [p] []) := by
  unfold NodeData.addInterior; rw [bump_interior, if_pos h]; simp [NodeData.plus]

theorem addBorder_eq (d : NodeData) (p : BPoly) (h : p.id < d.info.length) : d.addBorder p = some (d.plus [] [p]) := by
  unfold NodeData.addBorder; rw [bump_border, if_pos h]; simp [NodeData.plus]

/-- The ids have counters. -/
def IdsFit (d : NodeData) (l : List BPoly) : Prop := ∀ x ∈ l, x.id < d.info.length

theorem pushContent_eq {ref : PlaneRef} {p : BPoly} (hr : route true ref p ≠ none) {k : NodeData × NodeData} (h1 : IdsFit k.1 ((outFor ref p).cn ++ (outFor ref p).bn))
    (h2 : IdsFit k.2 ((outFor ref p).cp ++ (outFor ref p).bp)) :
    pushContent ref p k = some (k.1.plus (outFor ref p).cn (outFor ref p).bn, k.2.plus (outFor ref p).cp (outFor ref p).bp) := by
  unfold pushContent
  unfold outFor at *
  split
  · rename_i e; exact absurd e hr
  · rename_i N Q e
    simp only [e] at h1 h2 ⊢
    rw [addInterior_eq _ _ (h1 N (by simp)), addInterior_eq _ _ (h2 Q (by simp))]; rfl
  · rename_i N e
    simp only [e] at h1 h2 ⊢
    rw [addInterior_eq _ _ (h1 N (by simp)), NodeData.plus_nil]; rfl
  · rename_i Q e
    simp only [e] at h1 h2 ⊢
    rw [addInterior_eq _ _ (h2 Q (by simp)), NodeData.plus_nil]; rfl
  · rename_i e
    simp only [e] at h1 h2 ⊢
    by_cases ho : onPlanePos p ref.plane = true
    · simp only [ho, if_true] at h1 h2 ⊢
      rw [addBorder_eq _ _ (h2 _ (by simp)), NodeData.plus_nil]; rfl
    · simp only [ho] at h1 h2 ⊢
      simp only [Bool.false_eq_true, if_false] at h1 h2 ⊢
      rw [addBorder_eq _ _ (h1 _ (by simp)), NodeData.plus_nil]; rfl

theorem plus_fits {d : NodeData} {l c b : List BPoly} : IdsFit (d.plus c b) l ↔ IdsFit d l := by
  unfold IdsFit NodeData.plus; simp only [addCounts_length]

theorem pushAll_eq {ref : PlaneRef} : ∀ (l : List BPoly) (k : NodeData × NodeData), (∀ p ∈ l, route true ref p ≠ none) →
    IdsFit k.1 (l.flatMap fun p => (outFor ref p).cn) → IdsFit k.1 (l.flatMap fun p => (outFor ref p).bn) →
    IdsFit k.2 (l.flatMap fun p => (outFor ref p).cp) → IdsFit k.2 (l.flatMap fun p => (outFor ref p).bp) →
    pushAll (pushContent ref) l k = some (k.1.plus (l.flatMap fun p => (outFor ref p).cn) (l.flatMap fun p => (outFor ref p).bn),
      k.2.plus (l.flatMap fun p => (outFor ref p).cp) (l.flatMap fun p => (outFor ref p).bp)) := by
  intro l
  induction l with
  | nil => intro k _ _ _ _ _; simp [pushAll, NodeData.plus_nil]
  | cons p l ih =>
    intro k hr h1 h2 h3 h4
    rw [List.flatMap_cons] at h1 h2 h3 h4
    unfold pushAll
    rw [pushContent_eq (hr p (by simp))]
    · simp only
      rw [ih _ (fun q hq => hr q (by simp [hq]))]
      · simp only [NodeData.plus_plus, List.flatMap_cons]
      · rw [plus_fits]; exact fun x hx => h1 x (List.mem_append_right _ hx)
      · rw [plus_fits]; exact fun x hx => h2 x (List.mem_append_right _ hx)
      · rw [plus_fits]; exact fun x hx => h3 x (List.mem_append_right _ hx)
      · rw [plus_fits]; exact fun x hx => h4 x (List.mem_append_right _ hx)
    · intro x hx
      rcases List.mem_append.1 hx with hx | hx
      · exact h1 x (List.mem_append_left _ hx)
      · exact h2 x (List.mem_append_left _ hx)
    · intro x hx
      rcases List.mem_append.1 hx with hx | hx
      · exact h3 x (List.mem_append_left _ hx)
      · exact h4 x (List.mem_append_left _ hx)

theorem foldlM_interior : ∀ (l : List BPoly) (info info' : List Info),
    l.foldlM (fun i (p : BPoly) => bump i p.id fun i => { i with interior := i.interior + 1 }) info = some info' →
      (∀ x ∈ l, x.id < info.length) ∧ info' = addCounts info l [] := by
  intro l
  induction l with
  | nil => intro info info' h; cases h; simp [addCounts_nil]
  | cons p l ih =>
    intro info info' h
    rw [List.foldlM_cons, bump_interior] at h
    obtain ⟨i1, h1, h2⟩ := Option.bind_eq_some_iff.1 h
    split_ifs at h1 with hp
    cases h1
    obtain ⟨a, b⟩ := ih _ _ h2
    rw [addCounts_add] at b
    rw [addCounts_length] at a
    refine ⟨fun x hx => ?_, b⟩
    rcases List.mem_cons.1 hx with rfl | hx
    · exact hp
    · exact a x hx

theorem foldlM_border : ∀ (l : List BPoly) (info info' : List Info),
    l.foldlM (fun i (p : BPoly) => bump i p.id fun i => { i with border := i.border + 1 }) info = some info' →
      (∀ x ∈ l, x.id < info.length) ∧ info' = addCounts info [] l := by
  intro l
  induction l with
  | nil => intro info info' h; cases h; simp [addCounts_nil]
  | cons p l ih =>
    intro info info' h
    rw [List.foldlM_cons, bump_border] at h
    obtain ⟨i1, h1, h2⟩ := Option.bind_eq_some_iff.1 h
    split_ifs at h1 with hp
    cases h1
    obtain ⟨a, b⟩ := ih _ _ h2
    rw [addCounts_add] at b
    rw [addCounts_length] at a
    refine ⟨fun x hx => ?_, b⟩
    rcases List.mem_cons.1 hx with rfl | hx
    · exact hp
    · exact a x hx

theorem count_spec {d d' : NodeData} (h : d.count = some d') :
    IdsFit d d.contents ∧ IdsFit d d.border ∧ d' = ⟨d.contents, d.border, addCounts d.info d.contents d.border⟩ := by
  unfold NodeData.count at h
  obtain ⟨i1, h1, h2⟩ := Option.bind_eq_some_iff.1 h
  obtain ⟨i2, h3, rfl⟩ := Option.map_eq_some_iff.1 h2
  obtain ⟨a1, rfl⟩ := foldlM_interior _ _ _ h1
  obtain ⟨a2, rfl⟩ := foldlM_border _ _ _ h3
  rw [addCounts_length] at a2
  refine ⟨a1, a2, ?_⟩
  rw [addCounts_add]; simp

theorem addBorder_reorder {d d' e : NodeData} (h : d.Reorders d') {p : BPoly} (he : d.addBorder p = some e) : ∃ e', d'.addBorder p = some e' ∧ e.Reorders e' := by
  unfold NodeData.addBorder at he ⊢
  rw [← h.info]
  obtain ⟨i, hi, rfl⟩ := Option.map_eq_some_iff.1 he
  rw [hi]
  exact ⟨_, rfl, h.contents, h.border.append_right _, rfl⟩

theorem pushBorder_reorder {ref : PlaneRef} {p : BPoly} {k k' m : NodeData × NodeData} (h1 : k.1.Reorders k'.1) (h2 : k.2.Reorders k'.2)
    (h : pushBorder ref p k = some m) : ∃ m', pushBorder ref p k' = some m' ∧ m.1.Reorders m'.1 ∧ m.2.Reorders m'.2 := by
  unfold pushBorder at h ⊢
  split at h
  · cases h
  · obtain ⟨a, b⟩ := both_some h
    obtain ⟨x, x1, x2⟩ := addBorder_reorder h1 a
    obtain ⟨y, y1, y2⟩ := addBorder_reorder h2 b
    simp only [x1, y1]
    exact ⟨_, rfl, x2, y2⟩
  · obtain ⟨a, b⟩ := both_some h
    obtain ⟨x, x1, x2⟩ := addBorder_reorder h1 a
    simp only [x1]
    rw [← Option.some.inj b]
    exact ⟨_, rfl, x2, h2⟩
  · obtain ⟨a, b⟩ := both_some h
    obtain ⟨y, y1, y2⟩ := addBorder_reorder h2 b
    simp only [y1]
    rw [← Option.some.inj a]
    exact ⟨_, rfl, h1, y2⟩
  · cases h

theorem pushBorders_reorder {ref : PlaneRef} : ∀ (l : List BPoly) {k k' m : NodeData × NodeData}, k.1.Reorders k'.1 → k.2.Reorders k'.2 →
    pushAll (pushBorder ref) l k = some m → ∃ m', pushAll (pushBorder ref) l k' = some m' ∧ m.1.Reorders m'.1 ∧ m.2.Reorders m'.2 := by
  intro l
  induction l with
  | nil => intro k k' m h1 h2 h; cases h; exact ⟨_, rfl, h1, h2⟩
  | cons p l ih =>
    intro k k' m h1 h2 h
    unfold pushAll at h ⊢
    split at h
    · cases h
    rename_i k1 e
    obtain ⟨k2, e2, r1, r2⟩ := pushBorder_reorder h1 h2 e
    rw [e2]
    exact ih r1 r2 h

theorem countP_divided {dim : Fin 3} {L : ℚ} : ∀ {l : List BPoly} {xs : List EPoly}, extents dim l = some xs →
    l.countP (divided dim L) = xs.countP fun x => decide (x.lo.pt dim < L ∧ L < x.hi.pt dim)
  | [], xs, h => by cases h; rfl
  | p :: l, xs, h => by
    unfold extents at h
    rw [List.mapM_cons] at h
    obtain ⟨x, hx, h⟩ := Option.bind_eq_some_iff.1 h
    obtain ⟨y, hy, h⟩ := Option.bind_eq_some_iff.1 h
    cases h
    rw [List.countP_cons, List.countP_cons, countP_divided hy]
    congr 1
    unfold divided
    rw [hx]

theorem countP_sides {dim : Fin 3} {L : ℚ} : ∀ {xs : List EPoly}, (∀ x ∈ xs, x.lo.pt dim ≤ x.hi.pt dim) →
    xs.countP (fun p => decide (p.lo.pt dim < L)) + xs.countP (fun p => decide (L < p.hi.pt dim)) + xs.countP (fun p => decide (p.lo.pt dim = L ∧ p.hi.pt dim = L)) =
      xs.length + xs.countP fun x => decide (x.lo.pt dim < L ∧ L < x.hi.pt dim)
  | [], _ => rfl
  | x :: xs, h => by
    have ih := countP_sides (L := L) (xs := xs) fun y hy => h y (by simp [hy])
    have hx := h x (by simp)
    simp only [List.countP_cons, List.length_cons]
    generalize xs.countP (fun p => decide (p.lo.pt dim < L)) = c1 at ih ⊢
    generalize xs.countP (fun p => decide (L < p.hi.pt dim)) = c2 at ih ⊢
    generalize xs.countP (fun p => decide (p.lo.pt dim = L ∧ p.hi.pt dim = L)) = c3 at ih ⊢
    generalize (xs.countP fun x => decide (x.lo.pt dim < L ∧ L < x.hi.pt dim)) = c4 at ih ⊢
    rcases lt_trichotomy (x.lo.pt dim) L with a | a | a <;> rcases lt_trichotomy (x.hi.pt dim) L with b | b | b
    · simp [a, a.ne, not_lt.2 b.le]; omega
    · simp [a, a.ne, b]; omega
    · simp [a, a.ne, b]; omega
    · exact absurd hx (by rw [a]; exact not_le.2 b)
    · simp [a, b]; omega
    · simp [a, b, b.ne']; omega
    · exact absurd hx (not_le.2 (b.trans a))
    · exact absurd hx (not_le.2 (by rw [b]; exact a))
    · simp [a, a.ne', b, not_lt.2 a.le]; omega

/-- The k-d split of a leaf is the ordinary split at the plane up to the order of the polygons. -/
theorem kdSplit_reorders {dim : Fin 3} {L : ℚ} {anc : Anc} {xs : List EPoly} {ev mem : List EP} {map : List Nat} {s t : Nat → Nat} {loc : Nat → ℚ} {part : EPart}
    {path : List Bool} {d : NodeData} (hc : ∀ p ∈ d.contents, ContentOK anc p) (hx : extents dim d.contents = some xs) (hE : SortedEvents dim xs ev s t loc)
    (hd : DiscountOk dim xs loc L part) (hg : ∀ g, eventPlane dim xs ev part = some g → AxisPlane dim L g)
    {t' : Node} {st : Prim} (h : kdSplit dim part path d ev mem map = some (t', st)) :
    ∃ g t0, eventPlane dim xs ev part = some g ∧ split path d g = some t0 ∧ t'.Reorders t0 := by
  have hlen := extents_length hx
  have hle : ∀ x ∈ xs, x.lo.pt dim ≤ x.hi.pt dim := by
    intro x hx'
    obtain ⟨j, hj, rfl⟩ := List.getElem_of_mem hx'
    have hp : d.contents[j]? = some d.contents[j] := List.getElem?_eq_getElem (by omega)
    obtain ⟨y, y1, y2⟩ := extents_get hx hp
    rw [List.getElem?_eq_getElem hj] at y1
    cases y1
    obtain ⟨T, T1, -, T3, T4⟩ := extent_spec y2
    have ht := (hc _ (List.mem_of_getElem? hp)).tracker T T1
    rw [T3, T4]
    exact ht.loMin dim _ (ht.hiLt dim)
  unfold kdSplit at h
  rw [hx] at h
  simp only at h
  split at h
  · cases h
  rename_i g hpl
  have hax := hg g hpl
  split at h
  · cases h
  rename_i i hi
  split at h
  · cases h
  split at h
  · cases h
  rename_i st1 hap
  split at h
  · rename_i n p en ep
    obtain ⟨k, hk, hkeq⟩ := Option.map_eq_some_iff.1 h
    cases hkeq
    unfold applyPrimary at hap
    rw [hx] at hap
    simp only at hap
    split at hap
    · cases hap
    split at hap
    · cases hap
    split at hap
    · cases hap
    split at hap
    · cases hap
    split at hap
    · cases hap
    split at hap
    · cases hap
    rename_i st2 hloop
    split at hap
    · cases hap
    split at hap
    · split at hap
      · cases hap
        have hextra : part.neg + part.pos + part.border - d.contents.length = d.contents.countP (divided dim L) := by
          rw [countP_divided hx, hd.neg, hd.pos, hd.border, countP_sides hle, hlen]; omega
        obtain ⟨r1, r2, r3, r4, r5⟩ := loop_spec (ref := ⟨path, g⟩) hx hE hax hc ⟨hd.range, hd.bounds⟩ hextra hloop
        obtain ⟨f1, f2, rfl⟩ := count_spec en
        obtain ⟨f3, f4, rfl⟩ := count_spec ep
        have hpush := pushAll_eq (ref := ⟨path, g⟩) d.contents ({ setPwn d.info with info := i.1 }, { setPwn d.info with info := i.2 }) r5
          (fun x hx => f1 x (r1.mem_iff.2 hx)) (fun x hx => f2 x (r3.mem_iff.2 hx)) (fun x hx => f3 x (r2.mem_iff.2 hx)) (fun x hx => f4 x (r4.mem_iff.2 hx))
        obtain ⟨m, m1, m2, m3⟩ := pushBorders_reorder (ref := ⟨path, g⟩) d.border
          (k' := (NodeData.plus { setPwn d.info with info := i.1 } (d.contents.flatMap fun p => (outFor ⟨path, g⟩ p).cn) (d.contents.flatMap fun p => (outFor ⟨path, g⟩ p).bn),
            NodeData.plus { setPwn d.info with info := i.2 } (d.contents.flatMap fun p => (outFor ⟨path, g⟩ p).cp) (d.contents.flatMap fun p => (outFor ⟨path, g⟩ p).bp)))
          ⟨by simpa [NodeData.plus, setPwn] using r1, by simpa [NodeData.plus, setPwn] using r3, addCounts_perm _ r1 r3⟩
          ⟨by simpa [NodeData.plus, setPwn] using r2, by simpa [NodeData.plus, setPwn] using r4, addCounts_perm _ r2 r4⟩ hk
        refine ⟨g, .inner d.clear g (.leaf m.1) (.leaf m.2), hpl, ?_, .refl _, rfl, m2, m3⟩
        unfold split
        rw [if_neg (by intro hz; exact hax.ne_zero (by
          have : g.n.x = 0 ∧ g.n.y = 0 ∧ g.n.z = 0 := by simpa [V3.isZero] using hz
          obtain ⟨z1, z2, z3⟩ := this
          cases hh : g.n; rw [hh] at z1 z2 z3; simp at z1 z2 z3; rw [z1, z2, z3]))]
        unfold pushChildren
        simp only
        rw [hi]
        simp only
        rw [hpush]
        simp only
        rw [m1]
        rfl
      · cases hap
    · cases hap
  · cases h

end Walnut.Bsp
