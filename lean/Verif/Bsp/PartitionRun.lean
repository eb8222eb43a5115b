/-
The plane partitioner's bookkeeping, and that it accepts exactly the facets where the
filter's value changes.
-/
import Verif.Bsp.PartitionProof

namespace Walnut.Bsp
open Walnut.Geom Walnut.Poly Walnut.Props

/-! ### The content information -/

theorem windingOf_get (c : List Info) (id : Nat) : windingOf c id = ((c[id]?).map Info.pwn).getD 0 := by
  unfold windingOf
  by_cases h : id < c.length
  · rw [dif_pos h, List.getElem?_eq_getElem h]; rfl
  · rw [dif_neg h, List.getElem?_eq_none (by omega)]; rfl

theorem holds_get (c : List Info) (id : Nat) : holds c id ↔ ∃ i, c[id]? = some i ∧ (0 < i.interior ∨ 0 < i.border) := by
  unfold holds
  constructor
  · rintro ⟨h, h'⟩; exact ⟨_, List.getElem?_eq_getElem h, h'⟩
  · rintro ⟨i, hi, h'⟩
    obtain ⟨h, rfl⟩ := List.getElem?_eq_some_iff.1 hi
    exact ⟨h, h'⟩

theorem windingOf_table (n : Nat) (w : Nat → Int) (id : Nat) :
    windingOf ((List.range n).map fun i => ({ pwn := w i } : Info)) id = if id < n then w id else 0 := by
  rw [windingOf_get, List.getElem?_map]
  by_cases h : id < n
  · rw [List.getElem?_range h, if_pos h]; rfl
  · rw [List.getElem?_eq_none (by simpa using h), if_neg h]; rfl

theorem holds_table (n : Nat) (w : Nat → Int) (id : Nat) : ¬ holds ((List.range n).map fun i => ({ pwn := w i } : Info)) id := by
  rw [holds_get]
  rintro ⟨i, hi, h⟩
  rw [List.getElem?_map, Option.map_eq_some_iff] at hi
  obtain ⟨_, _, rfl⟩ := hi
  simp at h

/-- The value of a lawful filter is a function of the winding numbers. -/
theorem Lawful.eq_valueAt {v : IsInside} (hv : Lawful v) {c : List Info} {n : Nat} (hn : c.length = n) :
    (v c).1 = valueAt v n (windingOf c) := by
  unfold valueAt
  apply hv.value _ _ (by simp [hn])
  intro id
  rw [windingOf_table]
  split
  · rfl
  · rw [windingOf_get, List.getElem?_eq_none (by omega)]; rfl

/-- `c` is the content information of the cell, without interior polygons. -/
structure St (init c : List Info) : Prop where
  len : c.length = init.length
  pwn : ∀ id, windingOf c id = windingOf init id
  int : ∀ id : Nat, ((c[id]?).map Info.interior).getD 0 = 0

/-- Exactly the contents of the polygons are marked. -/
def Flags (l : List BPoly) (c : List Info) : Prop := ∀ id, holds c id ↔ ∃ p ∈ l, p.id = id

theorem bump_some {c c' : List Info} {id : Nat} {f : Info → Info} (h : bump c id f = some c') :
    id < c.length ∧ c'.length = c.length ∧ ∀ k : Nat, c'[k]? = if id = k then (c[k]?).map f else c[k]? := by
  unfold bump at h
  split_ifs at h with hl
  rw [← Option.some.inj h]
  exact ⟨hl, by simp, fun k => modify_get ..⟩

theorem markBorder_spec {l : List BPoly} {c : List Info} :
    (∀ c', markBorder l c = some c' → c'.length = c.length ∧ (∀ p ∈ l, p.id < c.length) ∧
      ∀ k : Nat, c'[k]? = (c[k]?).map fun i => if l.any (fun p => p.id == k) then { i with border := 1 } else i) ∧
    ((∀ p ∈ l, p.id < c.length) → ∃ c', markBorder l c = some c') := by
  induction l generalizing c with
  | nil =>
    refine ⟨fun c' h => ?_, fun _ => ⟨_, rfl⟩⟩
    rw [← Option.some.inj h]
    exact ⟨rfl, by simp, fun k => by simp⟩
  | cons p l ih =>
    constructor
    · intro c' h
      unfold markBorder at h
      cases hb : bump c p.id fun i => { i with border := 1 } with
      | none => rw [hb] at h; simp at h
      | some c1 =>
        rw [hb] at h
        obtain ⟨b1, b2, b3⟩ := bump_some hb
        obtain ⟨i1, i2, i3⟩ := ih.1 c' h
        refine ⟨i1.trans b2, ?_, fun k => ?_⟩
        · intro x hx
          rcases List.mem_cons.1 hx with rfl | hx
          · exact b1
          · rw [← b2]; exact i2 x hx
        · rw [i3, b3]
          by_cases hk : p.id = k
          · rw [if_pos hk]
            cases c[k]? with
            | none => rfl
            | some i => simp [hk]
          · rw [if_neg hk]
            simp [hk]
    · intro hl
      unfold markBorder
      have hp : p.id < c.length := hl p (by simp)
      unfold bump
      rw [if_pos hp]
      exact ih.2 fun x hx => by simpa using hl x (by simp [hx])

theorem setPolygons_spec {init c : List Info} {l : List BPoly} (h : St init c) :
    (∀ c', setPolygons l c = some c' → St init c' ∧ Flags l c') ∧
    ((∀ p ∈ l, p.id < init.length) → ∃ c', setPolygons l c = some c') := by
  have h0 : (c.any fun i => decide (i.interior ≠ 0)) = false := by
    rw [List.any_eq_false]
    intro i hi
    obtain ⟨k, hk⟩ := List.mem_iff_getElem?.1 hi
    have := h.int k
    rw [hk] at this
    simpa using this
  unfold setPolygons
  rw [if_neg (by rw [h0]; simp)]
  constructor
  · intro c' hc'
    obtain ⟨m1, m2, m3⟩ := markBorder_spec.1 c' hc'
    have m3' : ∀ k : Nat, c'[k]? = (c[k]?).map fun i =>
        if l.any (fun p => p.id == k) then { i with border := 1 } else { i with border := 0 } := by
      intro k
      rw [m3, List.getElem?_map]
      cases c[k]? with
      | none => rfl
      | some i => simp
    refine ⟨⟨by rw [m1]; simpa using h.len, fun id => ?_, fun id => ?_⟩, fun id => ?_⟩
    · rw [← h.pwn, windingOf_get, windingOf_get, m3']
      cases c[id]? with
      | none => rfl
      | some i => simp only [Option.map_some]; split <;> rfl
    · have := h.int id
      rw [m3']
      cases hc : c[id]? with
      | none => rfl
      | some i =>
        rw [hc] at this
        simp only [Option.map_some, Option.getD_some] at this ⊢
        split <;> exact this
    · rw [holds_get, m3']
      have hi := h.int id
      constructor
      · rintro ⟨i, h1, h2⟩
        rw [Option.map_eq_some_iff] at h1
        obtain ⟨j, hj, rfl⟩ := h1
        rw [hj] at hi
        simp only [Option.map_some, Option.getD_some] at hi
        by_cases ha : l.any (fun p => p.id == id) = true
        · rw [List.any_eq_true] at ha
          obtain ⟨p, hp, he⟩ := ha
          exact ⟨p, hp, by simpa using he⟩
        · rw [if_neg ha] at h2
          simp [hi] at h2
      · rintro ⟨p, hp, rfl⟩
        have hl : p.id < c.length := by simpa using m2 p hp
        refine ⟨_, by rw [List.getElem?_eq_getElem hl]; rfl, ?_⟩
        have ha : (l.any fun x => x.id == p.id) = true := by rw [List.any_eq_true]; exact ⟨p, hp, by simp⟩
        simp [ha]
  · intro hl
    exact markBorder_spec.2 fun p hp => by simpa [h.len] using hl p hp

theorem restorePwn_spec {init c : List Info} (hl : c.length = init.length) (hi : ∀ id : Nat, ((c[id]?).map Info.interior).getD 0 = 0) :
    ∃ c', restorePwn init c = some c' ∧ St init c' := by
  unfold restorePwn
  rw [if_pos hl]
  have hget : ∀ k : Nat, (List.zipWith (fun i j : Info => { i with pwn := j.pwn }) c init)[k]? =
      (c[k]?).bind fun i => (init[k]?).map fun j => { i with pwn := j.pwn } := by
    intro k
    rw [List.getElem?_zipWith]
    cases c[k]? <;> cases init[k]? <;> rfl
  refine ⟨_, rfl, by simp [hl], fun id => ?_, fun id => ?_⟩
  · rw [windingOf_get, windingOf_get, hget]
    by_cases h : id < c.length
    · rw [List.getElem?_eq_getElem h, List.getElem?_eq_getElem (by omega)]; rfl
    · rw [List.getElem?_eq_none (by omega), List.getElem?_eq_none (by omega)]; rfl
  · have := hi id
    rw [hget]
    cases hc : c[id]? with
    | none => rfl
    | some i =>
      rw [hc] at this
      cases init[id]? with
      | none => rfl
      | some j => simpa using this

/-! ### Peeling -/

theorem pwnChange_eq (drop : Fin 3) (posNormal : Bool) (p : BPoly) : pwnChange drop posNormal p = facetStep drop posNormal p.poly.plane := by
  unfold pwnChange facetStep
  by_cases h : p.poly.plane.n.comp drop < 0 <;> cases posNormal <;> simp [h]

theorem bump_facet {c c' : List Info} {p : BPoly} {drop : Fin 3} {posNormal : Bool}
    (h : bump c p.id (fun i => { i with pwn := i.pwn + pwnChange drop posNormal p }) = some c') :
    windingOf c' = beyond (facetStep drop posNormal) (windingOf c) (facet p) := by
  obtain ⟨b1, b2, b3⟩ := bump_some h
  funext k
  unfold beyond facet
  rw [windingOf_get, b3]
  by_cases hk : p.id = k
  · subst hk
    rw [if_pos rfl, Function.update_self, windingOf_get, List.getElem?_eq_getElem b1]
    simp [pwnChange_eq]
  · rw [if_neg hk, Function.update_of_ne (Ne.symm hk), windingOf_get]

/-- The loop over a leaf's polygons accepts the ones where the value changes. -/
theorem peel_spec {v : IsInside} (hv : Lawful v) {drop : Fin 3} {posNormal : Bool} {l : List BPoly} {c : List Info} {n : Nat}
    (hn : c.length = n) (inner : Bool) (hin : inner = (v c).1) :
    (∀ r, peel v drop posNormal l inner c = some r →
      (accepted r.1).map facet = changing (valueAt v n) (facetStep drop posNormal) (windingOf c) (l.map facet) ∧
      (∀ x ∈ accepted r.1, x ∈ l) ∧ entered r.1 = [] ∧ r.2.length = n ∧
      ∀ id : Nat, ((r.2[id]?).map Info.interior).getD 0 = ((c[id]?).map Info.interior).getD 0) ∧
    ((∀ p ∈ l, p.id < n ∧ p.poly.plane.n.comp drop ≠ 0) → ∃ r, peel v drop posNormal l inner c = some r) := by
  induction l generalizing c inner with
  | nil =>
    refine ⟨fun r h => ?_, fun _ => ⟨_, rfl⟩⟩
    rw [← Option.some.inj h]
    exact ⟨rfl, by simp [accepted], rfl, hn, fun _ => rfl⟩
  | cons p l ih =>
    constructor
    · intro r h
      unfold peel at h
      split_ifs at h with hz
      cases hb : bump c p.id fun i => { i with pwn := i.pwn + pwnChange drop posNormal p } with
      | none => rw [hb] at h; simp at h
      | some c1 =>
        rw [hb] at h
        obtain ⟨b1, b2, b3⟩ := bump_some hb
        have hw := bump_facet hb
        obtain ⟨r', hr', rfl⟩ := Option.map_eq_some_iff.1 h
        obtain ⟨i1, i2, i3, i4, i5⟩ := (ih (b2.trans hn) _ rfl).1 r' hr'
        have e1 : inner = valueAt v n (windingOf c) := by rw [hin, hv.eq_valueAt hn]
        have e2 : (v c1).1 = valueAt v n (beyond (facetStep drop posNormal) (windingOf c) (facet p)) := by
          rw [hv.eq_valueAt (b2.trans hn), hw]
        rw [hw] at i1
        refine ⟨?_, ?_, ?_, i4, ?_⟩
        · show _ = changing _ _ _ (facet p :: l.map facet)
          unfold changing
          rw [← e1, ← e2]
          by_cases hd : inner = (v c1).1
          · rw [if_pos hd]; simp only [hd]; simpa using i1
          · rw [if_neg hd]
            have : ((v c1).1 != inner) = true := by rw [bne_iff_ne]; exact Ne.symm hd
            simp only [this, if_true, accepted, List.map_cons, i1]
        · intro x hx
          simp only at hx
          split_ifs at hx
          · simp only [accepted] at hx
            rcases List.mem_cons.1 hx with rfl | hx
            · simp
            · exact List.mem_cons_of_mem _ (i2 x hx)
          · exact List.mem_cons_of_mem _ (i2 x hx)
        · simp only
          split_ifs
          · simp only [entered]; exact i3
          · exact i3
        · intro id
          rw [i5, b3]
          by_cases hk : p.id = id
          · rw [if_pos hk]
            cases c[id]? <;> rfl
          · rw [if_neg hk]
    · intro hl
      obtain ⟨h1, h2⟩ := hl p (by simp)
      unfold peel
      rw [if_neg h2]
      unfold bump
      rw [if_pos (by omega)]
      simp only
      obtain ⟨r, hr⟩ := (ih (c := c.modify p.id fun i => { i with pwn := i.pwn + pwnChange drop posNormal p }) (by simp [hn]) _ rfl).2
        fun x hx => hl x (by simp [hx])
      rw [hr]
      exact ⟨_, rfl⟩

/-- If the filter's value cannot change any more, it does not change. -/
theorem changing_pruned {v : IsInside} (hv : Lawful v) {c : List Info} (hp : (v c).2 = false) {step : HS3 → Int}
    {s : List Facet} (hs : ∀ x ∈ s, holds c x.1) {w : Nat → Int} (hw : ∀ id, ¬ holds c id → w id = windingOf c id) :
    changing (valueAt v c.length) step w s = [] := by
  have key : ∀ w : Nat → Int, (∀ id, ¬ holds c id → w id = windingOf c id) → valueAt v c.length w = (v c).1 := by
    intro w hw
    apply hv.prune c _ _ hp
    refine ⟨by simp, fun id hid => ⟨?_, holds_table _ _ _⟩⟩
    rw [windingOf_table]
    split
    · exact hw id hid
    · rw [windingOf_get, List.getElem?_eq_none (by omega)]; rfl
  induction s generalizing w with
  | nil => rfl
  | cons x s ih =>
    have hb : ∀ id, ¬ holds c id → beyond step w x id = windingOf c id := by
      intro id hid
      unfold beyond
      rw [Function.update_of_ne (by rintro rfl; exact hid (hs x (by simp)))]
      exact hw id hid
    unfold changing
    rw [key w hw, key _ hb, if_pos rfl]
    exact ih (fun y hy => hs y (by simp [hy])) hb

/-! ### The recursion -/

theorem accepted_append (a b : List Visit) : accepted (a ++ b) = accepted a ++ accepted b := by
  induction a with
  | nil => rfl
  | cons x a ih => cases x <;> simp [accepted, ih]

theorem entered_append (a b : List Visit) : entered (a ++ b) = entered a ++ entered b := by
  induction a with
  | nil => rfl
  | cons x a ih => cases x <;> simp [entered, ih]

theorem stackAt_append (q : Q3) (a b : List BPoly) : stackAt q (a ++ b) = stackAt q a ++ stackAt q b := by
  unfold stackAt; rw [List.filter_append, List.map_append]

theorem stackAt_all {q : Q3} {l : List BPoly} (h : ∀ p ∈ l, q ∈ p.poly.region) : stackAt q l = l.map facet := by
  unfold stackAt
  rw [List.filter_eq_self.2]
  intro p hp; simpa using h p hp

theorem stackAt_none {q : Q3} {l : List BPoly} (h : ∀ p ∈ l, q ∉ p.poly.region) : stackAt q l = [] := by
  unfold stackAt
  rw [List.filter_eq_nil_iff.2]
  · rfl
  · intro p hp; simpa using h p hp

/-- What the partitioner gets: border polygons of the cell in a common plane. -/
def FaceOK (anc : Anc) (h : HS3) (drop : Fin 3) (l : List BPoly) : Prop := ∀ p ∈ l, BorderOK anc p ∧ InPlane h drop p

theorem FaceOK.through {anc : Anc} {h : HS3} {drop : Fin 3} {l : List BPoly} (hf : FaceOK anc h drop l) {p : BPoly} (hp : p ∈ l) {g : HS3}
    (hg : ¬ Through g p.poly.plane) : ∀ x ∈ l, BorderOK anc x ∧ ¬ Through g x.poly.plane := by
  intro x hx
  refine ⟨(hf x hx).1, fun ht => hg fun q hq => ht q ?_⟩
  rw [((hf x hx).2.1 q)]
  exact ((hf p hp).2.1 q).1 hq

theorem FaceOK.child {anc : Anc} {h : HS3} {drop : Fin 3} {l k : List BPoly} (hf : FaceOK anc h drop l) {x : PlaneRef × Bool}
    (hk : ∀ y ∈ k, BorderOK (anc ++ [x]) y ∧ ∃ p ∈ l, y.poly.plane = p.poly.plane ∧ y.id = p.id ∧ (p.tracker = none → y.tracker = none)) :
    FaceOK (anc ++ [x]) h drop k := by
  intro y hy
  obtain ⟨h1, p, hp, h2, _⟩ := hk y hy
  refine ⟨h1, ?_⟩
  unfold InPlane
  rw [h2]; exact (hf p hp).2

/-- The polygons of a leaf of the partitioner cover the same points. -/
theorem leaf_stack {anc : Anc} {h : HS3} {drop : Fin 3} {l : List BPoly} (hf : FaceOK anc h drop l) (hs : ∀ p ∈ l, searchEdge p = none) (q : Q3) :
    (h.side q = 0 ∧ q ∈ Cell anc ∧ ∀ p ∈ l, q ∈ p.poly.region) ∨ ∀ p ∈ l, q ∉ p.poly.region := by
  by_cases hq : h.side q = 0 ∧ q ∈ Cell anc
  · left
    refine ⟨hq.1, hq.2, fun p hp => ?_⟩
    rw [leaf_region (hf p hp).1 (hs p hp)]
    exact ⟨((hf p hp).2.1 q).2 hq.1, hq.2⟩
  · right
    intro p hp hc
    rw [leaf_region (hf p hp).1 (hs p hp)] at hc
    exact hq ⟨((hf p hp).2.1 q).1 hc.1, hc.2⟩

/-- What a run does at a point that is on no split plane. -/
def RunOK (v : IsInside) (drop : Fin 3) (posNormal : Bool) (init : List Info) (l : List BPoly) (tr : List Visit) : Prop :=
  ∀ q, (∀ g ∈ entered tr, g.side q ≠ 0) →
    stackAt q (accepted tr) = changing (valueAt v init.length) (facetStep drop posNormal) (windingOf init) (stackAt q l)

theorem runOK_pruned {v : IsInside} (hv : Lawful v) {drop : Fin 3} {posNormal : Bool} {init c : List Info} {l : List BPoly}
    (hlen : c.length = init.length) (hw : ∀ id, windingOf c id = windingOf init id)
    (hfl : ∀ p ∈ l, holds c p.id) (hp : (v c).2 = false) : RunOK v drop posNormal init l [] := by
  intro q _
  symm
  rw [← hlen]
  apply changing_pruned hv hp
  · intro x hx
    unfold stackAt at hx
    obtain ⟨p, hp, rfl⟩ := List.mem_map.1 hx
    exact hfl p (List.mem_of_mem_filter hp)
  · intro id _; exact (hw id).symm

theorem runOK_leaf {v : IsInside} (hv : Lawful v) {anc : Anc} {h : HS3} {drop : Fin 3} {posNormal : Bool} {init c : List Info} {l : List BPoly}
    (hf : FaceOK anc h drop l) (hs : ∀ p ∈ l, searchEdge p = none) (hlen : c.length = init.length)
    (hw : ∀ id, windingOf c id = windingOf init id) {r : List Visit × List Info}
    (hr : processLeaf v drop posNormal l (v c).1 c = some r) :
    RunOK v drop posNormal init l r.1 ∧ r.2.length = init.length ∧
      ∀ id : Nat, ((r.2[id]?).map Info.interior).getD 0 = ((c[id]?).map Info.interior).getD 0 := by
  unfold processLeaf at hr
  obtain ⟨r', hr', rfl⟩ := Option.map_eq_some_iff.1 hr
  obtain ⟨i1, i2, i3, i4, i5⟩ := (peel_spec hv hlen _ rfl).1 r' hr'
  refine ⟨fun q _ => ?_, i4, i5⟩
  have hw' : windingOf c = windingOf init := funext hw
  rw [hw'] at i1
  show stackAt q (accepted r'.1) = _
  rcases leaf_stack hf hs q with ⟨_, _, ha⟩ | ha
  · rw [stackAt_all ha, stackAt_all fun p hp => ha p (i2 p hp), i1]
  · rw [stackAt_none ha, stackAt_none fun p hp => ha p (i2 p hp)]; rfl

theorem runOK_inner {v : IsInside} {anc : Anc} {drop : Fin 3} {posNormal : Bool} {init : List Info} {l : List BPoly} {ref : PlaneRef}
    {k : List BPoly × List BPoly} (hk : SidesOK anc ref l k) {r s : List Visit} (hr : RunOK v drop posNormal init k.1 r)
    (hs : RunOK v drop posNormal init k.2 s) : RunOK v drop posNormal init l (.enter true ref :: (r ++ (s ++ [.leave true ref]))) := by
  intro q hq
  have he : entered (.enter true ref :: (r ++ (s ++ [.leave true ref]))) = ref.plane :: (entered r ++ entered s) := by
    simp [entered, entered_append]
  have ha : accepted (.enter true ref :: (r ++ (s ++ [.leave true ref]))) = accepted r ++ accepted s := by
    simp [accepted, accepted_append]
  rw [he] at hq
  rw [ha, stackAt_append, hr q fun g hg => hq g (by simp [hg]), hs q fun g hg => hq g (by simp [hg])]
  rcases lt_or_gt_of_ne (hq ref.plane (by simp)) with h | h
  · obtain ⟨a, b⟩ := hk.stackNeg q h
    rw [a, b]; simp [changing]
  · obtain ⟨a, b⟩ := hk.stackPos q h
    rw [a, b]; simp [changing]

theorem partitionVec_spec {v : IsInside} (hv : Lawful v) {h : HS3} {drop : Fin 3} {posNormal : Bool} {init : List Info} (fuel : Nat) :
    ∀ {anc : Anc} {path : List Bool} {l : List BPoly} {c : List Info}, FaceOK anc h drop l → St init c → Flags l c →
    ∀ r, partitionVec v drop posNormal init fuel path l c = some r → RunOK v drop posNormal init l r.1 ∧ St init r.2 := by
  induction fuel with
  | zero => intro anc path l c _ _ _ r hr; simp [partitionVec] at hr
  | succ fuel ih =>
    intro anc path l c hf hc hfl r hr
    unfold partitionVec at hr
    split_ifs at hr with hp
    · rw [← Option.some.inj hr]
      exact ⟨runOK_pruned hv hc.len hc.pwn (fun p hp => (hfl p.id).2 ⟨p, hp, rfl⟩) (by simpa using hp), hc⟩
    · obtain ⟨o, o1, o2, o3⟩ := searchMid_all l
      rw [o1] at hr
      cases o with
      | none =>
        simp only at hr
        cases hl : processLeaf v drop posNormal l (v c).1 c with
        | none => rw [hl] at hr; simp at hr
        | some r' =>
          rw [hl] at hr
          obtain ⟨a1, a2, a3⟩ := runOK_leaf hv hf (o2 rfl) hc.len hc.pwn hl
          obtain ⟨c', b1, b2⟩ := restorePwn_spec a2 (fun id => (a3 id).trans (hc.int id))
          simp only [b1, Option.map_some, Option.some.injEq] at hr
          rw [← hr]
          exact ⟨a1, b2⟩
      | some e =>
        simp only at hr
        obtain ⟨p, hp, hpe⟩ := o3 e rfl
        obtain ⟨i, hi, _⟩ := searchEdge_some hpe
        obtain ⟨s1, s2⟩ := splitPlane_spec (hf p hp).1.convex (hf p hp).2.2 hi
        have hth := hf.through hp s2
        cases hk : pushSides ⟨path, splitPlane e drop⟩ l with
        | none => rw [hk] at hr; simp at hr
        | some k =>
          have ho := (pushSides_spec (ref := ⟨path, splitPlane e drop⟩) hth).1 k hk
          rw [hk] at hr
          simp only at hr
          cases hc1 : setPolygons k.1 c with
          | none => rw [hc1] at hr; simp at hr
          | some c1 =>
            rw [hc1] at hr
            simp only at hr
            obtain ⟨t1, t2⟩ := (setPolygons_spec hc).1 c1 hc1
            cases hr1 : partitionVec v drop posNormal init fuel (path ++ [false]) k.1 c1 with
            | none => rw [hr1] at hr; simp at hr
            | some r1 =>
              rw [hr1] at hr
              simp only at hr
              obtain ⟨u1, u2⟩ := ih (hf.child ho.neg) t1 t2 r1 hr1
              cases hc2 : setPolygons k.2 r1.2 with
              | none => rw [hc2] at hr; simp at hr
              | some c2 =>
                rw [hc2] at hr
                simp only at hr
                obtain ⟨t3, t4⟩ := (setPolygons_spec u2).1 c2 hc2
                obtain ⟨r2, hr2, rfl⟩ := Option.map_eq_some_iff.1 hr
                obtain ⟨u3, u4⟩ := ih (hf.child ho.pos) t3 t4 r2 hr2
                exact ⟨runOK_inner ho u1 u3, u4⟩

theorem infoMatches_spec {l : List BPoly} {c : List Info} : infoMatches l c = true ↔ ∀ p ∈ l, ∃ i, c[p.id]? = some i ∧ i.border ≠ 0 := by
  unfold infoMatches
  rw [List.all_eq_true]
  refine forall_congr' fun p => imp_congr_right fun _ => ?_
  cases c[p.id]? <;> simp

/-- The partitioner accepts, at a point on no split plane, the facets where the value changes. -/
theorem partition_spec {v : IsInside} (hv : Lawful v) {anc : Anc} {h : HS3} {drop : Fin 3} {posNormal : Bool} {init : List Info} {fuel : Nat}
    {path : List Bool} {l : List BPoly} (hf : FaceOK anc h drop l) {tr : List Visit}
    (hr : partition v drop posNormal init fuel path l = some tr) : RunOK v drop posNormal init l tr := by
  unfold partition at hr
  split_ifs at hr with hm hp
  · rw [← Option.some.inj hr]
    have hm' : infoMatches l init = true := by simpa using hm
    rw [infoMatches_spec] at hm'
    refine runOK_pruned hv rfl (fun _ => rfl) (fun p hp => ?_) (by simpa using hp)
    obtain ⟨i, h1, h2⟩ := hm' p hp
    exact (holds_get _ _).2 ⟨i, h1, Or.inr (by omega)⟩
  · cases hs : searchFirst l with
    | none =>
      rw [hs] at hr
      obtain ⟨r, hr', rfl⟩ := Option.map_eq_some_iff.1 hr
      exact (runOK_leaf hv hf (searchFirst_none hs) rfl (fun _ => rfl) hr').1
    | some e =>
      rw [hs] at hr
      simp only at hr
      obtain ⟨p, hp, hpe⟩ := searchFirst_some hs
      obtain ⟨i, hi, _⟩ := searchEdge_some hpe
      obtain ⟨s1, s2⟩ := splitPlane_spec (hf p hp).1.convex (hf p hp).2.2 hi
      have hth := hf.through hp s2
      cases hk : pushSides ⟨path, splitPlane e drop⟩ l with
      | none => rw [hk] at hr; simp at hr
      | some k =>
        have ho := (pushSides_spec (ref := ⟨path, splitPlane e drop⟩) hth).1 k hk
        rw [hk] at hr
        simp only at hr
        cases hc1 : setPolygons k.1 init with
        | none => rw [hc1] at hr; simp at hr
        | some c1 =>
          rw [hc1] at hr
          simp only at hr
          have h0 : St init init := by
            refine ⟨rfl, fun _ => rfl, fun id => ?_⟩
            unfold setPolygons at hc1
            split_ifs at hc1 with ha
            cases hid : init[id]? with
            | none => rfl
            | some j =>
              rw [Bool.not_eq_true, List.any_eq_false] at ha
              have := ha j (List.mem_of_getElem? hid)
              simpa using this
          obtain ⟨t1, t2⟩ := (setPolygons_spec h0).1 c1 hc1
          cases hr1 : partitionVec v drop posNormal init fuel (path ++ [false]) k.1 c1 with
          | none => rw [hr1] at hr; simp at hr
          | some r1 =>
            rw [hr1] at hr
            simp only at hr
            obtain ⟨u1, u2⟩ := partitionVec_spec hv fuel (hf.child ho.neg) t1 t2 r1 hr1
            cases hc2 : setPolygons k.2 r1.2 with
            | none => rw [hc2] at hr; simp at hr
            | some c2 =>
              rw [hc2] at hr
              simp only at hr
              obtain ⟨t3, t4⟩ := (setPolygons_spec u2).1 c2 hc2
              obtain ⟨r2, hr2, rfl⟩ := Option.map_eq_some_iff.1 hr
              obtain ⟨u3, u4⟩ := partitionVec_spec hv fuel (hf.child ho.pos) t3 t4 r2 hr2
              exact runOK_inner ho u1 u3

end Walnut.Bsp
