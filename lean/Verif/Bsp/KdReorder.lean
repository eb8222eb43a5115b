/- The split of a leaf does not depend on the order of its polygons, except for the order of the children's polygons. -/
import Verif.Bsp.KdOrder

namespace Walnut.Bsp
open Walnut.Geom Walnut.Poly

/-! ### The loops over the polygons -/

/-- Both children are the same up to the order of their polygons. -/
def Pair2 (k k' : NodeData × NodeData) : Prop := k.1.Reorders k'.1 ∧ k.2.Reorders k'.2

theorem NodeData.Reorders.symm {d d' : NodeData} (h : d.Reorders d') : d'.Reorders d := ⟨h.contents.symm, h.border.symm, h.info.symm⟩

theorem NodeData.Reorders.trans {a b c : NodeData} (h : a.Reorders b) (h' : b.Reorders c) : a.Reorders c :=
  ⟨h.contents.trans h'.contents, h.border.trans h'.border, h.info.trans h'.info⟩

theorem Pair2.refl (k : NodeData × NodeData) : Pair2 k k := ⟨.refl _, .refl _⟩

theorem Pair2.trans {a b c : NodeData × NodeData} (h : Pair2 a b) (h' : Pair2 b c) : Pair2 a c := ⟨h.1.trans h'.1, h.2.trans h'.2⟩

/-- The step can be repeated from a state with another order. -/
def Respects (f : BPoly → NodeData × NodeData → Option (NodeData × NodeData)) : Prop :=
  ∀ p k k' m, Pair2 k k' → f p k = some m → ∃ m', f p k' = some m' ∧ Pair2 m m'

/-- Two steps can be exchanged. -/
def Commutes (f : BPoly → NodeData × NodeData → Option (NodeData × NodeData)) : Prop :=
  ∀ p q k k1 k2, f p k = some k1 → f q k1 = some k2 → ∃ k1' k2', f q k = some k1' ∧ f p k1' = some k2' ∧ Pair2 k2 k2'

theorem pushAll_respects {f : BPoly → NodeData × NodeData → Option (NodeData × NodeData)} (hf : Respects f) : ∀ (l : List BPoly) {k k' m : NodeData × NodeData},
    Pair2 k k' → pushAll f l k = some m → ∃ m', pushAll f l k' = some m' ∧ Pair2 m m' := by
  intro l
  induction l with
  | nil => intro k k' m hk h; cases h; exact ⟨_, rfl, hk⟩
  | cons p l ih =>
    intro k k' m hk h
    unfold pushAll at h ⊢
    split at h
    · cases h
    rename_i k1 e
    obtain ⟨k2, e2, r⟩ := hf p _ _ _ hk e
    rw [e2]
    exact ih r h

theorem pushAll_perm {f : BPoly → NodeData × NodeData → Option (NodeData × NodeData)} (hf : Respects f) (hc : Commutes f) {l l' : List BPoly} (hp : l.Perm l') :
    ∀ {k k' m : NodeData × NodeData}, Pair2 k k' → pushAll f l k = some m → ∃ m', pushAll f l' k' = some m' ∧ Pair2 m m' := by
  induction hp with
  | nil => intro k k' m hk h; cases h; exact ⟨_, rfl, hk⟩
  | cons p _ ih =>
    intro k k' m hk h
    unfold pushAll at h ⊢
    split at h
    · cases h
    rename_i k1 e
    obtain ⟨k2, e2, r⟩ := hf p _ _ _ hk e
    rw [e2]
    exact ih r h
  | swap p q l =>
    intro k k' m hk h
    rw [pushAll] at h
    split at h
    · cases h
    rename_i k1 e1
    rw [pushAll] at h
    split at h
    · cases h
    rename_i k2 e2
    obtain ⟨a, b, ha, hb, hr⟩ := hc _ _ _ _ _ e1 e2
    obtain ⟨a', ha', ra⟩ := hf _ _ _ _ hk ha
    obtain ⟨b', hb', rb⟩ := hf _ _ _ _ ra hb
    rw [pushAll, ha']
    simp only
    rw [pushAll, hb']
    exact pushAll_respects hf l (hr.trans rb) h
  | trans _ _ ih1 ih2 =>
    intro k k' m hk h
    obtain ⟨m1, h1, r1⟩ := ih1 hk h
    obtain ⟨m2, h2, r2⟩ := ih2 (.refl _) h1
    exact ⟨m2, h2, r1.trans r2⟩

theorem plus_reorders {d d' : NodeData} (h : d.Reorders d') (c b : List BPoly) : (d.plus c b).Reorders (d'.plus c b) :=
  ⟨h.contents.append_right _, h.border.append_right _, by unfold NodeData.plus; rw [h.info]⟩

theorem plus_swap (d : NodeData) (c b c' b' : List BPoly) : ((d.plus c b).plus c' b').Reorders ((d.plus c' b').plus c b) := by
  rw [NodeData.plus_plus, NodeData.plus_plus]
  exact ⟨List.Perm.append_left _ List.perm_append_comm, List.Perm.append_left _ List.perm_append_comm, addCounts_perm _ List.perm_append_comm List.perm_append_comm⟩

theorem fits_reorders {d d' : NodeData} (h : d.Reorders d') {l : List BPoly} (hl : IdsFit d l) : IdsFit d' l := by
  unfold IdsFit at *; rw [← h.info]; exact hl

/-- A step that appends and counts polygons. -/
theorem adds_ok {f : BPoly → NodeData × NodeData → Option (NodeData × NodeData)} {ok : BPoly → Prop} {o : BPoly → Out}
    (h : ∀ p k m, f p k = some m ↔ ok p ∧ IdsFit k.1 ((o p).cn ++ (o p).bn) ∧ IdsFit k.2 ((o p).cp ++ (o p).bp) ∧
      m = (k.1.plus (o p).cn (o p).bn, k.2.plus (o p).cp (o p).bp)) : Respects f ∧ Commutes f := by
  constructor
  · intro p k k' m hk hm
    obtain ⟨h1, h2, h3, rfl⟩ := (h _ _ _).1 hm
    exact ⟨_, (h _ _ _).2 ⟨h1, fits_reorders hk.1 h2, fits_reorders hk.2 h3, rfl⟩, plus_reorders hk.1 _ _, plus_reorders hk.2 _ _⟩
  · intro p q k k1 k2 e1 e2
    obtain ⟨a1, a2, a3, rfl⟩ := (h _ _ _).1 e1
    obtain ⟨b1, b2, b3, rfl⟩ := (h _ _ _).1 e2
    refine ⟨_, _, (h _ _ _).2 ⟨b1, plus_fits.1 b2, plus_fits.1 b3, rfl⟩, (h _ _ _).2 ⟨a1, plus_fits.2 a2, plus_fits.2 a3, rfl⟩, plus_swap _ _ _ _ _, plus_swap _ _ _ _ _⟩

theorem addInterior_iff {d e : NodeData} {p : BPoly} : d.addInterior p = some e ↔ p.id < d.info.length ∧ e = d.plus [p] [] := by
  by_cases h : p.id < d.info.length
  · rw [addInterior_eq _ _ h]; simp [h, eq_comm]
  · unfold NodeData.addInterior; rw [bump_interior, if_neg h]; simp [h]

theorem addBorder_iff {d e : NodeData} {p : BPoly} : d.addBorder p = some e ↔ p.id < d.info.length ∧ e = d.plus [] [p] := by
  by_cases h : p.id < d.info.length
  · rw [addBorder_eq _ _ h]; simp [h, eq_comm]
  · unfold NodeData.addBorder; rw [bump_border, if_neg h]; simp [h]

theorem both_iff {a b : Option NodeData} {m : NodeData × NodeData} : both a b = some m ↔ a = some m.1 ∧ b = some m.2 := by
  constructor
  · exact both_some
  · rintro ⟨rfl, rfl⟩; rfl

theorem pushContent_iff {ref : PlaneRef} (p : BPoly) (k m : NodeData × NodeData) : pushContent ref p k = some m ↔
    route true ref p ≠ none ∧ IdsFit k.1 ((outFor ref p).cn ++ (outFor ref p).bn) ∧ IdsFit k.2 ((outFor ref p).cp ++ (outFor ref p).bp) ∧
      m = (k.1.plus (outFor ref p).cn (outFor ref p).bn, k.2.plus (outFor ref p).cp (outFor ref p).bp) := by
  constructor
  · intro h
    have hr : route true ref p ≠ none := by
      intro e; unfold pushContent at h; rw [e] at h; cases h
    have key : IdsFit k.1 ((outFor ref p).cn ++ (outFor ref p).bn) ∧ IdsFit k.2 ((outFor ref p).cp ++ (outFor ref p).bp) := by
      unfold pushContent at h
      unfold outFor
      split at h
      · cases h
      · rename_i N Q e
        obtain ⟨a, b⟩ := both_iff.1 h
        rw [addInterior_iff] at a b
        simpa [e, IdsFit] using ⟨a.1, b.1⟩
      · rename_i N e
        obtain ⟨a, b⟩ := both_iff.1 h
        rw [addInterior_iff] at a
        simpa [e, IdsFit] using a.1
      · rename_i N e
        obtain ⟨a, b⟩ := both_iff.1 h
        rw [addInterior_iff] at b
        simpa [e, IdsFit] using b.1
      · rename_i e
        split_ifs at h with ho
        · obtain ⟨a, b⟩ := both_iff.1 h
          rw [addBorder_iff] at b
          simpa [e, IdsFit, ho] using b.1
        · obtain ⟨a, b⟩ := both_iff.1 h
          rw [addBorder_iff] at a
          simpa [e, IdsFit, ho] using a.1
    refine ⟨hr, key.1, key.2, ?_⟩
    rw [pushContent_eq hr key.1 key.2] at h
    exact (Option.some.inj h).symm
  · rintro ⟨h1, h2, h3, rfl⟩
    exact pushContent_eq h1 h2 h3

/-- What a border polygon adds. -/
def outBorder (ref : PlaneRef) (p : BPoly) : Out :=
  match route false ref p with
  | some (.both N Q) => ⟨[], [N], [], [Q]⟩
  | some (.neg N) => ⟨[], [N], [], []⟩
  | some (.pos Q) => ⟨[], [], [], [Q]⟩
  | _ => ⟨[], [], [], []⟩

theorem pushBorder_iff {ref : PlaneRef} (p : BPoly) (k m : NodeData × NodeData) : pushBorder ref p k = some m ↔
    (∃ r, route false ref p = some r ∧ r ≠ .on) ∧ IdsFit k.1 ((outBorder ref p).cn ++ (outBorder ref p).bn) ∧ IdsFit k.2 ((outBorder ref p).cp ++ (outBorder ref p).bp) ∧
      m = (k.1.plus (outBorder ref p).cn (outBorder ref p).bn, k.2.plus (outBorder ref p).cp (outBorder ref p).bp) := by
  unfold pushBorder outBorder
  obtain ⟨m1, m2⟩ := m
  cases route false ref p with
  | none => simp
  | some r =>
    cases r with
    | both N Q => simp [both_iff, addBorder_iff, IdsFit]; tauto
    | neg N => rw [both_iff, addBorder_iff]; simp [IdsFit, NodeData.plus_nil, eq_comm (a := k.2)]; tauto
    | pos Q => rw [both_iff, addBorder_iff]; simp [IdsFit, NodeData.plus_nil, eq_comm (a := k.1)]; tauto
    | on => simp

theorem pushContents_perm {ref : PlaneRef} {l l' : List BPoly} (hp : l.Perm l') {k k' m : NodeData × NodeData} (hk : Pair2 k k')
    (h : pushAll (pushContent ref) l k = some m) : ∃ m', pushAll (pushContent ref) l' k' = some m' ∧ Pair2 m m' :=
  have := adds_ok (pushContent_iff (ref := ref))
  pushAll_perm this.1 this.2 hp hk h

theorem pushBorders_perm {ref : PlaneRef} {l l' : List BPoly} (hp : l.Perm l') {k k' m : NodeData × NodeData} (hk : Pair2 k k')
    (h : pushAll (pushBorder ref) l k = some m) : ∃ m', pushAll (pushBorder ref) l' k' = some m' ∧ Pair2 m m' :=
  have := adds_ok (pushBorder_iff (ref := ref))
  pushAll_perm this.1 this.2 hp hk h

/-! ### Winding numbers -/

/-- The winding number of the id changed. -/
def addAt (info : List Info) (id : Nat) (a : Int) : List Info := info.modify id fun i => { i with pwn := i.pwn + a }

theorem addAt_length (info : List Info) (id : Nat) (a : Int) : (addAt info id a).length = info.length := by simp [addAt]

theorem addAt_get (info : List Info) (id : Nat) (a : Int) (k : Nat) : (addAt info id a)[k]? = info[k]?.map fun i => { i with pwn := i.pwn + if id = k then a else 0 } := by
  unfold addAt
  rw [List.getElem?_modify]
  cases info[k]? with
  | none => simp
  | some i => by_cases h : id = k <;> simp [h]

theorem addAt_zero (info : List Info) (id : Nat) : addAt info id 0 = info := by
  apply List.ext_getElem?
  intro k
  rw [addAt_get]
  cases info[k]? <;> simp

theorem addAt_add (info : List Info) (id : Nat) (a b : Int) : addAt (addAt info id a) id b = addAt info id (a + b) := by
  apply List.ext_getElem?
  intro k
  rw [addAt_get, addAt_get, addAt_get]
  cases info[k]? with
  | none => rfl
  | some i => by_cases h : id = k <;> simp [h, add_assoc]

theorem addAt_comm (info : List Info) (id id' : Nat) (a b : Int) : addAt (addAt info id a) id' b = addAt (addAt info id' b) id a := by
  apply List.ext_getElem?
  intro k
  rw [addAt_get, addAt_get, addAt_get, addAt_get]
  cases info[k]? with
  | none => rfl
  | some i => simp; omega

/-- A step that changes the winding numbers of one id, or fails depending on the numbers of ids. -/
def Additive (id : Nat) (F : List Info × List Info → Option (List Info × List Info)) : Prop :=
  ∃ (ok : Nat → Nat → Prop) (a b : Int), ∀ k m, F k = some m ↔ ok k.1.length k.2.length ∧ m = (addAt k.1 id a, addAt k.2 id b)

theorem Additive.id (id : Nat) : Additive id some :=
  ⟨fun _ _ => True, 0, 0, fun k m => by simp [addAt_zero, eq_comm]⟩

theorem Additive.fail (id : Nat) : Additive id fun _ => none := ⟨fun _ _ => False, 0, 0, fun k m => by simp⟩

theorem Additive.comp {id : Nat} {F G : List Info × List Info → Option (List Info × List Info)} (hF : Additive id F) (hG : Additive id G) : Additive id fun k => (F k).bind G := by
  obtain ⟨o1, a1, b1, h1⟩ := hF
  obtain ⟨o2, a2, b2, h2⟩ := hG
  refine ⟨fun x y => o1 x y ∧ o2 x y, a1 + a2, b1 + b2, fun k m => ?_⟩
  rw [Option.bind_eq_some_iff]
  constructor
  · rintro ⟨k', e1, e2⟩
    obtain ⟨p1, rfl⟩ := (h1 _ _).1 e1
    obtain ⟨p2, rfl⟩ := (h2 _ _).1 e2
    simp only [addAt_length] at p2
    exact ⟨⟨p1, p2⟩, by rw [addAt_add, addAt_add]⟩
  · rintro ⟨⟨p1, p2⟩, rfl⟩
    exact ⟨_, (h1 _ _).2 ⟨p1, rfl⟩, (h2 _ _).2 ⟨by simpa [addAt_length] using p2, by rw [addAt_add, addAt_add]⟩⟩

theorem addPwn_additive (id : Nat) (effect : Int × Bool) (sign : Int) : Additive id fun k => addPwn k id effect sign := by
  unfold addPwn
  by_cases h0 : effect.1 = 0
  · simp only [h0, if_true]; exact .id id
  · simp only [h0, if_false]
    cases effect.2 with
    | true =>
      refine ⟨fun _ y => id < y, 0, sign * effect.1, fun k m => ?_⟩
      simp only [if_true, bump, addAt_zero]
      by_cases h : id < k.2.length
      · simp [h, addAt, eq_comm]
      · simp [h]
    | false =>
      refine ⟨fun x _ => id < x, sign * effect.1, 0, fun k m => ?_⟩
      simp only [Bool.false_eq_true, if_false, bump, addAt_zero]
      by_cases h : id < k.1.length
      · simp [h, addAt, eq_comm]
      · simp [h]

theorem pushEdgePwn_additive (g : HS3) (id : Nat) (e next : Edge EdgeInfo) : Additive id (pushEdgePwn g id e next) := by
  have : pushEdgePwn g id e next = fun k => match compareSide g.n e.data.edgeLast with
    | none => some k
    | some c => if c = 0 then some k else
      match pwnEffect g c e.data.edgeLast e with
      | none => none
      | some x => (addPwn k id x 1).bind fun k => match pwnEffect g c e.data.edgeLast next with
        | none => none
        | some y => addPwn k id y (-1) := by
    funext k
    unfold pushEdgePwn
    cases compareSide g.n e.data.edgeLast with
    | none => rfl
    | some c =>
      simp only
      split_ifs
      · rfl
      · cases pwnEffect g c e.data.edgeLast e with
        | none => rfl
        | some x =>
          simp only
          cases addPwn k id x 1 <;> rfl
  rw [this]
  cases compareSide g.n e.data.edgeLast with
  | none => exact .id id
  | some c =>
    simp only
    split_ifs
    · exact .id id
    · cases pwnEffect g c e.data.edgeLast e with
      | none => exact .fail id
      | some x =>
        refine (addPwn_additive id x 1).comp ?_
        cases pwnEffect g c e.data.edgeLast next with
        | none => exact .fail id
        | some y => exact addPwn_additive id y (-1)

theorem pushPolyPwn_additive (g : HS3) (id : Nat) (first : Edge EdgeInfo) : ∀ l, Additive id (pushPolyPwn g id first l)
  | [] => .id id
  | e :: l => by
    have : pushPolyPwn g id first (e :: l) = fun k => (pushEdgePwn g id e (l.headD first) k).bind (pushPolyPwn g id first l) := by
      funext k
      rw [pushPolyPwn]
      cases pushEdgePwn g id e (l.headD first) k <;> rfl
    rw [this]
    exact (pushEdgePwn_additive g id e _).comp (pushPolyPwn_additive g id first l)

/-- The step for one polygon. -/
def polyPwn (g : HS3) (p : BPoly) (k : List Info × List Info) : Option (List Info × List Info) :=
  match p.poly.edges with
  | [] => some k
  | e :: t => pushPolyPwn g p.id e (e :: t) k

theorem polyPwn_additive (g : HS3) (p : BPoly) : Additive p.id (polyPwn g p) := by
  unfold polyPwn
  cases p.poly.edges with
  | nil => exact .id _
  | cons e t => exact pushPolyPwn_additive g p.id e (e :: t)

theorem pushPwn_cons (g : HS3) (p : BPoly) (l : List BPoly) (k : List Info × List Info) : pushPwn g (p :: l) k = (polyPwn g p k).bind (pushPwn g l) := by
  rw [pushPwn, polyPwn]
  cases p.poly.edges with
  | nil => rfl
  | cons e t =>
    simp only
    cases pushPolyPwn g p.id e (e :: t) k <;> rfl

theorem polyPwn_comm (g : HS3) (p q : BPoly) (k m : List Info × List Info) (h : (polyPwn g p k).bind (polyPwn g q) = some m) : (polyPwn g q k).bind (polyPwn g p) = some m := by
  obtain ⟨o1, a1, b1, h1⟩ := polyPwn_additive g p
  obtain ⟨o2, a2, b2, h2⟩ := polyPwn_additive g q
  obtain ⟨k1, e1, e2⟩ := Option.bind_eq_some_iff.1 h
  obtain ⟨p1, rfl⟩ := (h1 _ _).1 e1
  obtain ⟨p2, rfl⟩ := (h2 _ _).1 e2
  simp only [addAt_length] at p2
  refine Option.bind_eq_some_iff.2 ⟨_, (h2 _ _).2 ⟨p2, rfl⟩, (h1 _ _).2 ⟨by simpa [addAt_length] using p1, ?_⟩⟩
  rw [addAt_comm, addAt_comm k.2]

theorem pushPwn_perm {g : HS3} {l l' : List BPoly} (hp : l.Perm l') : ∀ {k m : List Info × List Info}, pushPwn g l k = some m → pushPwn g l' k = some m := by
  induction hp with
  | nil => exact fun h => h
  | cons p _ ih =>
    intro k m h
    rw [pushPwn_cons] at h ⊢
    obtain ⟨k1, e1, e2⟩ := Option.bind_eq_some_iff.1 h
    exact Option.bind_eq_some_iff.2 ⟨k1, e1, ih e2⟩
  | swap p q l =>
    intro k m h
    have e : ∀ a b, pushPwn g (a :: b :: l) k = ((polyPwn g a k).bind (polyPwn g b)).bind (pushPwn g l) := by
      intro a b
      rw [pushPwn_cons, Option.bind_assoc]
      congr 1
      funext k
      exact pushPwn_cons g b l k
    rw [e] at h ⊢
    obtain ⟨k1, e1, e2⟩ := Option.bind_eq_some_iff.1 h
    exact Option.bind_eq_some_iff.2 ⟨k1, polyPwn_comm _ _ _ _ _ e1, e2⟩
  | trans _ _ ih1 ih2 => exact fun h => ih2 (ih1 h)

/-! ### Splits -/

theorem split_reorder {path : List Bool} {d d' : NodeData} (h : d.Reorders d') {g : HS3} {t : Node} (hs : split path d g = some t) :
    ∃ t', split path d' g = some t' ∧ t.Reorders t' := by
  unfold split at hs ⊢
  split_ifs at hs ⊢ with hz
  obtain ⟨k, hk, rfl⟩ := Option.map_eq_some_iff.1 hs
  unfold pushChildren at hk ⊢
  rw [← h.info]
  split at hk
  · cases hk
  rename_i i hi
  rw [pushPwn_perm h.contents hi]
  simp only
  split at hk
  · cases hk
  rename_i k1 hk1
  obtain ⟨k2, hk2, r2⟩ := pushContents_perm h.contents (.refl _) hk1
  rw [hk2]
  obtain ⟨k3, hk3, r3⟩ := pushBorders_perm h.border r2 hk
  simp only
  rw [hk3]
  exact ⟨_, rfl, ⟨.refl _, .refl _, h.info⟩, rfl, r3.1, r3.2⟩

end Walnut.Bsp
