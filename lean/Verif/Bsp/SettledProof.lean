/-
Where polygons and winding numbers are in the trees built through `BSPTree`.
-/
import Verif.Bsp.TreeProof
import Verif.Props.Filters

namespace Walnut.Bsp
open Walnut.Geom Walnut.Poly Walnut.Props

/-- The nodes of a tree, with their ancestors. -/
def Node.subs : Anc → Node → List (Anc × Node)
  | anc, .leaf d => [(anc, .leaf d)]
  | anc, .inner d g n p =>
    (anc, .inner d g n p) :: (n.subs (anc ++ [(⟨anc.map Prod.snd, g⟩, false)]) ++ p.subs (anc ++ [(⟨anc.map Prod.snd, g⟩, true)]))

theorem TreeOK.sub : ∀ {t : Node} {anc : Anc}, TreeOK anc t → ∀ x ∈ t.subs anc, TreeOK x.1 x.2 := by
  intro t
  induction t with
  | leaf d => intro anc h x hx; rw [List.mem_singleton.1 hx]; exact h
  | inner d g n p ihn ihp =>
    intro anc h x hx
    unfold Node.subs at hx
    rcases List.mem_cons.1 hx with rfl | hx
    · exact h
    · rcases List.mem_append.1 hx with hx | hx
      · exact ihn h.2.2.2.2.1 x hx
      · exact ihp h.2.2.2.2.2 x hx

/-- Only leaves hold polygons. -/
def Settled : Node → Prop
  | .leaf _ => True
  | .inner d _ n p => d.contents = [] ∧ d.border = [] ∧ Settled n ∧ Settled p

/-- Only the root and leaves hold polygons. -/
def NearlySettled : Node → Prop
  | .leaf _ => True
  | .inner _ _ n p => Settled n ∧ Settled p

theorem Settled.nearly : ∀ {t : Node}, Settled t → NearlySettled t
  | .leaf _, _ => trivial
  | .inner _ _ _ _, h => ⟨h.2.2.1, h.2.2.2⟩

theorem NearlySettled.setData : ∀ {t : Node} (d : NodeData), NearlySettled t → NearlySettled (t.setData d)
  | .leaf _, _, _ => trivial
  | .inner _ _ _ _, _, h => h

theorem pushDown_settled : ∀ (t : Node) (path : List Bool) (d : NodeData) (t' : Node), NearlySettled t → t.pushDown path d = some t' → Settled t' := by
  intro t
  induction t with
  | leaf d0 => intro path d t' _ h; rw [← Option.some.inj h]; trivial
  | inner d0 g n p ihn ihp =>
    intro path d t' hs h
    unfold Node.pushDown at h
    split_ifs at h with he
    · rw [← Option.some.inj h]
      simp only [Bool.and_eq_true, List.isEmpty_iff] at he
      exact ⟨he.1, he.2, hs.1, hs.2⟩
    · split at h
      · simp at h
      · split at h
        · rename_i en ep
          rw [← Option.some.inj h]
          exact ⟨rfl, rfl, ihn _ _ _ hs.1.nearly en, ihp _ _ _ hs.2.nearly ep⟩
        · simp at h

theorem splitAt_settled : ∀ (t : Node) (done path : List Bool) (g : HS3) (t' : Node), Settled t → t.splitAt done path g = some t' → Settled t' := by
  intro t
  induction t with
  | leaf d =>
    intro done path g t' _ h
    cases path with
    | nil =>
      unfold Node.splitAt split at h
      split_ifs at h
      obtain ⟨k, _, rfl⟩ := Option.map_eq_some_iff.1 h
      exact ⟨rfl, rfl, trivial, trivial⟩
    | cons b path => simp [Node.splitAt] at h
  | inner d h0 n p ihn ihp =>
    intro done path g t' hs h
    obtain ⟨s1, s2, s3, s4⟩ := hs
    cases path with
    | nil => simp [Node.splitAt] at h
    | cons b path =>
      cases b
      · unfold Node.splitAt at h
        obtain ⟨n', hn, rfl⟩ := Option.map_eq_some_iff.1 h
        exact ⟨s1, s2, ihn _ _ _ _ s3 hn, s4⟩
      · unfold Node.splitAt at h
        obtain ⟨p', hp, rfl⟩ := Option.map_eq_some_iff.1 h
        exact ⟨s1, s2, s3, ihp _ _ _ _ s4 hp⟩

/-- The trees built through `BSPTree`: `AddContent`, `AddContents` and splits of leaves. -/
inductive Api (aabb : Bool) : Node → List Source → Prop
  | empty : Api aabb (.leaf {}) []
  | add {t t' : Node} {S : List Source} {id : Nat} {l : List (Polygon Unit)} : Api aabb t S → (∀ P ∈ l, IsConvexPolygon P) →
      t.addContents aabb id l = some t' → Api aabb t' (S ++ l.map fun P => ⟨id, P⟩)
  | split {t t' : Node} {S : List Source} {path : List Bool} {g : HS3} : Api aabb t S → t.splitAt [] path g = some t' → Api aabb t' S

theorem addContents_spec {aabb : Bool} {id : Nat} : ∀ (l : List (Polygon Unit)) {t t' : Node} {S : List Source}, Reach aabb t S → NearlySettled t →
    (∀ P ∈ l, IsConvexPolygon P) → t.addContents aabb id l = some t' → Reach aabb t' (S ++ l.map fun P => ⟨id, P⟩) ∧ Settled t' := by
  intro l
  induction l with
  | nil =>
    intro t t' S h hs _ ht
    exact ⟨by simpa using h.push ht, pushDown_settled _ _ _ _ hs ht⟩
  | cons P l ih =>
    intro t t' S h hs hl ht
    unfold Node.addContents at ht
    split at ht
    · simp at ht
    · rename_i t1 e
      have e' := e
      unfold Node.addRoot at e'
      obtain ⟨d, _, rfl⟩ := Option.map_eq_some_iff.1 e'
      have := ih (h.add (hl P (by simp)) e) (hs.setData d) (fun Q hQ => hl Q (by simp [hQ])) ht
      simpa using this

theorem Api.spec {aabb : Bool} {t : Node} {S : List Source} (h : Api aabb t S) : Reach aabb t S ∧ Settled t := by
  induction h with
  | empty => exact ⟨.empty, trivial⟩
  | add _ hl ht ih => exact addContents_spec _ ih.1 ih.2.nearly hl ht
  | split _ ht ih => exact ⟨ih.1.split ht, splitAt_settled _ _ _ _ _ ih.2 ht⟩

/-! ### Winding numbers of contents without polygons -/

/-- Winding numbers of the ids that `P` holds for do not change. -/
def SamePwn (P : Nat → Prop) (a b : List Info) : Prop := b.length = a.length ∧ ∀ id, P id → (b.getD id {}).pwn = (a.getD id {}).pwn

theorem SamePwn.refl (P : Nat → Prop) (a : List Info) : SamePwn P a a := ⟨rfl, fun _ _ => rfl⟩
theorem SamePwn.trans {P : Nat → Prop} {a b c : List Info} (h : SamePwn P a b) (h' : SamePwn P b c) : SamePwn P a c :=
  ⟨h'.1.trans h.1, fun id hid => (h'.2 id hid).trans (h.2 id hid)⟩

theorem bump_samePwn {P : Nat → Prop} {info info' : List Info} {id : Nat} {f : Info → Info} (h : bump info id f = some info')
    (hf : P id → ∀ i, (f i).pwn = i.pwn) : SamePwn P info info' := by
  refine ⟨(bump_length h).1, fun j hj => ?_⟩
  rw [bump_getD h]
  split_ifs with e
  · subst e; exact hf hj _
  · rfl

theorem addPwn_samePwn {P : Nat → Prop} {k k' : List Info × List Info} {id : Nat} {x : Int × Bool} {s : Int} (hid : ¬ P id)
    (h : addPwn k id x s = some k') : SamePwn P k.1 k'.1 ∧ SamePwn P k.2 k'.2 := by
  unfold addPwn at h
  split_ifs at h
  · rw [← Option.some.inj h]; exact ⟨.refl _ _, .refl _ _⟩
  · obtain ⟨y, hy, rfl⟩ := Option.map_eq_some_iff.1 h
    exact ⟨.refl _ _, bump_samePwn hy fun hp => absurd hp hid⟩
  · obtain ⟨y, hy, rfl⟩ := Option.map_eq_some_iff.1 h
    exact ⟨bump_samePwn hy fun hp => absurd hp hid, .refl _ _⟩

theorem pushEdgePwn_samePwn {P : Nat → Prop} {k k' : List Info × List Info} {g : HS3} {id : Nat} {e next : Edge EdgeInfo} (hid : ¬ P id)
    (h : pushEdgePwn g id e next k = some k') : SamePwn P k.1 k'.1 ∧ SamePwn P k.2 k'.2 := by
  unfold pushEdgePwn at h
  split at h
  · rw [← Option.some.inj h]; exact ⟨.refl _ _, .refl _ _⟩
  · split_ifs at h
    · rw [← Option.some.inj h]; exact ⟨.refl _ _, .refl _ _⟩
    · split at h
      · simp at h
      · split at h
        · simp at h
        · rename_i h1
          split at h
          · simp at h
          · have a := addPwn_samePwn hid h1
            have b := addPwn_samePwn hid h
            exact ⟨a.1.trans b.1, a.2.trans b.2⟩

theorem pushPolyPwn_samePwn {P : Nat → Prop} {g : HS3} {id : Nat} {first : Edge EdgeInfo} (hid : ¬ P id) : ∀ (l : List (Edge EdgeInfo)) {k k' : List Info × List Info},
    pushPolyPwn g id first l k = some k' → SamePwn P k.1 k'.1 ∧ SamePwn P k.2 k'.2 := by
  intro l
  induction l with
  | nil => intro k k' h; rw [← Option.some.inj h]; exact ⟨.refl _ _, .refl _ _⟩
  | cons e l ih =>
    intro k k' h
    unfold pushPolyPwn at h
    split at h
    · simp at h
    · rename_i h1
      have a := pushEdgePwn_samePwn hid h1
      have b := ih h
      exact ⟨a.1.trans b.1, a.2.trans b.2⟩

theorem pushPwn_samePwn {P : Nat → Prop} {g : HS3} : ∀ (l : List BPoly) {k k' : List Info × List Info}, (∀ x ∈ l, ¬ P x.id) →
    pushPwn g l k = some k' → SamePwn P k.1 k'.1 ∧ SamePwn P k.2 k'.2 := by
  intro l
  induction l with
  | nil => intro k k' _ h; rw [← Option.some.inj h]; exact ⟨.refl _ _, .refl _ _⟩
  | cons p l ih =>
    intro k k' hl h
    have ih' := fun {k k'} => @ih k k' (fun x hx => hl x (by simp [hx]))
    unfold pushPwn at h
    split at h
    · exact ih' h
    · split at h
      · simp at h
      · rename_i h1
        have a := pushPolyPwn_samePwn (hl p (by simp)) _ h1
        have b := ih' h
        exact ⟨a.1.trans b.1, a.2.trans b.2⟩

theorem addInterior_samePwn {P : Nat → Prop} {d d' : NodeData} {p : BPoly} (h : d.addInterior p = some d') : SamePwn P d.info d'.info := by
  unfold NodeData.addInterior at h
  obtain ⟨info, hi, rfl⟩ := Option.map_eq_some_iff.1 h
  exact bump_samePwn hi fun _ _ => rfl

theorem addBorder_samePwn {P : Nat → Prop} {d d' : NodeData} {p : BPoly} (h : d.addBorder p = some d') : SamePwn P d.info d'.info := by
  unfold NodeData.addBorder at h
  obtain ⟨info, hi, rfl⟩ := Option.map_eq_some_iff.1 h
  exact bump_samePwn hi fun _ _ => rfl

/-- Both lists of infos keep their winding numbers. -/
def Same2 (P : Nat → Prop) (k k' : NodeData × NodeData) : Prop := SamePwn P k.1.info k'.1.info ∧ SamePwn P k.2.info k'.2.info

theorem both_same2 {P : Nat → Prop} {k k' : NodeData × NodeData} {n p : Option NodeData} (h : both n p = some k')
    (hn : ∀ d, n = some d → SamePwn P k.1.info d.info) (hp : ∀ d, p = some d → SamePwn P k.2.info d.info) : Same2 P k k' := by
  obtain ⟨a, b⟩ := both_some h
  exact ⟨hn _ a, hp _ b⟩

theorem some_samePwn {P : Nat → Prop} {x : NodeData} : ∀ d, some x = some d → SamePwn P x.info d.info := by
  intro d h; rw [← Option.some.inj h]; exact .refl _ _

theorem pushContent_same2 {P : Nat → Prop} {ref : PlaneRef} {p : BPoly} {k k' : NodeData × NodeData} (h : pushContent ref p k = some k') : Same2 P k k' := by
  unfold pushContent at h
  split at h
  · simp at h
  · exact both_same2 h (fun _ => addInterior_samePwn) (fun _ => addInterior_samePwn)
  · exact both_same2 h (fun _ => addInterior_samePwn) some_samePwn
  · exact both_same2 h some_samePwn (fun _ => addInterior_samePwn)
  · split_ifs at h
    · exact both_same2 h some_samePwn (fun _ => addBorder_samePwn)
    · exact both_same2 h (fun _ => addBorder_samePwn) some_samePwn

theorem pushBorder_same2 {P : Nat → Prop} {ref : PlaneRef} {p : BPoly} {k k' : NodeData × NodeData} (h : pushBorder ref p k = some k') : Same2 P k k' := by
  unfold pushBorder at h
  split at h
  · simp at h
  · exact both_same2 h (fun _ => addBorder_samePwn) (fun _ => addBorder_samePwn)
  · exact both_same2 h (fun _ => addBorder_samePwn) some_samePwn
  · exact both_same2 h some_samePwn (fun _ => addBorder_samePwn)
  · simp at h

theorem pushAll_same2 {P : Nat → Prop} {f : BPoly → NodeData × NodeData → Option (NodeData × NodeData)}
    (hf : ∀ p k k', f p k = some k' → Same2 P k k') : ∀ (l : List BPoly) (k k' : NodeData × NodeData), pushAll f l k = some k' → Same2 P k k' := by
  intro l
  induction l with
  | nil => intro k k' h; rw [← Option.some.inj h]; exact ⟨.refl _ _, .refl _ _⟩
  | cons p l ih =>
    intro k k' h
    unfold pushAll at h
    split at h
    · simp at h
    · rename_i e
      have a := hf _ _ _ e
      have b := ih _ _ h
      exact ⟨a.1.trans b.1, a.2.trans b.2⟩

theorem pushChildren_same2 {P : Nat → Prop} {ref : PlaneRef} {d : NodeData} {k k' : NodeData × NodeData} (hd : ∀ x ∈ d.contents, ¬ P x.id)
    (h : pushChildren ref d k = some k') : Same2 P k k' := by
  unfold pushChildren at h
  split at h
  · simp at h
  · rename_i e
    have a := pushPwn_samePwn _ hd e
    split at h
    · simp at h
    · rename_i e1
      have b := pushAll_same2 (P := P) (fun _ _ _ hk => pushContent_same2 hk) _ _ _ e1
      have c := pushAll_same2 (P := P) (fun _ _ _ hk => pushBorder_same2 hk) _ _ _ h
      exact ⟨(a.1.trans b.1).trans c.1, (a.2.trans b.2).trans c.2⟩

/-- Every node is below its parent in the sense of the filters. -/
def Nested : Node → Prop
  | .leaf _ => True
  | .inner d _ n p => Below d.info n.data.info ∧ Below d.info p.data.info ∧ Nested n ∧ Nested p

theorem windingOf_getD (c : List Info) (id : Nat) : windingOf c id = (c.getD id {}).pwn := by
  unfold windingOf
  split
  · rename_i h; simp [List.getD_eq_getElem?_getD, h]
  · rename_i h; simp [List.getD_eq_getElem?_getD, h]

theorem holds_getD (c : List Info) (id : Nat) : holds c id ↔ 0 < (c.getD id {}).interior ∨ 0 < (c.getD id {}).border := by
  unfold holds
  constructor
  · rintro ⟨h, e⟩; simpa [List.getD_eq_getElem?_getD, h] using e
  · intro e
    by_cases h : id < c.length
    · exact ⟨h, by simpa [List.getD_eq_getElem?_getD, h] using e⟩
    · simp [List.getD_eq_getElem?_getD, h] at e

theorem below_trans {a b c : List Info} (h : Below a b) (h' : Below b c) : Below a c :=
  ⟨h'.1.trans h.1, fun id hid => ⟨((h'.2 id (h.2 id hid).2).1).trans (h.2 id hid).1, (h'.2 id (h.2 id hid).2).2⟩⟩

theorem below_refl (a : List Info) : Below a a := ⟨rfl, fun _ h => ⟨rfl, h⟩⟩

theorem split_nested {d : NodeData} {g : HS3} {anc : Anc} {t' : Node} (h : TreeOK anc (.leaf d)) (ht : split (anc.map Prod.snd) d g = some t') :
    Nested t' ∧ t'.data.info = d.info := by
  have ht0 := ht
  unfold split at ht
  split_ifs at ht with hz
  have hg : g.n ≠ ⟨0, 0, 0⟩ := by
    intro e; apply hz; rw [e]; rfl
  obtain ⟨k, hk, rfl⟩ := Option.map_eq_some_iff.1 ht
  obtain ⟨o, hd, r1, r2⟩ := pushChildren_spec (ref := ⟨anc.map Prod.snd, g⟩) hg h.1 h.2.1 hk
  have hold : ∀ id, ¬ holds d.info id → ∀ x ∈ d.contents ++ d.border, x.id ≠ id := by
    intro id hid x hx e
    rw [holds_getD] at hid
    have hc := h.2.2 id
    unfold NodeData.infoFor at hc
    apply hid
    rw [hc.1, hc.2]
    rcases List.mem_append.1 hx with hx | hx
    · exact Or.inl (countP_id_pos.2 ⟨x, hx, e⟩)
    · exact Or.inr (countP_id_pos.2 ⟨x, hx, e⟩)
  have hs := pushChildren_same2 (P := fun id => ¬ holds d.info id) (fun x hx hn => hold _ hn x (List.mem_append_left _ hx) rfl) hk
  have len : (setPwn d.info).info.length = d.info.length := by simp [setPwn]
  have pw : ∀ id, ((setPwn d.info).info.getD id {}).pwn = (d.info.getD id {}).pwn := by
    intro id
    simp only [setPwn, List.getD_eq_getElem?_getD, List.getElem?_map]
    cases d.info[id]? <;> rfl
  have zero : ∀ id, ((setPwn d.info).info.getD id {}).interior = 0 ∧ ((setPwn d.info).info.getD id {}).border = 0 := by
    intro id
    simp only [setPwn, List.getD_eq_getElem?_getD, List.getElem?_map]
    cases d.info[id]? <;> exact ⟨rfl, rfl⟩
  have src : ∀ id, ¬ holds d.info id → ∀ x ∈ o.all, x.id ≠ id := by
    intro id hid x hx e
    obtain ⟨y, hy, e1, _⟩ := hd.cons.back x hx
    exact hold id hid y hy (e1.symm.trans e)
  have noneOf : ∀ id, ¬ holds d.info id → ∀ l : List BPoly, (∀ x ∈ l, x ∈ o.all) → l.countP (fun x => x.id == id) = 0 := by
    intro id hid l hl
    rw [List.countP_eq_zero]
    intro x hx
    have := src id hid x (hl x hx)
    simpa using this
  refine ⟨⟨⟨hs.1.1.trans len, fun id hid => ⟨?_, ?_⟩⟩, ⟨hs.2.1.trans len, fun id hid => ⟨?_, ?_⟩⟩, trivial, trivial⟩, rfl⟩
  · rw [windingOf_getD, windingOf_getD]; exact (hs.1.2 id hid).trans (pw id)
  · rw [holds_getD]
    have := r1.info id
    rw [(zero id).1, (zero id).2, noneOf id hid o.cn (fun x hx => by simp [Out.all, hx]), noneOf id hid o.bn (fun x hx => by simp [Out.all, hx])] at this
    show ¬ (0 < (k.1.info.getD id {}).interior ∨ 0 < (k.1.info.getD id {}).border)
    omega
  · rw [windingOf_getD, windingOf_getD]; exact (hs.2.2 id hid).trans (pw id)
  · rw [holds_getD]
    have := r2.info id
    rw [(zero id).1, (zero id).2, noneOf id hid o.cp (fun x hx => by simp [Out.all, hx]), noneOf id hid o.bp (fun x hx => by simp [Out.all, hx])] at this
    show ¬ (0 < (k.2.info.getD id {}).interior ∨ 0 < (k.2.info.getD id {}).border)
    omega

theorem splitAt_nested : ∀ (t : Node) (anc : Anc) (path : List Bool) (g : HS3) (t' : Node), TreeOK anc t → Nested t →
    t.splitAt (anc.map Prod.snd) path g = some t' → Nested t' ∧ t'.data.info = t.data.info := by
  intro t
  induction t with
  | leaf d =>
    intro anc path g t' h _ ht
    cases path with
    | nil => exact split_nested h ht
    | cons b path => simp [Node.splitAt] at ht
  | inner d h0 n p ihn ihp =>
    intro anc path g t' h hn ht
    obtain ⟨n1, n2, n3, n4⟩ := hn
    cases path with
    | nil => simp [Node.splitAt] at ht
    | cons b path =>
      cases b
      · unfold Node.splitAt at ht
        obtain ⟨n', e, rfl⟩ := Option.map_eq_some_iff.1 ht
        rw [← map_snd_append anc ⟨anc.map Prod.snd, h0⟩] at e
        obtain ⟨a1, a2⟩ := ihn _ _ _ _ h.2.2.2.2.1 n3 e
        exact ⟨⟨a2 ▸ n1, n2, a1, n4⟩, rfl⟩
      · unfold Node.splitAt at ht
        obtain ⟨p', e, rfl⟩ := Option.map_eq_some_iff.1 ht
        rw [← map_snd_append anc ⟨anc.map Prod.snd, h0⟩] at e
        obtain ⟨a1, a2⟩ := ihp _ _ _ _ h.2.2.2.2.2 n4 e
        exact ⟨⟨n1, a2 ▸ n2, n3, a1⟩, rfl⟩

theorem Nested.below : ∀ {t : Node}, Nested t → ∀ (anc : Anc), ∀ x ∈ t.subs anc, Below t.data.info x.2.data.info ∧ Nested x.2 := by
  intro t
  induction t with
  | leaf d => intro h anc x hx; rw [List.mem_singleton.1 hx]; exact ⟨below_refl _, h⟩
  | inner d g n p ihn ihp =>
    intro h anc x hx
    unfold Node.subs at hx
    rcases List.mem_cons.1 hx with rfl | hx
    · exact ⟨below_refl _, h⟩
    · obtain ⟨n1, n2, n3, n4⟩ := h
      rcases List.mem_append.1 hx with hx | hx
      · have := ihn n3 _ x hx; exact ⟨below_trans n1 this.1, this.2⟩
      · have := ihp n4 _ x hx; exact ⟨below_trans n2 this.1, this.2⟩

end Walnut.Bsp
