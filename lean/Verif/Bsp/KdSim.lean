/- A traversal with the k-d strategy makes the calls of a traversal with ordinary splits. -/
import Verif.Bsp.KdTraverse
import Verif.Bsp.KdReorder
import Verif.Props.KdTree

namespace Walnut.Bsp
open Walnut.Geom Walnut.Poly Walnut.Props

/-- The node at a path. -/
def Node.subAt : Node → List Bool → Option Node
  | t, [] => some t
  | .leaf _, _ :: _ => none
  | .inner _ _ n _, false :: path => n.subAt path
  | .inner _ _ _ p, true :: path => p.subAt path

theorem subAt_append : ∀ (path path' : List Bool) (t : Node), t.subAt (path ++ path') = (t.subAt path).bind fun s => s.subAt path' := by
  intro path
  induction path with
  | nil => intro path' t; simp [Node.subAt]
  | cons b path ih =>
    intro path' t
    cases t with
    | leaf d => rfl
    | inner d g n p => cases b <;> exact ih _ _

/-- The planes of a tree as a choice. -/
def planesOf (T : Node) : Choose := fun path _ =>
  match T.subAt path with
  | some (.inner _ g _ _) => g
  | _ => ⟨⟨1, 0, 0⟩, 0⟩

open Classical in
/-- The order in which the leaves of a tree hold their border polygons. -/
noncomputable def ordersOf (T : Node) (group : Group) : Group := fun path l =>
  match T.subAt path with
  | some (.leaf d) => if d.border.Perm l then group path d.border else group path l
  | _ => group path l

theorem ordersOf_ok (T : Node) {group : Group} (hg : Grouping group) : Grouping (ordersOf T group) := by
  have key : ∀ path l, ∃ l', l'.Perm l ∧ ordersOf T group path l = group path l' := by
    intro path l
    unfold ordersOf
    split
    · rename_i d _
      split_ifs with h
      · exact ⟨_, h, rfl⟩
      · exact ⟨_, .refl _, rfl⟩
    · exact ⟨_, .refl _, rfl⟩
  refine ⟨fun path l => ?_, fun path l => ?_, fun path l => ?_⟩ <;> obtain ⟨l', h1, h2⟩ := key path l <;> rw [h2]
  · exact (hg.perm path l').trans h1
  · exact hg.key path l'
  · exact hg.apart path l'

theorem Node.Reorders.trans : ∀ {a b c : Node}, a.Reorders b → b.Reorders c → a.Reorders c := by
  intro a
  induction a with
  | leaf d =>
    intro b c h h'
    cases b with
    | inner => cases h
    | leaf d1 =>
      cases c with
      | inner => cases h'
      | leaf d2 => exact NodeData.Reorders.trans h h'
  | inner d g n p ihn ihp =>
    intro b c h h'
    cases b with
    | leaf => cases h
    | inner d1 g1 n1 p1 =>
      cases c with
      | leaf => cases h'
      | inner d2 g2 n2 p2 =>
        obtain ⟨a1, a2, a3, a4⟩ := h
        obtain ⟨b1, b2, b3, b4⟩ := h'
        exact ⟨a1.trans b1, a2.trans b2, ihn a3 b3, ihp a4 b4⟩

theorem counted_reorders {d d' : NodeData} (h : d.Reorders d') (hc : Counted d') : Counted d := by
  intro id
  obtain ⟨a, b⟩ := hc id
  unfold NodeData.infoFor at *
  rw [h.info, a, b, h.contents.countP_eq, h.border.countP_eq]
  exact ⟨rfl, rfl⟩

theorem visitLeaf_reorders {v : IsInside} {group group' : Group} {pfuel : Nat} {path : List Bool} {d d0 : NodeData} (h : d.Reorders d0)
    (hg : group' path d0.border = group path d.border) : visitLeaf v group' pfuel path d0 = visitLeaf v group pfuel path d := by
  unfold visitLeaf
  have e1 : d0.contents.isEmpty = d.contents.isEmpty := by
    rw [Bool.eq_iff_iff, List.isEmpty_iff, List.isEmpty_iff]
    exact ⟨fun e => by rw [← List.perm_nil, ← e]; exact h.contents, fun e => by rw [← List.perm_nil, ← e]; exact h.contents.symm⟩
  have e2 : (d0.border.any fun p => p.onNode.split.isNone) = d.border.any fun p => p.onNode.split.isNone := by
    rw [Bool.eq_iff_iff, List.any_eq_true, List.any_eq_true]
    simp only [h.border.mem_iff]
  rw [e1, e2, hg, h.info]

variable {v : IsInside} {E : KdEnv} {group : Group} {pfuel kfuel : Nat}

/-- The event points of the k-d splits below a leaf are those of the polygons. -/
def LeafRight (v : IsInside) (E : KdEnv) (kfuel : Nat) : Nat → Strategy → List Bool → NodeData → Prop
  | 0, _, _, _ => True
  | fuel + 1, Z, path, d => (v d.info).2 = true → d.contents ≠ [] →
    (∀ bound dim part ev, Z.plan E d = some (.kd bound dim part ev) → d.contents.length < 2 ^ 56 ∧ FreshEvents Z d.contents) ∧
    ∀ d' g n p Zn Zp, Z.split E kfuel path d = some (.inner d' g (.leaf n) (.leaf p), Zn, Zp) →
      LeafRight v E kfuel fuel Zn (path ++ [false]) n ∧ LeafRight v E kfuel fuel Zp (path ++ [true]) p

theorem kdRunLeaf_sim (hE : HeapOk E.heap) {T : Node} (fuel : Nat) : ∀ {anc : Anc} {Z : Strategy} {d d0 : NodeData} {r : Node × List Visit},
    TreeOK anc (.leaf d0) → d.Reorders d0 → LeafRight v E kfuel fuel Z (anc.map Prod.snd) d →
    kdRunLeaf v E group pfuel kfuel fuel Z (anc.map Prod.snd) d = some r → T.subAt (anc.map Prod.snd) = some r.1 →
    ∃ t0, runLeaf v (planesOf T) (ordersOf T group) pfuel fuel (anc.map Prod.snd) d0 = some (t0, r.2) ∧ r.1.Reorders t0 := by
  induction fuel with
  | zero => intro anc Z d d0 r _ _ _ h; simp [kdRunLeaf] at h
  | succ fuel ih =>
    intro anc Z d d0 r ht hd hR h hT
    unfold kdRunLeaf at h
    unfold runLeaf
    rw [← hd.info]
    by_cases hp : (v d.info).2 = true
    swap
    · rw [if_pos (by simpa using hp)] at h ⊢
      cases h
      exact ⟨_, rfl, hd⟩
    rw [if_neg (by simp [hp])] at h ⊢
    by_cases hc : d.contents = []
    · have hc0 : d0.contents = [] := by rw [← List.perm_nil, ← hc]; exact hd.contents.symm
      rw [if_neg (by simp [hc])] at h
      rw [if_neg (by simp [hc0])]
      obtain ⟨tr, htr, rfl⟩ := Option.map_eq_some_iff.1 h
      rw [visitLeaf_reorders hd, htr]
      · exact ⟨_, rfl, hd⟩
      · unfold ordersOf
        simp only at hT
        rw [hT]
        exact if_pos hd.border
    · have hc0 : d0.contents ≠ [] := fun e => hc (by rw [← List.perm_nil, ← e]; exact hd.contents)
      rw [if_pos (by simpa using hc)] at h
      rw [if_pos (by simpa using hc0)]
      obtain ⟨hZ, hrec⟩ := hR hp hc
      split at h
      swap
      · cases h
      rename_i d' g n p Zn Zp hs
      obtain ⟨hn, hp'⟩ := hrec _ _ _ _ _ _ hs
      obtain ⟨g0, t0, hs0, hr0⟩ := split_same (anc := anc) (fun x hx => ht.1 x (hd.contents.mem_iff.1 hx)) (counted_reorders hd ht.2.2) hE hZ hs
      obtain ⟨dd, n0, p0, rfl, -⟩ := split_shape hs0
      obtain ⟨rd0, rfl, rn, rp⟩ := hr0
      obtain ⟨t1, hs1, hr1⟩ := split_reorder hd hs0
      obtain ⟨dd1, n1, p1, rfl, -⟩ := split_shape hs1
      obtain ⟨rd1, -, rn1, rp1⟩ := hr1
      split at h
      · cases h
      rename_i a ha
      obtain ⟨b, hb, rfl⟩ := Option.map_eq_some_iff.1 h
      have hplane : planesOf T (anc.map Prod.snd) d0 = g := by unfold planesOf; rw [hT]
      rw [hplane, hs1]
      simp only
      obtain ⟨t1ok, -, -⟩ := split_ok ht hs1
      rw [← map_snd_append anc ⟨anc.map Prod.snd, g⟩] at ha hb hn hp'
      have hTn : T.subAt ((anc ++ [((⟨anc.map Prod.snd, g⟩ : PlaneRef), false)]).map Prod.snd) = some a.1 := by
        rw [map_snd_append, subAt_append, hT]; simp [Node.subAt]
      have hTp : T.subAt ((anc ++ [((⟨anc.map Prod.snd, g⟩ : PlaneRef), true)]).map Prod.snd) = some b.1 := by
        rw [map_snd_append, subAt_append, hT]; simp [Node.subAt]
      obtain ⟨u1, e1, q1⟩ := ih t1ok.2.2.2.2.1 (NodeData.Reorders.trans rn rn1) hn ha hTn
      obtain ⟨u2, e2, q2⟩ := ih t1ok.2.2.2.2.2 (NodeData.Reorders.trans rp rp1) hp' hb hTp
      rw [map_snd_append] at e1 e2
      rw [e1, e2]
      exact ⟨_, rfl, NodeData.Reorders.trans rd0 rd1, rfl, q1, q2⟩

/-- The event points of all k-d splits of a traversal are those of the polygons. -/
def EventsRight (v : IsInside) (E : KdEnv) (kfuel fuel : Nat) : Strategy → Node → List Bool → Prop
  | Z, .leaf d, path => LeafRight v E kfuel fuel Z path d
  | _, .inner _ _ n p, path => EventsRight v E kfuel fuel ⟨some 6, none⟩ n (path ++ [false]) ∧ EventsRight v E kfuel fuel ⟨some 6, none⟩ p (path ++ [true])

theorem kdRun_sim (hE : HeapOk E.heap) {T : Node} {fuel : Nat} : ∀ (t : Node) {anc : Anc} {Z : Strategy} {r : Node × List Visit}, TreeOK anc t → Settled t →
    EventsRight v E kfuel fuel Z t (anc.map Prod.snd) → kdRun v E group pfuel kfuel fuel Z t (anc.map Prod.snd) t.data = some r → T.subAt (anc.map Prod.snd) = some r.1 →
    ∃ t0, run v (planesOf T) (ordersOf T group) pfuel fuel t (anc.map Prod.snd) t.data = some (t0, r.2) ∧ r.1.Reorders t0 := by
  intro t
  induction t with
  | leaf d =>
    intro anc Z r ht _ hR h hT
    unfold kdRun at h
    unfold run
    split_ifs at h ⊢ with hp
    · cases h
      exact ⟨_, rfl, reorders_refl _⟩
    · exact kdRunLeaf_sim hE fuel ht (.refl _) hR h hT
  | inner d g n p ihn ihp =>
    intro anc Z r ht hs hR h hT
    obtain ⟨s1, s2, s3, s4⟩ := hs
    have e : (Node.inner d g n p).data = d := rfl
    rw [e] at h ⊢
    unfold kdRun at h
    unfold run
    split_ifs at h ⊢ with hp hc
    · cases h
      exact ⟨_, rfl, reorders_refl _⟩
    · simp only at h ⊢
      split at h
      · cases h
      rename_i a ha
      obtain ⟨b, hb, rfl⟩ := Option.map_eq_some_iff.1 h
      obtain ⟨R1, R2⟩ := hR
      rw [← map_snd_append anc ⟨anc.map Prod.snd, g⟩] at ha hb R1 R2
      have hTn : T.subAt ((anc ++ [((⟨anc.map Prod.snd, g⟩ : PlaneRef), false)]).map Prod.snd) = some a.1 := by
        rw [map_snd_append, subAt_append, hT]; simp [Node.subAt]
      have hTp : T.subAt ((anc ++ [((⟨anc.map Prod.snd, g⟩ : PlaneRef), true)]).map Prod.snd) = some b.1 := by
        rw [map_snd_append, subAt_append, hT]; simp [Node.subAt]
      obtain ⟨u1, e1, q1⟩ := ihn ht.2.2.2.2.1 s3 R1 ha hTn
      obtain ⟨u2, e2, q2⟩ := ihp ht.2.2.2.2.2 s4 R2 hb hTp
      rw [map_snd_append] at e1 e2
      rw [e1]
      simp only
      rw [e2]
      exact ⟨_, rfl, .refl _, rfl, q1, q2⟩
    · exact absurd (by rw [s1]; rfl) hc

end Walnut.Bsp
