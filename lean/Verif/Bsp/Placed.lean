/-
Where in the tree polygons are emitted: the planes above an emitted polygon are those of the
nodes that have been entered and not left.
-/
import Verif.Bsp.TraverseRun

namespace Walnut.Bsp
open Walnut.Geom Walnut.Poly Walnut.Props

/-- The calls that a visitor receives for the border polygons of a leaf below `base`, where
the partitioner has entered nodes down to `anc`.  Every accepted polygon lies in the plane of
a node above the leaf. -/
inductive Faces (base : Anc) : Anc → List Visit → Prop
  | nil {anc : Anc} : Faces base anc []
  | leaf {anc : Anc} {l : List Visit} : Faces base anc l → Faces base anc (.leaf :: l)
  | accept {anc : Anc} {p : BPoly} {l : List Visit} : BorderOK anc p → searchEdge p = none → (∃ a ∈ base, Through a.1.plane p.poly.plane) → Faces base anc l →
      Faces base anc (.accept p :: l)
  | node {anc : Anc} {r : PlaneRef} {a b m : List Visit} : r.path = anc.map Prod.snd → Faces base (anc ++ [(r, false)]) a →
      Faces base (anc ++ [(r, true)]) b → Faces base anc m → Faces base anc (.enter true r :: (a ++ (b ++ .leave true r :: m)))

/-- The calls that a visitor receives for the nodes below `anc`. -/
inductive Placed : Anc → List Visit → Prop
  | faces {anc : Anc} {l : List Visit} : Faces anc anc l → Placed anc l
  | node {anc : Anc} {r : PlaneRef} {a b : List Visit} : r.path = anc.map Prod.snd → Placed (anc ++ [(r, false)]) a →
      Placed (anc ++ [(r, true)]) b → Placed anc (.enter false r :: (a ++ (b ++ [.leave false r])))

theorem Faces.append {base anc : Anc} {a b : List Visit} (ha : Faces base anc a) (hb : Faces base anc b) : Faces base anc (a ++ b) := by
  induction ha with
  | nil => exact hb
  | leaf _ ih => exact (ih hb).leaf
  | accept h1 h2 h3 _ ih => exact .accept h1 h2 h3 (ih hb)
  | node hr h1 h2 _ _ _ ih =>
    have := Faces.node hr h1 h2 (ih hb)
    simpa using this

theorem Faces.bracket {base anc : Anc} {a b : List Visit} {r : PlaneRef} (hr : r.path = anc.map Prod.snd) (ha : Faces base (anc ++ [(r, false)]) a)
    (hb : Faces base (anc ++ [(r, true)]) b) : Faces base anc (.enter true r :: (a ++ (b ++ [.leave true r]))) := .node hr ha hb .nil

/-- The common plane is the plane of a node above the leaf. -/
theorem face_base {base anc : Anc} {h : HS3} {drop : Fin 3} {l : List BPoly} (hf : FaceOK anc h drop l) (hb : ∃ a ∈ base, Through a.1.plane h) :
    ∀ p ∈ l, ∃ a ∈ base, Through a.1.plane p.poly.plane := by
  intro p hp
  obtain ⟨a, ha, ht⟩ := hb
  exact ⟨a, ha, fun q hq => ht q (((hf p hp).2.1 q).1 hq)⟩

theorem peel_placed {v : IsInside} {drop : Fin 3} {posNormal : Bool} {base anc : Anc} {l : List BPoly} (hl : ∀ p ∈ l, BorderOK anc p ∧ searchEdge p = none ∧ ∃ a ∈ base, Through a.1.plane p.poly.plane) {inner : Bool}
    {c : List Info} {r : List Visit × List Info} (h : peel v drop posNormal l inner c = some r) : Faces base anc r.1 := by
  induction l generalizing inner c r with
  | nil => rw [← Option.some.inj h]; exact .nil
  | cons p l ih =>
    unfold peel at h
    split_ifs at h
    split at h
    · simp at h
    · obtain ⟨r', hr', rfl⟩ := Option.map_eq_some_iff.1 h
      have := ih (fun x hx => hl x (by simp [hx])) hr'
      simp only
      split_ifs
      · exact .accept (hl p (by simp)).1 (hl p (by simp)).2.1 (hl p (by simp)).2.2 this
      · exact this

theorem processLeaf_placed {v : IsInside} {drop : Fin 3} {posNormal : Bool} {base anc : Anc} {l : List BPoly} (hl : ∀ p ∈ l, BorderOK anc p ∧ searchEdge p = none ∧ ∃ a ∈ base, Through a.1.plane p.poly.plane) {inner : Bool}
    {c : List Info} {r : List Visit × List Info} (h : processLeaf v drop posNormal l inner c = some r) : Faces base anc r.1 := by
  unfold processLeaf at h
  obtain ⟨r', hr', rfl⟩ := Option.map_eq_some_iff.1 h
  exact (peel_placed hl hr').leaf

theorem partitionVec_placed {v : IsInside} {h : HS3} {drop : Fin 3} {posNormal : Bool} {init : List Info} {base : Anc} (hbase : ∃ a ∈ base, Through a.1.plane h) (fuel : Nat) :
    ∀ {anc : Anc} {l : List BPoly} {c : List Info}, FaceOK anc h drop l →
    ∀ r, partitionVec v drop posNormal init fuel (anc.map Prod.snd) l c = some r → Faces base anc r.1 := by
  induction fuel with
  | zero => intro anc l c _ r hr; simp [partitionVec] at hr
  | succ fuel ih =>
    intro anc l c hf r hr
    unfold partitionVec at hr
    split_ifs at hr with hp
    · rw [← Option.some.inj hr]; exact .nil
    · obtain ⟨o, o1, o2, o3⟩ := searchMid_all l
      rw [o1] at hr
      cases o with
      | none =>
        simp only at hr
        cases hl : processLeaf v drop posNormal l (v c).1 c with
        | none => rw [hl] at hr; simp at hr
        | some r' =>
          rw [hl] at hr
          obtain ⟨_, _, rfl⟩ := Option.map_eq_some_iff.1 hr
          have := processLeaf_placed (fun p hp => ⟨(hf p hp).1, o2 rfl p hp, face_base hf hbase p hp⟩) hl
          exact this
      | some e =>
        simp only at hr
        obtain ⟨p, hp, hpe⟩ := o3 e rfl
        obtain ⟨i, hi, _⟩ := searchEdge_some hpe
        obtain ⟨s1, s2⟩ := splitPlane_spec (hf p hp).1.convex (hf p hp).2.2 hi
        have hth := hf.through hp s2
        cases hk : pushSides ⟨anc.map Prod.snd, splitPlane e drop⟩ l with
        | none => rw [hk] at hr; simp at hr
        | some k =>
          have ho := (pushSides_spec (ref := ⟨anc.map Prod.snd, splitPlane e drop⟩) hth).1 k hk
          rw [hk] at hr
          simp only at hr
          cases hc1 : setPolygons k.1 c with
          | none => rw [hc1] at hr; simp at hr
          | some c1 =>
            rw [hc1] at hr
            simp only at hr
            cases hr1 : partitionVec v drop posNormal init fuel (anc.map Prod.snd ++ [false]) k.1 c1 with
            | none => rw [hr1] at hr; simp at hr
            | some r1 =>
              rw [hr1] at hr
              simp only at hr
              cases hc2 : setPolygons k.2 r1.2 with
              | none => rw [hc2] at hr; simp at hr
              | some c2 =>
                rw [hc2] at hr
                simp only at hr
                obtain ⟨r2, hr2, rfl⟩ := Option.map_eq_some_iff.1 hr
                exact .bracket rfl (ih (hf.child ho.neg) r1 (by rw [map_snd_append]; exact hr1)) (ih (hf.child ho.pos) r2 (by rw [map_snd_append]; exact hr2))

theorem partition_placed {v : IsInside} {base anc : Anc} {h : HS3} {drop : Fin 3} {posNormal : Bool} {init : List Info} {fuel : Nat}
    {l : List BPoly} (hbase : ∃ a ∈ base, Through a.1.plane h) (hf : FaceOK anc h drop l) {tr : List Visit}
    (hr : partition v drop posNormal init fuel (anc.map Prod.snd) l = some tr) : Faces base anc tr := by
  unfold partition at hr
  split_ifs at hr with hm hp
  · rw [← Option.some.inj hr]; exact .nil
  · cases hs : searchFirst l with
    | none =>
      rw [hs] at hr
      obtain ⟨r, hr', rfl⟩ := Option.map_eq_some_iff.1 hr
      exact processLeaf_placed (fun p hp => ⟨(hf p hp).1, searchFirst_none hs p hp, face_base hf hbase p hp⟩) hr'
    | some e =>
      rw [hs] at hr
      simp only at hr
      obtain ⟨p, hp, hpe⟩ := searchFirst_some hs
      obtain ⟨i, hi, _⟩ := searchEdge_some hpe
      obtain ⟨s1, s2⟩ := splitPlane_spec (hf p hp).1.convex (hf p hp).2.2 hi
      have hth := hf.through hp s2
      cases hk : pushSides ⟨anc.map Prod.snd, splitPlane e drop⟩ l with
      | none => rw [hk] at hr; simp at hr
      | some k =>
        have ho := (pushSides_spec (ref := ⟨anc.map Prod.snd, splitPlane e drop⟩) hth).1 k hk
        rw [hk] at hr
        simp only at hr
        cases hc1 : setPolygons k.1 init with
        | none => rw [hc1] at hr; simp at hr
        | some c1 =>
          rw [hc1] at hr
          simp only at hr
          cases hr1 : partitionVec v drop posNormal init fuel (anc.map Prod.snd ++ [false]) k.1 c1 with
          | none => rw [hr1] at hr; simp at hr
          | some r1 =>
            rw [hr1] at hr
            simp only at hr
            cases hc2 : setPolygons k.2 r1.2 with
            | none => rw [hc2] at hr; simp at hr
            | some c2 =>
              rw [hc2] at hr
              simp only at hr
              obtain ⟨r2, hr2, rfl⟩ := Option.map_eq_some_iff.1 hr
              exact .bracket rfl (partitionVec_placed hbase fuel (hf.child ho.neg) r1 (by rw [map_snd_append]; exact hr1))
                (partitionVec_placed hbase fuel (hf.child ho.pos) r2 (by rw [map_snd_append]; exact hr2))

theorem visitFaces_placed {v : IsInside} {anc : Anc} (hanc : AncOK anc) {info : List Info} {fuel : Nat}
    {ls : List (List BPoly)} (hb : ∀ l ∈ ls, SameKey l ∧ ∀ x ∈ l, BorderOK anc x) {tr : List Visit} (h : visitFaces v info fuel (anc.map Prod.snd) ls = some tr) :
    Faces anc anc tr := by
  induction ls generalizing tr with
  | nil => rw [← Option.some.inj h]; exact .nil
  | cons l ls ih =>
    unfold visitFaces at h
    split at h
    · simp at h
    · rename_i tr1 h1
      obtain ⟨tr2, h2, rfl⟩ := Option.map_eq_some_iff.1 h
      refine Faces.append ?_ (ih (fun x hx => hb x (by simp [hx])) h2)
      cases l with
      | nil => simp [processOnPlane] at h1
      | cons p l =>
        obtain ⟨h, hf, hs⟩ := face_ok hanc (hb (p :: l) (by simp)).2 (hb (p :: l) (by simp)).1
        obtain ⟨l', a, r, e, ht, _⟩ := ((hb (p :: l) (by simp)).2 p (by simp)).on
        exact partition_placed ⟨a, by rw [e]; simp, fun q hq => ht q (((hf p (by simp)).2.1 q).2 hq)⟩ hf h1

theorem runLeaf_placed {v : IsInside} {choose : Choose} {group : Group} (hg : Grouping group) {pfuel : Nat} (fuel : Nat) :
    ∀ {anc : Anc} {d : NodeData} {r : Node × List Visit}, AncOK anc → TreeOK anc (.leaf d) →
    runLeaf v choose group pfuel fuel (anc.map Prod.snd) d = some r → Placed anc r.2 := by
  induction fuel with
  | zero => intro anc d r _ _ h; simp [runLeaf] at h
  | succ fuel ih =>
    intro anc d r hanc ht h
    unfold runLeaf at h
    split_ifs at h with hp hc
    · rw [← Option.some.inj h]; exact .faces .nil
    · cases hs : split (anc.map Prod.snd) d (choose (anc.map Prod.snd) d) with
      | none => rw [hs] at h; simp at h
      | some t =>
        obtain ⟨d', n, p, rfl, rfl⟩ := split_shape hs
        rw [hs] at h
        simp only at h
        cases ha : runLeaf v choose group pfuel fuel (anc.map Prod.snd ++ [false]) n with
        | none => rw [ha] at h; simp at h
        | some a =>
          rw [ha] at h
          simp only at h
          obtain ⟨b, hb, rfl⟩ := Option.map_eq_some_iff.1 h
          obtain ⟨t1, t2, t3⟩ := split_ok ht hs
          have hgn := t1.2.2.2.1
          rw [← map_snd_append anc ⟨anc.map Prod.snd, choose (anc.map Prod.snd) d⟩] at ha hb
          have r1 := ih (hanc.append hgn _) t1.2.2.2.2.1 ha
          have r2 := ih (hanc.append hgn _) t1.2.2.2.2.2 hb
          exact .node rfl r1 r2
    · obtain ⟨tr, hr, rfl⟩ := Option.map_eq_some_iff.1 h
      unfold visitLeaf at hr
      split_ifs at hr
      exact .faces <| visitFaces_placed hanc (fun l hl => ⟨(hg.key _ _ l hl).2, fun x hx => ht.2.1 x (hg.mem hl hx)⟩) hr

theorem run_placed {v : IsInside} {choose : Choose} {group : Group} (hg : Grouping group) {pfuel fuel : Nat} :
    ∀ (t : Node) {anc : Anc} {r : Node × List Visit}, AncOK anc → TreeOK anc t → Settled t →
    run v choose group pfuel fuel t (anc.map Prod.snd) t.data = some r → Placed anc r.2 := by
  intro t
  induction t with
  | leaf d =>
    intro anc r hanc ht _ h
    unfold run at h
    split_ifs at h with hp
    · rw [← Option.some.inj h]; exact .faces .nil
    · exact runLeaf_placed hg fuel hanc ht h
  | inner d g n p ihn ihp =>
    intro anc r hanc ht hs h
    obtain ⟨s1, s2, s3, s4⟩ := hs
    have e : (Node.inner d g n p).data = d := rfl
    rw [e] at h
    unfold run at h
    by_cases hp : (v d.info).2 = true
    · have hc : d.contents.isEmpty = true := by rw [s1]; rfl
      rw [if_neg (by simp [hp])] at h
      simp only [hc, if_true] at h
      cases ha : run v choose group pfuel fuel n (anc.map Prod.snd ++ [false]) n.data with
      | none => simp only [ha] at h; simp at h
      | some a =>
        simp only [ha] at h
        obtain ⟨b, hb, rfl⟩ := Option.map_eq_some_iff.1 h
        have h1 := ihn (anc := anc ++ [(⟨anc.map Prod.snd, g⟩, false)]) (r := a) (hanc.append ht.2.2.2.1 _) ht.2.2.2.2.1 s3 (by rw [map_snd_append]; exact ha)
        have h2 := ihp (anc := anc ++ [(⟨anc.map Prod.snd, g⟩, true)]) (r := b) (hanc.append ht.2.2.2.1 _) ht.2.2.2.2.2 s4 (by rw [map_snd_append]; exact hb)
        exact .node rfl h1 h2
    · rw [if_pos (by simpa using hp)] at h
      rw [← Option.some.inj h]; exact .faces .nil

theorem Faces.accepted_ok {base anc : Anc} {tr : List Visit} (h : Faces base anc tr) :
    ∀ p ∈ accepted tr, ∃ m, BorderOK (anc ++ m) p ∧ searchEdge p = none ∧ ∃ a ∈ base, Through a.1.plane p.poly.plane := by
  induction h with
  | nil => simp [accepted]
  | leaf _ ih => exact ih
  | accept h1 h2 h3 _ ih =>
    intro p hp
    rcases List.mem_cons.1 hp with rfl | hp
    · exact ⟨[], by simpa using h1, h2, h3⟩
    · exact ih p hp
  | node _ _ _ _ ih1 ih2 ih3 =>
    intro p hp
    simp only [accepted, accepted_append, List.mem_append] at hp
    rcases hp with hp | hp | hp
    · obtain ⟨m, h1, h2⟩ := ih1 p hp
      exact ⟨_, by rw [List.append_assoc] at h1; exact h1, h2⟩
    · obtain ⟨m, h1, h2⟩ := ih2 p hp
      exact ⟨_, by rw [List.append_assoc] at h1; exact h1, h2⟩
    · exact ih3 p hp

theorem Placed.accepted_ok {anc : Anc} {tr : List Visit} (h : Placed anc tr) : ∀ p ∈ accepted tr, ∃ m, BorderOK (anc ++ m) p ∧ searchEdge p = none := by
  induction h with
  | faces h =>
    intro p hp
    obtain ⟨m, h1, h2, _⟩ := h.accepted_ok p hp
    exact ⟨m, h1, h2⟩
  | node _ _ _ ih1 ih2 =>
    intro p hp
    simp only [accepted, accepted_append, List.mem_append, List.append_nil] at hp
    rcases hp with hp | hp
    · obtain ⟨m, h1, h2⟩ := ih1 p hp
      exact ⟨_, by rw [List.append_assoc] at h1; exact h1, h2⟩
    · obtain ⟨m, h1, h2⟩ := ih2 p hp
      exact ⟨_, by rw [List.append_assoc] at h1; exact h1, h2⟩

end Walnut.Bsp
