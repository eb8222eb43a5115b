/-
Where the plane partitioner works: in the plane of its face.
-/
import Verif.Bsp.PartitionRun
import Verif.Bsp.WindCorner

namespace Walnut.Bsp
open Walnut.Geom Walnut.Poly Walnut.Props

/-- The planes of the partitioner cross the plane of the face, and what it emits lies in it. -/
def InFace (h : HS3) (tr : List Visit) : Prop :=
  (∀ g ∈ entered tr, ¬ Through g h) ∧ ∀ y ∈ accepted tr, ∀ q ∈ y.poly.region, h.side q = 0

theorem FaceOK.region {anc : Anc} {h : HS3} {drop : Fin 3} {l : List BPoly} (hf : FaceOK anc h drop l) {p : BPoly} (hp : p ∈ l) {q : Q3} (hq : q ∈ p.poly.region) :
    h.side q = 0 := by
  rw [← (hf p hp).2.1 q]
  have := region_onPlane (hf p hp).1.convex hq
  unfold HS3.side
  linarith

theorem inFace_leaf {v : IsInside} (hv : Lawful v) {anc : Anc} {h : HS3} {drop : Fin 3} {posNormal : Bool} {c : List Info} {l : List BPoly}
    (hf : FaceOK anc h drop l) {r : List Visit × List Info} (hr : processLeaf v drop posNormal l (v c).1 c = some r) : InFace h r.1 := by
  unfold processLeaf at hr
  obtain ⟨r', hr', rfl⟩ := Option.map_eq_some_iff.1 hr
  obtain ⟨i1, i2, i3, i4, i5⟩ := (peel_spec hv (rfl : c.length = c.length) _ rfl).1 r' hr'
  have i3' : entered (Visit.leaf :: r'.1) = [] := i3
  exact ⟨fun g hg => absurd hg (by rw [i3']; simp), fun y hy q hq => hf.region (i2 y hy) hq⟩

theorem inFace_inner {h : HS3} {ref : PlaneRef} (hn : ¬ Through ref.plane h) {r s : List Visit} (hr : InFace h r) (hs : InFace h s) :
    InFace h (.enter true ref :: (r ++ (s ++ [.leave true ref]))) := by
  have he : entered (.enter true ref :: (r ++ (s ++ [.leave true ref]))) = ref.plane :: (entered r ++ entered s) := by
    simp [entered, entered_append]
  have ha : accepted (.enter true ref :: (r ++ (s ++ [.leave true ref]))) = accepted r ++ accepted s := by
    simp [accepted, accepted_append]
  unfold InFace
  rw [he, ha]
  refine ⟨fun g hg => ?_, fun y hy => ?_⟩
  · rcases List.mem_cons.1 hg with rfl | hg
    · exact hn
    · exact (List.mem_append.1 hg).elim (hr.1 g) (hs.1 g)
  · exact (List.mem_append.1 hy).elim (hr.2 y) (hs.2 y)

theorem inFace_nil (h : HS3) : InFace h [] := ⟨by simp [entered], by simp [accepted]⟩

theorem FaceOK.crosses {anc : Anc} {h : HS3} {drop : Fin 3} {l : List BPoly} (hf : FaceOK anc h drop l) {p : BPoly} (hp : p ∈ l) {i : ℕ} {e : Edge EdgeInfo}
    (hi : p.poly.edges[i]? = some e) : ¬ Through (splitPlane e drop) h := fun ht =>
  (splitPlane_spec (hf p hp).1.convex (hf p hp).2.2 hi).2 fun q hq => ht q (((hf p hp).2.1 q).1 hq)

theorem partitionVec_face {v : IsInside} (hv : Lawful v) {h : HS3} {drop : Fin 3} {posNormal : Bool} {init : List Info} (fuel : Nat) :
    ∀ {anc : Anc} {path : List Bool} {l : List BPoly} {c : List Info}, FaceOK anc h drop l →
    ∀ r, partitionVec v drop posNormal init fuel path l c = some r → InFace h r.1 := by
  induction fuel with
  | zero => intro anc path l c _ r hr; simp [partitionVec] at hr
  | succ fuel ih =>
    intro anc path l c hf r hr
    unfold partitionVec at hr
    split_ifs at hr with hp
    · rw [← Option.some.inj hr]; exact inFace_nil h
    · obtain ⟨o, o1, o2, o3⟩ := searchMid_all l
      rw [o1] at hr
      cases o with
      | none =>
        simp only at hr
        cases hl : processLeaf v drop posNormal l (v c).1 c with
        | none => rw [hl] at hr; simp at hr
        | some r' =>
          rw [hl] at hr
          obtain ⟨c', _, rfl⟩ := Option.map_eq_some_iff.1 hr
          exact (inFace_leaf hv hf hl : InFace h r'.1)
      | some e =>
        simp only at hr
        obtain ⟨p, hp, hpe⟩ := o3 e rfl
        obtain ⟨i, hi, _⟩ := searchEdge_some hpe
        have hth := hf.through hp (splitPlane_spec (hf p hp).1.convex (hf p hp).2.2 hi).2
        split at hr
        · simp at hr
        · rename_i k hk
          have ho := (pushSides_spec (ref := ⟨path, splitPlane e drop⟩) hth).1 k hk
          split at hr
          · simp at hr
          · split at hr
            · simp at hr
            · rename_i r1 hr1
              split at hr
              · simp at hr
              · obtain ⟨r2, hr2, rfl⟩ := Option.map_eq_some_iff.1 hr
                exact inFace_inner (hf.crosses hp hi) (ih (hf.child ho.neg) _ hr1) (ih (hf.child ho.pos) _ hr2)

theorem partition_face {v : IsInside} (hv : Lawful v) {anc : Anc} {h : HS3} {drop : Fin 3} {posNormal : Bool} {init : List Info} {fuel : Nat}
    {path : List Bool} {l : List BPoly} (hf : FaceOK anc h drop l) {tr : List Visit}
    (hr : partition v drop posNormal init fuel path l = some tr) : InFace h tr := by
  unfold partition at hr
  split_ifs at hr with hm hp
  · rw [← Option.some.inj hr]; exact inFace_nil h
  · cases hs : searchFirst l with
    | none =>
      rw [hs] at hr
      obtain ⟨r, hr', rfl⟩ := Option.map_eq_some_iff.1 hr
      exact inFace_leaf hv hf hr'
    | some e =>
      rw [hs] at hr
      simp only at hr
      obtain ⟨p, hp, hpe⟩ := searchFirst_some hs
      obtain ⟨i, hi, _⟩ := searchEdge_some hpe
      have hth := hf.through hp (splitPlane_spec (hf p hp).1.convex (hf p hp).2.2 hi).2
      split at hr
      · simp at hr
      · rename_i k hk
        have ho := (pushSides_spec (ref := ⟨path, splitPlane e drop⟩) hth).1 k hk
        split at hr
        · simp at hr
        · split at hr
          · simp at hr
          · rename_i r1 hr1
            split at hr
            · simp at hr
            · obtain ⟨r2, hr2, rfl⟩ := Option.map_eq_some_iff.1 hr
              exact inFace_inner (hf.crosses hp hi) (partitionVec_face hv _ (hf.child ho.neg) _ hr1) (partitionVec_face hv _ (hf.child ho.pos) _ hr2)

end Walnut.Bsp
