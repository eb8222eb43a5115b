/- All facets, and the points that are read at the end. -/
import Verif.Repair.MeshProof

namespace Walnut.Repair
open Walnut Walnut.Geom Walnut.Props

/-! ### Each piece has at least three vertices -/

theorem filterLoop_len : ∀ (l : List (Bool × HP3)) (need au : Nat) (out : List HP3), Builder.filterLoop need au l = some out → need ≤ l.length := by
  intro l
  induction l with
  | nil =>
    intro need au out h
    cases need with
    | zero => simp
    | succ n => simp [Builder.filterLoop] at h
  | cons x r ih =>
    intro need au out h
    obtain ⟨f, w⟩ := x
    cases need with
    | zero => simp
    | succ n =>
      cases f with
      | true =>
        simp only [Builder.filterLoop, Option.bind_eq_bind, Option.bind_eq_some_iff] at h
        obtain ⟨q, hq, -⟩ := h
        have := ih _ _ _ hq
        simp; omega
      | false =>
        cases au with
        | zero =>
          simp only [Builder.filterLoop] at h
          have := ih _ _ _ h
          simp; omega
        | succ au =>
          simp only [Builder.filterLoop, Option.bind_eq_bind, Option.bind_eq_some_iff] at h
          obtain ⟨q, hq, -⟩ := h
          have := ih _ _ _ hq
          simp; omega

theorem build_len {b : Builder} {p : HS3} (h : b.buildFromInfo = some p) : 3 ≤ b.info.length := by
  unfold Builder.buildFromInfo at h
  simp only [Option.bind_eq_bind, Option.bind_eq_some_iff] at h
  obtain ⟨out, ho, -⟩ := h
  exact filterLoop_len _ _ _ _ ho

theorem set_len_inv (st : List VInfo) : Inv st (fun _ => True) (fun b => b.planeSet = true → 3 ≤ b.info.length) where
  free b i v _ _ h := by
    show (b.addUnconstrained v.point).planeSet = true → _
    unfold Builder.addUnconstrained
    split
    · intro hs; have := h hs; simp; omega
    · exact h
  fixed b b' i v r _ _ h hl := by
    rcases Builder.tryAdd_cases hl with ⟨-, -, t2, -, ⟨-, t5, p, hp, t6⟩ | ⟨-, t5, t6⟩⟩ | ⟨-, rfl, -⟩
    · exact fun _ => build_len t6
    · intro hs; rw [t5] at hs; have := h hs; rw [t2]; simp; omega
    · exact h
  large b b' r h hl := by
    rcases Builder.large_cases hl with ⟨-, rfl, -⟩ | ⟨t, t1, -⟩
    · exact h
    · intro _; rw [t1]; exact t

theorem Stop.info {st : List VInfo} {b b' : Builder} {i : Nat} {r : Bool} (h : Stop st b i b' r) : b'.info = b.info ∧ b'.constrainedCount = b.constrainedCount := by
  cases h with
  | large hv hc hl =>
    rcases Builder.large_cases hl with ⟨-, rfl, -⟩ | ⟨-, h1, h2, -⟩
    · exact ⟨rfl, rfl⟩
    · exact ⟨h1, h2⟩
  | reject hv hc hl =>
    rcases Builder.tryAdd_cases hl with ⟨-, h, -⟩ | ⟨-, rfl, -⟩
    · cases h
    · exact ⟨rfl, rfl⟩

theorem nextRange_three {st : List VInfo} {range acc rest e : List Nat} {p : HS3} (h : nextRange st range = some (p, acc, rest, e)) :
    3 ≤ acc.length + e.length := by
  obtain ⟨i, e', b1, b, rfl, -, h1, h2, hp⟩ := nextRange_spec h
  have hinv := h2.inv (set_len_inv st) (by simp) (h1.inv (set_len_inv st) (by simp) (by simp))
  have h3 : 3 ≤ b.info.length := by
    unfold Builder.build at hp
    by_cases hs : b.planeSet = true
    · exact hinv hs
    · rw [if_neg hs] at hp; exact build_len hp
  obtain ⟨s1, s2⟩ := h1.sized (by simp [Sized])
  have : b.info.length ≤ b1.info.length + e'.length := by
    cases h2 with
    | all => simp
    | large h => rw [h.info.1]; simp
    | reject t1 tr t2 tj t3 =>
      rw [t3.info.1]
      have := (t2.sized (by unfold Sized at s1 ⊢; rw [t1.info.1, t1.info.2]; exact s1)).2
      rwa [t1.info.1] at this
  simp at s2 ⊢
  omega

theorem Finish.three {s s' : Repairer} {range : List Nat} {ps : List (HS3 × List Nat × List Nat)} (h : Finish s range ps s') :
    ∀ x ∈ ps, 3 ≤ (x.2.1 ++ x.2.2).length := by
  induction h with
  | last h => simpa using nextRange_three h.next
  | more h hr hx hy h' ih =>
    intro z hz
    rcases List.mem_cons.1 hz with rfl | hz
    · simpa using nextRange_three h.next
    · exact ih z hz

/-! ### All facets -/

inductive Facets : Repairer → List (List HP3) → List (List (HS3 × List Nat × List Nat)) → Repairer → Prop
  | nil (s : Repairer) : Facets s [] [] s
  | cons {s s1 s2 s' : Repairer} {f : List HP3} {l : List Nat} {r : List (List HP3)} {ps : List (HS3 × List Nat × List Nat)}
    {pss : List (List (HS3 × List Nat × List Nat))} (h1 : addVertices s f = some (s1, l)) (h2 : Finish s1 l ps s2)
    (h3 : Facets s2 r pss s') : Facets s (f :: r) (ps :: pss) s'

theorem addFacets_spec : ∀ (fs : List (List HP3)) {s s' : Repairer}, addFacets s fs = some s' → ∃ pss, Facets s fs pss s' := by
  intro fs
  induction fs with
  | nil => intro s s' h; simp [addFacets] at h; subst h; exact ⟨_, .nil s⟩
  | cons f r ih =>
    intro s s' h
    simp only [addFacets, Option.bind_eq_bind, Option.bind_eq_some_iff] at h
    obtain ⟨s2, h1, h⟩ := h
    unfold addFacet at h1
    simp only [Option.bind_eq_bind, Option.bind_eq_some_iff] at h1
    obtain ⟨⟨s1, l⟩, h1, h2⟩ := h1
    obtain ⟨ps, hps⟩ := finishLoop_spec _ h2
    obtain ⟨pss, hpss⟩ := ih h
    exact ⟨_, .cons h1 hps hpss⟩

theorem getElem_prefix {α : Type} {a b : List α} {l : List Nat} {f : List α} (h : l.map (fun i => a[i]?) = f.map some) :
    l.map (fun i => (a ++ b)[i]?) = f.map some := by
  rw [← h]
  apply List.map_congr_left
  intro i hi
  have : a[i]? ∈ f.map some := by rw [← h]; exact List.mem_map_of_mem hi
  obtain ⟨x, -, hx⟩ := List.mem_map.1 this
  rw [List.getElem?_append_left (List.getElem?_eq_some_iff.1 hx.symm).1]

/-- The structure of the result. -/
theorem Facets.fan {s s' : Repairer} {fs : List (List HP3)} {pss : List (List (HS3 × List Nat × List Nat))} (h : Facets s fs pss s') :
    ∀ {orig : List Q3} {polys : List (HS3 × List Nat)}, Keyed s.map orig → s.storage.length = orig.length → View s polys →
    (∀ f ∈ fs, ∀ v ∈ f, v.w ≠ 0) →
    ∃ orig', Keyed s'.map (orig ++ orig') ∧ s'.storage.length = (orig ++ orig').length ∧
      View s' (polys ++ (pss.map written).flatten) ∧
      List.Forall₂ (fun f ps => (∃ l : List Nat, l.map (fun i => (orig ++ orig')[i]?) = (f.map HP3.pt).map some ∧ Fan l (pieces ps)) ∧
        (f.length ≤ 4 → ∀ x ∈ ps, x.2.2.length = 1) ∧ ∀ x ∈ ps, 3 ≤ (x.2.1 ++ x.2.2).length) fs pss ∧
      ∀ j, s.storage.length ≤ j → j < s'.storage.length → ∃ x ∈ (pss.map written).flatten, j ∈ x.2 := by
  induction h with
  | nil s =>
    intro orig polys hk hl hv hw
    exact ⟨[], by simpa using hk, by simpa using hl, by simpa using hv, .nil, fun j h1 h2 => by omega⟩
  | @cons s s1 s2 s' f l r ps pss h1 h2 h3 ih =>
    intro orig polys hk hl hv hw
    obtain ⟨new, o1, a1, a2, a3, a4, a5, a6, a7, a8, a9⟩ := addVertices_spec f hk hl (hw f (by simp)) h1
    obtain ⟨b1, b2, b3, b4⟩ := h2.fan
    have hv1 : View s1 polys := ⟨by rw [a5]; exact hv.vertices, by rw [a6]; exact hv.polygons⟩
    have hv2 := b4 polys hv1
    obtain ⟨o2, c1, c2, c3, c4, c5⟩ := ih (orig := orig ++ o1) (by rw [b2]; exact a2) (by rw [b3]; exact a3) hv2
      (fun f hf => hw f (by simp [hf]))
    have a4' : l.map (fun i => (orig ++ o1)[i]?) = (f.map HP3.pt).map some := by rw [a4]; simp
    have hlen : l.length = f.length := by simpa using congrArg List.length a4'
    refine ⟨o1 ++ o2, by rw [← List.append_assoc]; exact c1, by rw [← List.append_assoc]; exact c2, ?_, ?_, ?_⟩
    · simpa using c3
    · rw [← List.append_assoc]
      exact .cons ⟨⟨l, getElem_prefix a4', b1⟩, fun h4 => h2.one (by omega), h2.three⟩ c4
    · intro j hj1 hj2
      by_cases hj : j < s2.storage.length
      · have hjl := a8 j hj1 (by omega)
        obtain ⟨p, hp, hjp⟩ := b1.mem.1 j hjl
        obtain ⟨x, hx, rfl⟩ := List.mem_map.1 hp
        refine ⟨(x.1, x.2.1 ++ x.2.2), ?_, by simpa using hjp⟩
        simp only [List.map_cons, List.flatten_cons, List.mem_append]
        left
        exact List.mem_map_of_mem (f := fun (x : HS3 × List Nat × List Nat) => (x.1, x.2.1 ++ x.2.2)) hx
      · obtain ⟨x, hx, hjx⟩ := c5 j (by omega) hj2
        exact ⟨x, by simp only [List.map_cons, List.flatten_cons, List.mem_append]; exact Or.inr hx, hjx⟩

theorem ok_new {w : VInfo} (h1 : w.adjacent = []) (h2 : w.point.w ≠ 0) : w.Ok :=
  ⟨by simp [h1], fun _ => h2, by simp [h1], by simp [h1]⟩

/-- Planarity of facets with at most four vertices. -/
theorem Facets.cov {s s' : Repairer} {fs : List (List HP3)} {pss : List (List (HS3 × List Nat × List Nat))} (h : Facets s fs pss s') :
    ∀ {orig : List Q3}, Keyed s.map orig → s.storage.length = orig.length →
    (∀ f ∈ fs, ∀ v ∈ f, v.w ≠ 0) → (∀ v ∈ s.storage, v.Ok) → (∀ v ∈ s'.storage, v.point.w ≠ 0) →
    Later s.storage s'.storage ∧ (∀ x ∈ (pss.map written).flatten, x.1.n ≠ ⟨0, 0, 0⟩) ∧
      ((∀ f ∈ fs, f.length ≤ 4) → ∀ x ∈ (pss.map written).flatten, CovAll s'.storage x.1 x.2) := by
  -- backwards: points that are finite at the end are finite before
  have hback : ∀ {s s' : Repairer} {fs : List (List HP3)} {pss : List (List (HS3 × List Nat × List Nat))}, Facets s fs pss s' →
      ∀ {orig : List Q3}, Keyed s.map orig → s.storage.length = orig.length → (∀ f ∈ fs, ∀ v ∈ f, v.w ≠ 0) → FreeFin s.storage →
      (∀ v ∈ s'.storage, v.point.w ≠ 0) → ∀ v ∈ s.storage, v.point.w ≠ 0 := by
    intro s s' fs pss h
    induction h with
    | nil s => intro orig _ _ _ _ h; exact h
    | @cons s s1 s2 s' f l r ps pss h1 h2 h3 ih =>
      intro orig hk hl hw hff hfin
      obtain ⟨new, o1, a1, a2, a3, a4, a5, a6, a7, a8, a9⟩ := addVertices_spec f hk hl (hw f (by simp)) h1
      have hff1 : FreeFin s1.storage := by
        rw [a1]; intro v hv
        rcases List.mem_append.1 hv with hv | hv
        · exact hff v hv
        · exact ⟨by simp [(a7 v hv).1], fun _ => (a7 v hv).2.1⟩
      obtain ⟨f1, f2⟩ := h2.fin hff1
      obtain ⟨b1, b2, b3, b4⟩ := h2.fan
      have := f2 (ih (by rw [b2]; exact a2) (by rw [b3]; exact a3) (fun f hf => hw f (by simp [hf])) f1 hfin)
      intro v hv
      exact this v (by rw [a1]; simp [hv])
  induction h with
  | nil s =>
    intro orig hk hl hw hok hfin
    exact ⟨.refl hok, by simp, by simp⟩
  | @cons s s1 s2 s' f l r ps pss h1 h2 h3 ih =>
    intro orig hk hl hw hok hfin
    obtain ⟨new, o1, a1, a2, a3, a4, a5, a6, a7, a8, a9⟩ := addVertices_spec f hk hl (hw f (by simp)) h1
    obtain ⟨b1, b2, b3, b4⟩ := h2.fan
    have hok1 : ∀ v ∈ s1.storage, v.Ok := by
      rw [a1]; intro v hv
      rcases List.mem_append.1 hv with hv | hv
      · exact hok v hv
      · exact ok_new (a7 v hv).1 (a7 v hv).2.1
    have hk2 : Keyed s2.map (orig ++ o1) := by rw [b2]; exact a2
    have hl2 : s2.storage.length = (orig ++ o1).length := by rw [b3]; exact a3
    have hw2 : ∀ f ∈ r, ∀ v ∈ f, v.w ≠ 0 := fun f hf => hw f (by simp [hf])
    have hfin2 := hback h3 hk2 hl2 hw2 (h2.fin (ok_freeFin hok1)).1 hfin
    obtain ⟨c1, c2, c3⟩ := h2.cov hok1 hfin2
    obtain ⟨d1, d2, d3⟩ := ih hk2 hl2 hw2 c2.ok hfin
    have h01 : Later s.storage s1.storage := by
      refine ⟨by rw [a1]; simp, hok1, fun i v hv => ⟨v, ?_, .refl (hok v (List.mem_of_getElem? hv))⟩⟩
      rw [a1, List.getElem?_append_left (List.getElem?_eq_some_iff.1 hv).1]; exact hv
    have hlen : l.length = f.length := by simpa using congrArg List.length a4
    refine ⟨(h01.trans c2).trans d1, ?_, ?_⟩
    · intro x hx
      simp only [List.map_cons, List.flatten_cons, List.mem_append] at hx
      rcases hx with hx | hx
      · obtain ⟨y, hy, rfl⟩ := List.mem_map.1 hx
        exact c1 y hy
      · exact d2 x hx
    · intro h4 x hx
      simp only [List.map_cons, List.flatten_cons, List.mem_append] at hx
      rcases hx with hx | hx
      · obtain ⟨y, hy, rfl⟩ := List.mem_map.1 hx
        exact d1.covAll (c3 (by rw [hlen]; exact h4 f (by simp)) y hy)
      · exact d3 (fun f hf => h4 f (by simp [hf])) x hx

/-- A facet is planar. -/
def PlanarFacet (f : List HP3) : Prop := ∃ H : HS3, H.n ≠ ⟨0, 0, 0⟩ ∧ ∀ v ∈ f, H.side v.pt = 0

/-- Planar facets do not move the vertices. -/
theorem Facets.still {s s' : Repairer} {fs : List (List HP3)} {pss : List (List (HS3 × List Nat × List Nat))} (h : Facets s fs pss s') :
    ∀ {orig : List Q3}, Keyed s.map orig → s.storage.length = orig.length →
    (∀ f ∈ fs, ∀ v ∈ f, v.w ≠ 0) → (∀ f ∈ fs, PlanarFacet f) → (∀ v ∈ s.storage, v.Still) →
    s.storage.map (fun v => v.point.pt) = orig →
    (∀ v ∈ s'.storage, v.Still) ∧ ∃ orig', Keyed s'.map (orig ++ orig') ∧ s'.storage.map (fun v => v.point.pt) = orig ++ orig' ∧
      ∀ x ∈ (pss.map written).flatten, ∀ i ∈ x.2, ∀ q, (orig ++ orig')[i]? = some q → x.1.side q = 0 := by
  induction h with
  | nil s =>
    intro orig hk hl hw hpl hs ho
    exact ⟨hs, [], by simpa using hk, by simpa using ho, by simp⟩
  | @cons s s1 s2 s' f l r ps pss h1 h2 h3 ih =>
    intro orig hk hl hw hpl hs ho
    obtain ⟨new, o1, a1, a2, a3, a4, a5, a6, a7, a8, a9⟩ := addVertices_spec f hk hl (hw f (by simp)) h1
    obtain ⟨b1, b2, b3, b4⟩ := h2.fan
    obtain ⟨H, hH, hin⟩ := hpl f (by simp)
    have hs1 : ∀ v ∈ s1.storage, v.Still := by
      rw [a1]; intro v hv
      rcases List.mem_append.1 hv with hv | hv
      · exact hs v hv
      · exact ⟨(a7 v hv).2.1, by simp [(a7 v hv).1]⟩
    have ho1 : s1.storage.map (fun v => v.point.pt) = orig ++ o1 := by
      apply List.ext_getElem?
      intro i
      by_cases hi : i < s1.storage.length
      · rw [List.getElem?_map, List.getElem?_eq_getElem hi, Option.map_some]
        by_cases hi' : i < s.storage.length
        · rw [List.getElem?_append_left (by omega), ← ho, List.getElem?_map, List.getElem?_eq_getElem hi', Option.map_some]
          congr 3
          simp only [a1]; rw [List.getElem_append_left hi']
        · have hn : i - s.storage.length < new.length := by rw [a1] at hi; simp at hi; omega
          have := a9 (i - s.storage.length) new[i - s.storage.length] (List.getElem?_eq_getElem hn)
          rw [show s.storage.length + (i - s.storage.length) = i by omega] at this
          rw [this]
          congr 3
          simp only [a1]; rw [List.getElem_append_right (by omega)]
      · rw [List.getElem?_eq_none (by simpa using hi), List.getElem?_eq_none (by omega)]
    have hin1 : ∀ i ∈ l, ∀ v, s1.storage[i]? = some v → H.side v.point.pt = 0 := by
      intro i hi v hv
      have h1 : (orig ++ o1)[i]? = some v.point.pt := by rw [← ho1, List.getElem?_map, hv]; rfl
      have h2 : (orig ++ o1)[i]? ∈ f.map (fun v => some v.pt) := by rw [← a4]; exact List.mem_map_of_mem (f := fun i => (orig ++ o1)[i]?) hi
      obtain ⟨u, hu, he⟩ := List.mem_map.1 h2
      rw [h1] at he; simp only [Option.some.injEq] at he
      rw [← he]; exact hin u hu
    obtain ⟨c1, c2, c3⟩ := h2.still hs1 hH hin1
    have ho2 : s2.storage.map (fun v => v.point.pt) = orig ++ o1 := by
      rw [← ho1]
      have := congrArg (List.map HP3.pt) c2
      simpa [List.map_map, Function.comp_def] using this
    obtain ⟨d1, o2, d2, d3, d4⟩ := ih (orig := orig ++ o1) (by rw [b2]; exact a2) (by rw [b3]; exact a3)
      (fun f hf => hw f (by simp [hf])) (fun f hf => hpl f (by simp [hf])) c1 ho2
    refine ⟨d1, o1 ++ o2, by rw [← List.append_assoc]; exact d2, by rw [← List.append_assoc]; exact d3, ?_⟩
    rw [← List.append_assoc]
    intro x hx i hi q hq
    simp only [List.map_cons, List.flatten_cons, List.mem_append] at hx
    rcases hx with hx | hx
    · obtain ⟨y, hy, rfl⟩ := List.mem_map.1 hx
      have hil : i ∈ l := b1.mem.2 (y.2.1, y.2.2.reverse) (List.mem_map_of_mem (f := fun (x : HS3 × List Nat × List Nat) => (x.2.1, x.2.2.reverse)) hy) i (by simpa using hi)
      have h2 : (orig ++ o1)[i]? ∈ f.map (fun v => some v.pt) := by rw [← a4]; exact List.mem_map_of_mem (f := fun i => (orig ++ o1)[i]?) hil
      obtain ⟨u, hu, he⟩ := List.mem_map.1 h2
      rw [List.getElem?_append_left (List.getElem?_eq_some_iff.1 he.symm).1, ← he] at hq
      simp only [Option.some.injEq] at hq
      rw [← hq]
      exact c3 y hy _ (hin u hu)
    · exact d4 x hx i hi q hq

end Walnut.Repair
