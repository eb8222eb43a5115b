/- The mesh repairer as a whole. -/
import Verif.Repair.MapProof
import Verif.Repair.VertexProof
import Verif.Repair.MeshSpec

namespace Walnut.Repair
open Walnut Walnut.Geom Walnut.Props

theorem Fan.map {α β : Type} (g : α → β) {l : List α} {ps : List (List α × List α)} (h : Fan l ps) :
    Fan (l.map g) (ps.map fun p => (p.1.map g, p.2.map g)) := by
  induction h with
  | whole a e ha he => simpa using Fan.whole (a.map g) (e.map g) (by simpa using ha) (by simpa using he)
  | cut a x m y e ps hm h ih =>
    have := Fan.cut (a.map g) (g x) (m.map g) (g y) (e.map g) _ (by simpa using hm) (by simpa using ih)
    simpa using this

theorem Fan.mem {α : Type} {l : List α} {ps : List (List α × List α)} (h : Fan l ps) :
    (∀ x ∈ l, ∃ p ∈ ps, x ∈ p.1 ++ p.2) ∧ ∀ p ∈ ps, ∀ x ∈ p.1 ++ p.2, x ∈ l := by
  induction h with
  | whole a e ha he => simp
  | cut a x m y e ps hm h ih =>
    obtain ⟨i1, i2⟩ := ih
    constructor
    · intro z hz
      have hz : z ∈ a ∨ z = x ∨ z ∈ m ∨ z = y ∨ z ∈ e := by simpa using hz
      rcases hz with h | h | h | h | h
      · exact ⟨(a ++ [x], y :: e), by simp, by simp [h]⟩
      · exact ⟨(a ++ [x], y :: e), by simp, by simp [h]⟩
      · obtain ⟨p, hp, hm⟩ := i1 z (by simp [h])
        exact ⟨p, by simp [hp], hm⟩
      · exact ⟨(a ++ [x], y :: e), by simp, by simp [h]⟩
      · exact ⟨(a ++ [x], y :: e), by simp, by simp [h]⟩
    · intro p hp z hz
      rcases List.mem_cons.1 hp with rfl | hp
      · simp at hz ⊢; tauto
      · have := i2 p hp z hz
        simp at this ⊢; tauto

/-! ### The polygons that are read -/

/-- The polygons with the positions where they end. -/
def ends : Nat → List (HS3 × List Nat) → List (HS3 × Nat)
  | _, [] => []
  | n, (p, l) :: r => (p, n + l.length) :: ends (n + l.length) r

theorem ends_append : ∀ (a b : List (HS3 × List Nat)) (n : Nat), ends n (a ++ b) = ends n a ++ ends (n + ((a.map (·.2)).flatten).length) b := by
  intro a
  induction a with
  | nil => simp [ends]
  | cons x r ih =>
    intro b n
    obtain ⟨p, l⟩ := x
    simp only [List.cons_append, ends, ih, List.map_cons, List.flatten_cons, List.length_append, Nat.add_assoc]

/-- The polygons of a repairer. -/
structure View (s : Repairer) (polys : List (HS3 × List Nat)) : Prop where
  vertices : s.vertices = (polys.map (·.2)).flatten
  polygons : s.polygons = ends 0 polys

/-- The points of a polygon. -/
def points (st : List VInfo) (l : List Nat) : Option (List HP3) := l.mapM fun i => (st[i]?).map VInfo.point

theorem produce_spec (st : List VInfo) : ∀ (polys : List (HS3 × List Nat)) (pre : List Nat) (out : List (HS3 × List HP3)),
    produce st (pre ++ (polys.map (·.2)).flatten) pre.length (ends pre.length polys) = some out →
    List.Forall₂ (fun a b => a.1 = b.1 ∧ points st a.2 = some b.2) polys out := by
  intro polys
  induction polys with
  | nil => intro pre out h; simp [ends, produce] at h; subst h; exact .nil
  | cons x r ih =>
    intro pre out h
    obtain ⟨p, l⟩ := x
    simp only [ends, produce, List.map_cons, List.flatten_cons, Option.bind_eq_bind, Option.bind_eq_some_iff] at h
    obtain ⟨q, hq, o, ho, h⟩ := h
    simp at h; subst h
    refine .cons ⟨rfl, ?_⟩ (ih (pre ++ l) o ?_)
    · unfold points
      have : ((pre ++ (l ++ (r.map (·.2)).flatten)).drop pre.length).take (pre.length + l.length - pre.length) = l := by simp
      rw [this] at hq; exact hq
    · simpa [List.append_assoc] using ho

/-! ### One facet -/

theorem getLast_split {α : Type} {l : List α} {x : α} (h : l.getLast? = some x) : ∃ r, l = r ++ [x] := by
  rw [List.getLast?_eq_some_iff] at h
  exact h

theorem Round.split {s s' : Repairer} {range acc rest e : List Nat} {p : HS3} (h : Round s range p acc rest e s') :
    range = acc ++ rest ++ e.reverse ∧ e ≠ [] ∧ s'.storage.length = s.storage.length := by
  obtain ⟨i, e', b1, b, rfl, hr, -⟩ := nextRange_spec h.next
  exact ⟨hr, by simp, addAdjacent_length _ h.adj⟩

/-- The pieces of a facet. -/
def pieces (ps : List (HS3 × List Nat × List Nat)) : List (List Nat × List Nat) := ps.map fun x => (x.2.1, x.2.2.reverse)

/-- The polygons that are written for a facet. -/
def written (ps : List (HS3 × List Nat × List Nat)) : List (HS3 × List Nat) := ps.map fun x => (x.1, x.2.1 ++ x.2.2)

theorem Finish.fan {s s' : Repairer} {range : List Nat} {ps : List (HS3 × List Nat × List Nat)} (h : Finish s range ps s') :
    Fan range (pieces ps) ∧ s'.map = s.map ∧ s'.storage.length = s.storage.length ∧
    ∀ polys, View s polys → View s' (polys ++ written ps) := by
  have hview : ∀ {s s' : Repairer} {range acc rest e : List Nat} {p : HS3}, Round s range p acc rest e s' → ∀ polys, View s polys →
      View s' (polys ++ [(p, acc ++ e)]) := by
    intro s s' range acc rest e p h polys hv
    refine ⟨?_, ?_⟩
    · rw [h.vertices, hv.vertices]; simp
    · rw [h.polygons, hv.polygons, ends_append, h.vertices, hv.vertices]; simp [ends]
  induction h with
  | @last s s' range p acc e h =>
    obtain ⟨h1, h2, h3⟩ := h.split
    refine ⟨?_, h.map, h3, fun polys hv => by simpa [written] using hview h polys hv⟩
    have : Fan (acc ++ e.reverse) [(acc, e.reverse)] := .whole _ _ h.accNe (by simpa using h2)
    rw [h1]; simpa [pieces] using this
  | @more s s1 s' range p acc rest e x y ps h hr hx hy h' ih =>
    obtain ⟨i1, i2, i3, i4⟩ := ih
    obtain ⟨h1, h2, h3⟩ := h.split
    refine ⟨?_, i2.trans h.map, i3.trans h3, fun polys hv => ?_⟩
    · obtain ⟨a', rfl⟩ := getLast_split hx
      obtain ⟨e', rfl⟩ := getLast_split hy
      rw [h1]
      have := Fan.cut a' x rest y e'.reverse _ hr i1
      simpa [pieces] using this
    · have := i4 _ (hview h polys hv)
      simpa [written] using this

/-- Vertices with fewer than three planes are finite. -/
def FreeFin (st : List VInfo) : Prop := ∀ v ∈ st, v.adjacent.length ≤ 3 ∧ (v.adjacent.length < 3 → v.point.w ≠ 0)

theorem tryAdd_fin {v v' : VInfo} {p : HS3} (hv : v.adjacent.length ≤ 3 ∧ (v.adjacent.length < 3 → v.point.w ≠ 0))
    (h : v.tryAddAdjacent p = some v') :
    (v'.adjacent.length ≤ 3 ∧ (v'.adjacent.length < 3 → v'.point.w ≠ 0)) ∧ (v'.point.w ≠ 0 → v.point.w ≠ 0) := by
  unfold VInfo.tryAddAdjacent at h
  by_cases h3 : v.adjacent.length < 3
  · rw [if_pos h3] at h
    refine ⟨?_, fun _ => hv.2 h3⟩
    split at h
    · simp only [Option.some.injEq] at h; subst h; exact hv
    · simp only at h
      split at h
      · rename_i h33
        have h33 : (v.adjacent ++ [p]).length = 3 := h33
        rw [(VInfo.finalize_spec h).1]
        exact ⟨h33.le, fun hc => absurd hc (by show ¬ (v.adjacent ++ [p]).length < 3; omega)⟩
      · simp only [Option.some.injEq] at h; subst h
        exact ⟨by simp; omega, fun _ => hv.2 h3⟩
  · rw [if_neg h3] at h
    simp only [Option.some.injEq] at h; subst h
    exact ⟨hv, id⟩

theorem addAdjacent_fin {p : HS3} : ∀ (l : List Nat) {st st' : List VInfo}, FreeFin st → addAdjacent st p l = some st' →
    FreeFin st' ∧ ((∀ v ∈ st', v.point.w ≠ 0) → ∀ v ∈ st, v.point.w ≠ 0) := by
  intro l
  induction l with
  | nil => intro st st' hst h; simp [addAdjacent] at h; subst h; exact ⟨hst, id⟩
  | cons i r ih =>
    intro st st' hst h
    simp only [addAdjacent, Option.bind_eq_bind, Option.bind_eq_some_iff] at h
    obtain ⟨v, hv, v', hv', h⟩ := h
    have hlt : i < st.length := (List.getElem?_eq_some_iff.1 hv).1
    obtain ⟨t1, t2⟩ := tryAdd_fin (hst v (List.mem_of_getElem? hv)) hv'
    obtain ⟨i1, i2⟩ := ih (st := st.set i v') (by
      intro u hu
      rcases List.mem_or_eq_of_mem_set hu with h | rfl
      · exact hst u h
      · exact t1) h
    refine ⟨i1, fun hf u hu => ?_⟩
    have := i2 hf
    obtain ⟨j, hj⟩ := List.mem_iff_getElem?.1 hu
    by_cases hij : i = j
    · subst hij
      rw [hv] at hj; simp only [Option.some.injEq] at hj; subst hj
      exact t2 (this v' (List.mem_of_getElem? (i := i) (by simp [hlt])))
    · exact this u (List.mem_of_getElem? (i := j) (by rw [List.getElem?_set_ne hij]; exact hj))

theorem Finish.fin {s s' : Repairer} {range : List Nat} {ps : List (HS3 × List Nat × List Nat)} (h : Finish s range ps s')
    (hs : FreeFin s.storage) : FreeFin s'.storage ∧ ((∀ v ∈ s'.storage, v.point.w ≠ 0) → ∀ v ∈ s.storage, v.point.w ≠ 0) := by
  induction h with
  | last h => exact addAdjacent_fin _ hs h.adj
  | more h hr hx hy h' ih =>
    obtain ⟨i1, i2⟩ := addAdjacent_fin _ hs h.adj
    obtain ⟨j1, j2⟩ := ih i1
    exact ⟨j1, fun h => i2 (j2 h)⟩

theorem ok_freeFin {st : List VInfo} (h : ∀ v ∈ st, v.Ok) : FreeFin st := fun v hv => ⟨(h v hv).le, (h v hv).fin⟩

/-- The vertices of a facet with at most four vertices will be in the planes of its pieces. -/
theorem Finish.cov {s s' : Repairer} {range : List Nat} {ps : List (HS3 × List Nat × List Nat)} (h : Finish s range ps s')
    (hok : ∀ v ∈ s.storage, v.Ok) (hfin : ∀ v ∈ s'.storage, v.point.w ≠ 0) :
    (∀ x ∈ ps, x.1.n ≠ ⟨0, 0, 0⟩) ∧ Later s.storage s'.storage ∧
    (range.length ≤ 4 → ∀ x ∈ ps, CovAll s'.storage x.1 (x.2.1 ++ x.2.2)) := by
  have key : ∀ {s s' : Repairer} {range acc rest e : List Nat} {p : HS3}, Round s range p acc rest e s' → (∀ v ∈ s.storage, v.Ok) →
      (∀ v ∈ s'.storage, v.point.w ≠ 0) → p.n ≠ ⟨0, 0, 0⟩ ∧ Later s.storage s'.storage ∧ (range.length ≤ 4 →
        CovAll s'.storage p (acc ++ e)) := by
    intro s s' range acc rest e p h hok hfin
    have hw : ∀ i ∈ range, ∀ v, s.storage[i]? = some v → v.point.w ≠ 0 := fun i _ v hv =>
      (addAdjacent_fin _ (ok_freeFin hok) h.adj).2 hfin v (List.mem_of_getElem? hv)
    obtain ⟨hp, hpl⟩ := nextRange_plane h.next hw
    obtain ⟨l1, l2⟩ := addAdjacent_spec hp _ hok h.adj
    refine ⟨hp, l1, fun h4 => l2 hfin ?_⟩
    intro i hi v hv h3
    exact hpl h4 i hi v hv (by omega)
  induction h with
  | last h =>
    obtain ⟨k1, k2, k3⟩ := key h hok hfin
    exact ⟨by simpa using k1, k2, fun h4 => by simpa using k3 h4⟩
  | @more s s1 s' range p acc rest e x y ps h hr hx hy h' ih =>
    have hf1 := addAdjacent_fin _ (ok_freeFin hok) h.adj
    have hfin1 := (h'.fin hf1.1).2 hfin
    obtain ⟨k1, k2, k3⟩ := key h hok hfin1
    obtain ⟨i1, i2, i3⟩ := ih k2.ok hfin
    refine ⟨by simpa using ⟨k1, fun a b c hm => i1 _ hm⟩, k2.trans i2, ?_⟩
    intro h4
    have h2 := nextRange_progress h.next hr
    obtain ⟨hrange, he, -⟩ := h.split
    have hlen : (x :: rest ++ [y]).length ≤ 4 := by
      have : e.length ≠ 0 := by simpa using he
      rw [hrange] at h4
      simp at h4 ⊢; omega
    intro z hz
    rcases List.mem_cons.1 hz with rfl | hz
    · exact i2.covAll (k3 h4)
    · exact i3 hlen z hz

/-- One vertex is taken from the end if there are at most four. -/
theorem Finish.one {s s' : Repairer} {range : List Nat} {ps : List (HS3 × List Nat × List Nat)} (h : Finish s range ps s')
    (h4 : range.length ≤ 4) : ∀ x ∈ ps, x.2.2.length = 1 := by
  have key : ∀ {s s' : Repairer} {range acc rest e : List Nat} {p : HS3}, Round s range p acc rest e s' → range.length ≤ 4 →
      e.length = 1 ∧ (rest ≠ [] → 2 ≤ acc.length) := by
    intro s s' range acc rest e p h h4
    have hpr := nextRange_progress h.next
    refine ⟨?_, hpr⟩
    obtain ⟨i, e', b1, b, rfl, hr, h1, h2, -⟩ := nextRange_spec h.next
    rcases h2 with _ | h2 | ⟨t1, tr, t2, tj, t3⟩
    · rfl
    · rfl
    · have hne : rest ≠ [] := by rintro rfl; simp at tj
      have := hpr hne
      have : rest.length ≠ 0 := by simpa using hne
      rw [hr] at h4
      simp only [List.length_append, List.length_reverse, List.length_cons] at h4 ⊢
      omega
  induction h with
  | last h => simpa using (key h h4).1
  | @more s s1 s' range p acc rest e x y ps h hr hx hy h' ih =>
    obtain ⟨k1, k2⟩ := key h h4
    have k2 := k2 hr
    obtain ⟨hrange, he, -⟩ := h.split
    have i1 := ih (by
      rw [hrange] at h4
      simp at h4 ⊢; omega)
    intro z hz
    rcases List.mem_cons.1 hz with rfl | hz
    · exact k1
    · exact i1 z hz

/-- A planar facet does not move its vertices, and the planes of its pieces contain them. -/
theorem Finish.still {s s' : Repairer} {range : List Nat} {ps : List (HS3 × List Nat × List Nat)} (h : Finish s range ps s')
    (hs : ∀ v ∈ s.storage, v.Still) {H : HS3} (hH : H.n ≠ ⟨0, 0, 0⟩)
    (hin : ∀ i ∈ range, ∀ v, s.storage[i]? = some v → H.side v.point.pt = 0) :
    (∀ v ∈ s'.storage, v.Still) ∧ s'.storage.map VInfo.point = s.storage.map VInfo.point ∧
    ∀ x ∈ ps, ∀ q, H.side q = 0 → x.1.side q = 0 := by
  have key : ∀ {s s' : Repairer} {range acc rest e : List Nat} {p : HS3}, Round s range p acc rest e s' → (∀ v ∈ s.storage, v.Still) →
      (∀ i ∈ range, ∀ v, s.storage[i]? = some v → H.side v.point.pt = 0) →
      (∀ v ∈ s'.storage, v.Still) ∧ s'.storage.map VInfo.point = s.storage.map VInfo.point ∧ ∀ q, H.side q = 0 → p.side q = 0 := by
    intro s s' range acc rest e p h hs hin
    have ht := nextRange_through h.next (fun i _ v hv => (hs v (List.mem_of_getElem? hv)).1) (fun q => H.side q = 0) hin
    have hp : ∀ q, H.side q = 0 → p.side q = 0 := fun q hq => through_plane hH ht hq
    obtain ⟨hr, -, -⟩ := h.split
    obtain ⟨a1, a2⟩ := addAdjacent_still _ hs (fun i hi v hv => hp _ (hin i (by
      rw [hr]; simp at hi ⊢; tauto) v hv)) h.adj
    exact ⟨a1, a2, hp⟩
  induction h with
  | last h =>
    obtain ⟨k1, k2, k3⟩ := key h hs hin
    exact ⟨k1, k2, by simpa using k3⟩
  | @more s s1 s' range p acc rest e x y ps h hr hx hy h' ih =>
    obtain ⟨k1, k2, k3⟩ := key h hs hin
    obtain ⟨hrange, -, -⟩ := h.split
    have hpt : ∀ (i : Nat) (v : VInfo), s1.storage[i]? = some v → ∃ u, s.storage[i]? = some u ∧ u.point = v.point := by
      intro i v hv
      have := congrArg (fun l => l[i]?) k2
      simp only [List.getElem?_map, hv, Option.map_some] at this
      obtain ⟨u, hu, he⟩ := Option.map_eq_some_iff.1 this.symm
      exact ⟨u, hu, he⟩
    obtain ⟨i1, i2, i3⟩ := ih k1 (by
      intro i hi v hv
      obtain ⟨u, hu, he⟩ := hpt i v hv
      rw [← he]
      refine hin i ?_ u hu
      obtain ⟨a', rfl⟩ := getLast_split hx
      obtain ⟨e', rfl⟩ := getLast_split hy
      rw [hrange]
      simp at hi ⊢; tauto)
    refine ⟨i1, i2.trans k2, ?_⟩
    intro z hz
    rcases List.mem_cons.1 hz with rfl | hz
    · exact k3
    · exact i3 z hz

end Walnut.Repair
