/-
What is emitted at a point of a split plane on one side of it.
-/
import Verif.Props.Winding
import Verif.Props.Traverse
import Mathlib.Data.ZMod.Basic

namespace Walnut.Bsp
open Walnut.Geom Walnut.Poly Walnut.Props

/-! ### Leaves around a point -/

theorem insideOf_snoc {anc : Anc} {z : Q3} (h : InsideOf anc z) {a : PlaneRef × Bool} (ha : if a.2 then 0 < a.1.plane.side z else a.1.plane.side z < 0) :
    InsideOf (anc ++ [a]) z := by
  intro b hb
  rcases List.mem_append.1 hb with hb | hb
  · exact h b hb
  · rw [List.mem_singleton.1 hb]; exact ha

theorem subs_prefix : ∀ {t : Node} {anc : Anc}, ∀ x ∈ t.subs anc, ∀ a ∈ anc, a ∈ x.1 := by
  intro t
  induction t with
  | leaf d => intro anc x hx a ha; rw [List.mem_singleton.1 hx]; exact ha
  | inner d g n p ihn ihp =>
    intro anc x hx a ha
    unfold Node.subs at hx
    rcases List.mem_cons.1 hx with rfl | hx
    · exact ha
    · rcases List.mem_append.1 hx with hx | hx
      · exact ihn x hx a (by simp [ha])
      · exact ihp x hx a (by simp [ha])

theorem subs_planes : ∀ {t : Node} {anc : Anc}, ∀ x ∈ t.subs anc, ∀ a ∈ x.1, a ∈ anc ∨ a.1.plane ∈ t.planes := by
  intro t
  induction t with
  | leaf d => intro anc x hx a ha; rw [List.mem_singleton.1 hx] at ha; exact Or.inl ha
  | inner d g n p ihn ihp =>
    intro anc x hx a ha
    unfold Node.subs at hx
    unfold Node.planes
    rcases List.mem_cons.1 hx with rfl | hx
    · exact Or.inl ha
    · rcases List.mem_append.1 hx with hx | hx
      · rcases ihn x hx a ha with h | h
        · rcases List.mem_append.1 h with h | h
          · exact Or.inl h
          · rw [List.mem_singleton.1 h]; simp
        · exact Or.inr (by simp [h])
      · rcases ihp x hx a ha with h | h
        · rcases List.mem_append.1 h with h | h
          · exact Or.inl h
          · rw [List.mem_singleton.1 h]; simp
        · exact Or.inr (by simp [h])

/-- A sum over the leaves to which only those around a point contribute. -/
theorem leaf_at {z : Q3} : ∀ (t : Node) (anc0 : Anc), (∀ g ∈ t.planes, g.side z ≠ 0) → InsideOf anc0 z →
    ∃ anc A, (anc, Node.leaf A) ∈ t.subs anc0 ∧ InsideOf anc z ∧
      ∀ F : List Bool × NodeData → ℤ, (∀ anc L, (anc, Node.leaf L) ∈ t.subs anc0 → ¬ InsideOf anc z → F (anc.map Prod.snd, L) = 0) →
        ((t.leavesAt (anc0.map Prod.snd)).map F).sum = F (anc.map Prod.snd, A) := by
  intro t
  induction t with
  | leaf d =>
    intro anc0 _ h
    exact ⟨anc0, d, by simp [Node.subs], h, fun F _ => by simp [Node.leavesAt]⟩
  | inner d g n p ihn ihp =>
    intro anc0 hz h
    have hzero : ∀ (F : List Bool × NodeData → ℤ) (s : Node) (b : Bool), (if b then g.side z < 0 else 0 < g.side z) →
        (∀ anc L, (anc, Node.leaf L) ∈ s.subs (anc0 ++ [(⟨anc0.map Prod.snd, g⟩, b)]) → ¬ InsideOf anc z → F (anc.map Prod.snd, L) = 0) →
        ((s.leavesAt (anc0.map Prod.snd ++ [b])).map F).sum = 0 := by
      intro F s b hb hF
      apply List.sum_eq_zero
      intro y hy
      obtain ⟨L, hL, rfl⟩ := List.mem_map.1 hy
      rw [← map_snd_append anc0 ⟨anc0.map Prod.snd, g⟩] at hL
      obtain ⟨anc, e, ha⟩ := leavesAt_subs hL
      rw [show L = (anc.map Prod.snd, L.2) by rw [e]]
      refine hF anc L.2 ha fun hi => ?_
      have := hi (⟨anc0.map Prod.snd, g⟩, b) (subs_prefix _ ha _ (by simp))
      cases b <;> simp only [if_true, if_false, Bool.false_eq_true] at hb this <;> linarith
    unfold Node.planes at hz
    rcases lt_or_gt_of_ne (hz g (by simp)) with hg | hg
    · obtain ⟨anc, A, h1, h2, h3⟩ := ihn (anc0 ++ [(⟨anc0.map Prod.snd, g⟩, false)]) (fun g hg => hz g (by simp [hg])) (insideOf_snoc h (by simpa using hg))
      refine ⟨anc, A, by unfold Node.subs; simp [h1], h2, fun F hF => ?_⟩
      unfold Node.subs at hF
      rw [map_snd_append] at h3
      rw [Node.leavesAt, List.map_append, List.sum_append, h3 F fun a L ha => hF a L (by simp [ha]), hzero F p true (by simpa using hg) fun a L ha => hF a L (by simp [ha]), add_zero]
    · obtain ⟨anc, A, h1, h2, h3⟩ := ihp (anc0 ++ [(⟨anc0.map Prod.snd, g⟩, true)]) (fun g hg => hz g (by simp [hg])) (insideOf_snoc h (by simpa using hg))
      refine ⟨anc, A, by unfold Node.subs; simp [h1], h2, fun F hF => ?_⟩
      unfold Node.subs at hF
      rw [map_snd_append] at h3
      rw [Node.leavesAt, List.map_append, List.sum_append, h3 F fun a L ha => hF a L (by simp [ha]), hzero F n false (by simpa using hg) fun a L ha => hF a L (by simp [ha]), zero_add]

theorem unpruned_or {v : IsInside} : ∀ {t : Node} {anc0 : Anc}, Nested t → ∀ {anc : Anc} {L : NodeData}, (anc, Node.leaf L) ∈ t.subs anc0 →
    L ∈ t.unprunedLeaves v ∨ ∃ c, (v c).2 = false ∧ Below c L.info := by
  intro t
  induction t with
  | leaf d =>
    intro anc0 _ anc L h
    have e := List.mem_singleton.1 h
    simp only [Prod.mk.injEq, Node.leaf.injEq] at e
    rw [e.2]
    unfold Node.unprunedLeaves
    by_cases hp : (v d.info).2 = true
    · left; rw [if_pos hp]; simp
    · right; exact ⟨d.info, by simpa using hp, below_refl _⟩
  | inner d g n p ihn ihp =>
    intro anc0 hn anc L h
    by_cases hp : (v d.info).2 = true
    · unfold Node.unprunedLeaves
      rw [if_pos hp]
      unfold Node.subs at h
      rcases List.mem_cons.1 h with e | h
      · simp at e
      · rcases List.mem_append.1 h with h | h
        · exact (ihn hn.2.2.1 h).imp (fun h => by simp [h]) id
        · exact (ihp hn.2.2.2 h).imp (fun h => by simp [h]) id
    · exact Or.inr ⟨d.info, by simpa using hp, (hn.below anc0 _ h).1⟩

theorem polys_leaves : ∀ {t : Node}, Settled t → t.polys = t.leaves.flatMap fun d => d.contents ++ d.border := by
  intro t
  induction t with
  | leaf d => intro _; simp [Node.polys, Node.leaves]
  | inner d g n p ihn ihp =>
    intro h
    obtain ⟨h1, h2, h3, h4⟩ := h
    unfold Node.polys Node.leaves
    rw [h1, h2, ihn h3, ihp h4, List.flatMap_append]
    rfl

/-! ### Values -/

theorem valueAt_pruned {v : IsInside} (hv : Lawful v) {c : List Info} (hp : (v c).2 = false) {w : Nat → Int} (hw : ∀ id, ¬ holds c id → w id = windingOf c id) :
    valueAt v c.length w = (v c).1 := by
  apply hv.prune c _ _ hp
  refine ⟨by simp, fun id hid => ⟨?_, holds_table _ _ _⟩⟩
  rw [windingOf_table]
  split
  · exact hw id hid
  · rw [windingOf_get, List.getElem?_eq_none (by omega)]; rfl

/-- Larger winding numbers do not leave the set. -/
def Monotone (v : IsInside) : Prop := ∀ (n : Nat) (w w' : Nat → Int), (∀ id, w id ≤ w' id) → valueAt v n w = true → valueAt v n w' = true

/-- How many of the facets are those of a content. -/
def countId (st : List Facet) (id : Nat) : Int := st.countP fun f => f.1 == id

/-- 1 for true. -/
def bit (R : Type) [CommRing R] (b : Bool) : R := if b then 1 else 0

/-- How many facets are emitted, as an element of a ring, is the difference of the filter's
values at both ends. -/
def Exact (R : Type) [CommRing R] (v : IsInside) : Prop := ∀ (n : Nat) (st : List Facet) (w : Nat → Int),
  ((changing (valueAt v n) (fun _ => -1) w st).length : R) = bit R (valueAt v n w) - bit R (valueAt v n fun id => w id - countId st id)

theorem beyond_countId (w : Nat → Int) (x : Facet) (st : List Facet) : (fun id => beyond (fun _ => -1) w x id - countId st id) = fun id => w id - countId (x :: st) id := by
  funext id
  unfold beyond countId
  rw [List.countP_cons]
  by_cases h : id = x.1
  · subst h; simp; ring
  · rw [Function.update_of_ne h, if_neg (by simpa using Ne.symm h)]; simp

/-- Peeling facets off changes the value of a monotone filter at most once. -/
theorem Monotone.exact {v : IsInside} (hm : Monotone v) : Exact ℤ v := by
  intro n st
  induction st with
  | nil => intro w; simp [changing, countId]
  | cons x st ih =>
    intro w
    have hle : ∀ id, beyond (fun _ => -1) w x id ≤ w id := by
      intro id
      unfold beyond
      by_cases h : id = x.1
      · subst h; simp
      · rw [Function.update_of_ne h]
    have := ih (beyond (fun _ => -1) w x)
    rw [beyond_countId] at this
    unfold changing
    split_ifs with h
    · rw [this, h]
    · have h1 : valueAt v n (beyond (fun _ => -1) w x) = false := by
        by_contra hc
        have hc' : valueAt v n (beyond (fun _ => -1) w x) = true := by simpa using hc
        exact h (by rw [hc', hm n _ _ hle hc'])
      have h2 : valueAt v n w = true := by
        rw [h1] at h; simpa using h
      rw [List.length_cons, Nat.cast_succ, this, h1, h2]
      simp [bit]; ring

/-- For every filter, the number of facets is even if the values at both ends are the same. -/
theorem exact_mod_two (v : IsInside) : Exact (ZMod 2) v := by
  intro n st
  induction st with
  | nil => intro w; simp [changing, countId]
  | cons x st ih =>
    intro w
    have := ih (beyond (fun _ => -1) w x)
    rw [beyond_countId] at this
    unfold changing
    split_ifs with h
    · rw [this, h]
    · rw [List.length_cons, Nat.cast_succ, this]
      generalize valueAt v n (beyond (fun _ => -1) w x) = a at h
      generalize valueAt v n w = b at h
      generalize (valueAt v n fun id => w id - countId (x :: st) id) = c
      revert a b c
      decide

theorem changing_mem {inside : (Nat → Int) → Bool} {step : HS3 → Int} : ∀ {st : List Facet} {w : Nat → Int}, ∀ f ∈ changing inside step w st, f ∈ st := by
  intro st
  induction st with
  | nil => intro w f h; simp [changing] at h
  | cons x st ih =>
    intro w f h
    unfold changing at h
    split_ifs at h
    · exact List.mem_cons_of_mem _ (ih f h)
    · rcases List.mem_cons.1 h with rfl | h
      · simp
      · exact List.mem_cons_of_mem _ (ih f h)

end Walnut.Bsp
