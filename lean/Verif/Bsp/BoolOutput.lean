/-
The number of emitted facets at a point, seen from a point close to it.
-/
import Verif.Bsp.BoolPoint

namespace Walnut.Bsp
open Walnut.Geom Walnut.Poly Walnut.Props

theorem countP_flatMap_int {α β : Type} (p : β → Bool) (f : α → List β) (l : List α) : (((l.flatMap f).countP p : ℕ) : ℤ) = (l.map fun a => (((f a).countP p : ℕ) : ℤ)).sum := by
  induction l with
  | nil => rfl
  | cons a l ih => rw [List.flatMap_cons, List.countP_append, Nat.cast_add, ih]; rfl

/-- How many facets of a content cover `x` that have `z` on their negative side. -/
noncomputable def facing (S : List Source) (x z : Q3) (id : ℕ) : ℤ := ((sourceStack x S).countP fun f => f.1 == id && decide (f.2.side z < 0) : ℕ)

section
variable {R : Type} [CommRing R] {aabb : Bool} {t : Node} {S : List Source} {x z : Q3}

/-- Only the leaf around `z` has such facets. -/
theorem facing_leaf (h : Reach aabb t S) (hset : Settled t) (hS : ∀ s ∈ S, IsConvexPolygon s.poly) (hn : Near t S x z) {A : NodeData}
    {path : List Bool} (hA : ∀ F : List Bool × NodeData → ℤ, (∀ anc L, (anc, Node.leaf L) ∈ t.subs [] → ¬ InsideOf anc z → F (anc.map Prod.snd, L) = 0) →
      ((t.leavesAt []).map F).sum = F (path, A)) (id : ℕ) :
    facing S x z id = ((stackAt x (A.contents ++ A.border)).countP fun f => f.1 == id && decide (f.2.side z < 0) : ℕ) := by
  unfold facing
  rw [← (stack_sources h hS hn.apart).countP_eq, polys_leaves hset, stackAt_flatMap, countP_flatMap_int, ← leavesAt_leaves t [], List.map_map]
  apply hA (fun L => ((stackAt x (L.2.contents ++ L.2.border)).countP fun f => f.1 == id && decide (f.2.side z < 0) : ℕ))
  intro anc L hL hi
  rw [Nat.cast_eq_zero, List.countP_eq_zero]
  intro f hf hp
  obtain ⟨y, hy, rfl, hx⟩ := stackAt_region hf
  simp only [facet, Bool.and_eq_true] at hp
  rcases List.mem_append.1 hy with hy | hy
  · exact hi (content_inside h hn hL hy hx)
  · exact hi (border_inside h hn hL hy hx (of_decide_eq_true hp.2))

theorem leafOutput_flat (h : Reach aabb t S) (hn : Near t S x z) {v : IsInside} {group : Group} (hg : Grouping group) {anc : Anc} {A : NodeData}
    (hA : (anc, Node.leaf A) ∈ t.subs []) :
    leafOutput v group x (anc.map Prod.snd, A) = changing (valueAt v A.info.length) (fun _ => -1) (windingOf A.info) (stackAt x (group (anc.map Prod.snd) A.border).flatten) := by
  unfold leafOutput
  rw [stackAt_flatten]
  apply flatMap_changing
  refine List.Pairwise.imp_of_mem ?_ (hg.apart _ A.border)
  intro f g hf hg' hfg
  by_contra hc
  push Not at hc
  obtain ⟨a, ha⟩ := List.exists_mem_of_ne_nil _ hc.1
  obtain ⟨b, hb⟩ := List.exists_mem_of_ne_nil _ hc.2
  obtain ⟨y, hy, _, hx⟩ := stackAt_region ha
  obtain ⟨y', hy', _, hx'⟩ := stackAt_region hb
  exact hfg y hy y' hy' (border_key h hn hA (hg.mem hf hy) (hg.mem hg' hy') hx hx')

/-- The facets emitted at `x` with `z` on their negative side: one if the filter's value at `z`
is true and the one beyond all facets is false, for a monotone filter. -/
theorem point_output {d : NodeData} (h0 : Reach aabb (.leaf d) S) (hsp : Splits d t) (h : Reach aabb t S) (hset : Settled t) (hnest : Nested t) {v : IsInside} (hv : Lawful v)
    (hm : Exact R v) {group : Group} (hg : Grouping group) (hdone : ∀ L ∈ t.unprunedLeaves v, L.contents = []) (hn : Near t S x z)
    (hc : ∀ id, Closed (meshOf S id)) {u : Q3} (hu : ∀ id, Transversal (meshOf S id) z u) :
    ((((t.leavesAt []).flatMap (leafOutput v group x)).countP (fun f => decide (f.2.side z < 0)) : ℕ) : R) =
      bit R (valueAt v t.data.info.length fun id => windingNumber (meshOf S id) z u) -
      bit R (valueAt v t.data.info.length fun id => windingNumber (meshOf S id) z u - facing S x z id) := by
  obtain ⟨anc, A, hA, hi, hsum⟩ := leaf_at t [] hn.off (fun a ha => by simp at ha)
  rw [List.map_nil] at hsum
  have hS := h0.leaf_pwn.1
  have hok := h.spec.1.sub _ hA
  have hlen : A.info.length = t.data.info.length := (hnest.below [] _ hA).1.1
  have e1 : ((((t.leavesAt []).flatMap (leafOutput v group x)).countP (fun f => decide (f.2.side z < 0)) : ℕ) : ℤ) = ((leafOutput v group x (anc.map Prod.snd, A)).length : ℤ) := by
    rw [countP_flatMap_int, hsum (fun L => ((leafOutput v group x L).countP (fun f => decide (f.2.side z < 0)) : ℕ))]
    · congr 1
      rw [List.countP_eq_length]
      intro f hf
      unfold leafOutput at hf
      obtain ⟨l, hl, hf⟩ := List.mem_flatMap.1 hf
      obtain ⟨y, hy, rfl, _⟩ := stackAt_region (changing_mem f hf)
      exact decide_eq_true (border_neg h hA (hg.mem hl hy) hi)
    · intro anc' L hL hni
      rw [Nat.cast_eq_zero, List.countP_eq_zero]
      intro f hf hp
      unfold leafOutput at hf
      obtain ⟨l, hl, hf⟩ := List.mem_flatMap.1 hf
      obtain ⟨y, hy, rfl, hx⟩ := stackAt_region (changing_mem f hf)
      exact hni (border_inside h hn hL (hg.mem hl hy) hx (of_decide_eq_true hp))
  rw [Nat.cast_inj.1 e1, leafOutput_flat h hn hg hA, hm, ← hlen]
  set st := stackAt x (group (anc.map Prod.snd) A.border).flatten with hst
  -- the contents without polygons in the cell
  have key : ∀ id, (∀ y ∈ A.contents, y.id ≠ id) → windingOf A.info id = windingNumber (meshOf S id) z u ∧ countId st id = facing S x z id := by
    intro id hid
    refine ⟨?_, ?_⟩
    · rw [windingOf_getD]
      exact C40_winding h0 hsp hA (hc id) hid hi (hu id)
    · rw [facing_leaf h hset hS hn hsum, stackAt_append, List.countP_append, List.countP_eq_zero.2, zero_add]
      · unfold countId
        rw [hst, (stackAt_perm (hg.perm _ A.border)).countP_eq]
        congr 1
        refine List.countP_congr fun f hf => ?_
        obtain ⟨y, hy, rfl, _⟩ := stackAt_region hf
        have := border_neg h hA hy hi
        simp [facet, this]
      · intro f hf hp
        obtain ⟨y, hy, rfl, _⟩ := stackAt_region hf
        simp only [facet, Bool.and_eq_true, beq_iff_eq] at hp
        exact hid y hy hp.1
  rcases unpruned_or (v := v) hnest hA with hu' | ⟨c, hp, hb⟩
  · have hcont := hdone A hu'
    have k := fun id => key id (by rw [hcont]; simp)
    have w1 : windingOf A.info = fun id => windingNumber (meshOf S id) z u := funext fun id => (k id).1
    have w2 : (fun id => windingOf A.info id - countId st id) = fun id => windingNumber (meshOf S id) z u - facing S x z id :=
      funext fun id => by rw [(k id).1, (k id).2]
    rw [w2, w1]
  · have none : ∀ id, ¬ holds c id → (∀ y ∈ A.contents, y.id ≠ id) ∧ windingOf A.info id = windingOf c id ∧ countId st id = 0 := by
      intro id hid
      obtain ⟨b1, b2⟩ := hb.2 id hid
      rw [holds_getD] at b2
      push Not at b2
      obtain ⟨c1, c2⟩ := hok.2.2 id
      unfold NodeData.infoFor at c1 c2
      rw [c1, c2] at b2
      refine ⟨fun y hy e => ?_, b1, ?_⟩
      · have := countP_id_pos.2 ⟨y, hy, e⟩; omega
      · unfold countId
        rw [Nat.cast_eq_zero, List.countP_eq_zero]
        intro f hf hp
        obtain ⟨y, hy, rfl, _⟩ := stackAt_region hf
        have := countP_id_pos.2 ⟨y, (hg.perm _ A.border).mem_iff.1 hy, by simpa [facet] using hp⟩
        omega
    rw [hb.1, valueAt_pruned hv hp fun id hid => (none id hid).2.1, valueAt_pruned hv hp, valueAt_pruned hv hp, valueAt_pruned hv hp]
    · intro id hid
      obtain ⟨n1, n2, n3⟩ := none id hid
      rw [← (key id n1).1, ← (key id n1).2, n2, n3, sub_zero]
    · intro id hid
      obtain ⟨n1, n2, n3⟩ := none id hid
      rw [← (key id n1).1, n2]
    · intro id hid
      obtain ⟨n1, n2, n3⟩ := none id hid
      rw [n2, n3, sub_zero]

end

end Walnut.Bsp
