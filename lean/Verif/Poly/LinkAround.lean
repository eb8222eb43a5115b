/-
Walking around a vertex.
-/
import Verif.Poly.LinkStep
import Mathlib.Dynamics.PeriodicPts.Defs

namespace Walnut.Poly
open Walnut.Geom Walnut.Props

/-- The next edge starts at the same vertex, and follows the partner in its polygon. -/
theorem next_around {W : World} (hL : Linked W) {p x : Nat} {A B : Q3} (hx : (x, A, B) ∈ halfEdges (W.polys p).edges) {y : Nat}
    (hy : W.partner x = some y) :
    ∃ j e f, (W.polys (W.owner y)).edges[j]? = some e ∧ e.data = y ∧
      (W.polys (W.owner y)).edges[(j + 1) % (W.polys (W.owner y)).count]? = some f ∧
      W.nextAround x = some (some f.data) ∧ W.owner f.data = W.owner y ∧ ∃ C, (f.data, A, C) ∈ halfEdges (W.polys (W.owner y)).edges := by
  obtain ⟨t1, t2⟩ := hL.twin _ _ _ _ _ hx hy
  obtain ⟨j, e, ge, de, -, h2⟩ := mem_halfEdges.1 t1
  dsimp only at de h2
  have lj : j < (W.polys (W.owner y)).count := (List.getElem?_eq_some_iff.1 ge).1
  have lk : (j + 1) % (W.polys (W.owner y)).count < (W.polys (W.owner y)).count := Nat.mod_lt _ (by omega)
  obtain ⟨f, gf⟩ : ∃ f, (W.polys (W.owner y)).edges[(j + 1) % (W.polys (W.owner y)).count]? = some f :=
    ⟨_, List.getElem?_eq_getElem lk⟩
  refine ⟨j, e, f, ge, de, gf, ?_, hL.own_edge gf, _, mem_halfEdges.2 ⟨_, f, gf, rfl, h2, rfl⟩⟩
  unfold World.nextAround
  rw [hy]
  dsimp only
  rw [show W.index y = some j by rw [← de]; exact (hL.index_eq ge).1, Option.bind_eq_bind, Option.bind_some, gf]
  rfl

theorem next_around_inj {W : World} (hL : Linked W) {p p' x x' : Nat} {A B A' B' : Q3} (hx : (x, A, B) ∈ halfEdges (W.polys p).edges)
    (hx' : (x', A', B') ∈ halfEdges (W.polys p').edges) {z : Nat} (h : W.nextAround x = some (some z))
    (h' : W.nextAround x' = some (some z)) : x = x' := by
  have hy : ∀ {x}, W.nextAround x = some (some z) → ∃ y, W.partner x = some y := by
    intro x h
    unfold World.nextAround at h
    cases hp : W.partner x with
    | none => rw [hp] at h; cases h
    | some y => exact ⟨y, rfl⟩
  obtain ⟨y, hy1⟩ := hy h
  obtain ⟨y', hy1'⟩ := hy h'
  obtain ⟨j, e, f, ge, de, gf, n1, o1, -⟩ := next_around hL hx hy1
  obtain ⟨j', e', f', ge', de', gf', n1', o1', -⟩ := next_around hL hx' hy1'
  rw [h] at n1
  rw [h'] at n1'
  simp only [Option.some.injEq] at n1 n1'
  have hf : f'.data = f.data := by rw [← n1, ← n1']
  have ho : W.owner y' = W.owner y := by rw [← o1, ← o1', hf]
  rw [ho] at ge' gf'
  have i1 := (hL.index_eq gf).1
  have i2 := (hL.index_eq gf').1
  rw [hf, i1, Option.some.injEq] at i2
  have lj : j < (W.polys (W.owner y)).count := (List.getElem?_eq_some_iff.1 ge).1
  have lj' : j' < (W.polys (W.owner y)).count := (List.getElem?_eq_some_iff.1 ge').1
  have : j = j' := by
    have e1 : (j + 1) ≡ (j' + 1) [MOD (W.polys (W.owner y)).count] := i2
    have e2 := Nat.ModEq.add_right_cancel' 1 e1
    unfold Nat.ModEq at e2
    rwa [Nat.mod_eq_of_lt lj, Nat.mod_eq_of_lt lj'] at e2
  subst this
  rw [ge, Option.some.injEq] at ge'
  subst ge'
  have : y = y' := by rw [← de, ← de']
  subst this
  have t1 := (hL.twin _ _ _ _ _ hx hy1).2
  have t2 := (hL.twin _ _ _ _ _ hx' hy1').2
  rw [t1, Option.some.injEq] at t2
  exact t2

/-- The labels of the half-edges. -/
def labelSet (W : World) : Set Nat := {x | ∃ A B, (x, A, B) ∈ halfEdges (W.polys (W.owner x)).edges}

theorem labelSet_finite {W : World} {N : Nat} (h : ∀ p, N ≤ p → (W.polys p).edges = []) : (labelSet W).Finite := by
  refine Set.Finite.subset (s := ⋃ p ∈ Finset.range N, {x | x ∈ (halfEdges (W.polys p).edges).map Prod.fst}) ?_ ?_
  · refine Set.Finite.biUnion (Finset.finite_toSet _) fun p _ => List.finite_toSet _
  · rintro x ⟨A, B, hx⟩
    have : W.owner x < N := by
      by_contra c
      rw [h _ (by omega)] at hx
      exact absurd hx List.not_mem_nil
    simp only [Set.mem_iUnion]
    exact ⟨_, Finset.mem_range.2 this, List.mem_map.2 ⟨_, hx, rfl⟩⟩

/-- Following `nextAround`. -/
def walk (W : World) (k x : Nat) : Option Nat := (fun o : Option Nat => o.bind fun x => (W.nextAround x).join)^[k] (some x)

theorem walk_cycle {W : World} (hL : Linked W) (hO : NoOpenEdge W) {N : Nat} (hN : ∀ p, N ≤ p → (W.polys p).edges = []) {p x : Nat} {A B : Q3}
    (hx : (x, A, B) ∈ halfEdges (W.polys p).edges) :
    (∃ k, 0 < k ∧ walk W k x = some x) ∧
      ∀ k, ∃ z C, walk W k x = some z ∧ (z, A, C) ∈ halfEdges (W.polys (W.owner z)).edges := by
  have := (labelSet_finite hN).to_subtype
  have step : ∀ z : labelSet W, ∃ w : labelSet W, W.nextAround z.1 = some (some w.1) := by
    rintro ⟨z, A, B, hz⟩
    obtain ⟨y, hy⟩ := Option.ne_none_iff_exists'.1 (hO _ _ _ _ hz)
    obtain ⟨j, e, f, -, -, -, h1, h2, C, h3⟩ := next_around hL hz hy
    exact ⟨⟨f.data, A, C, by rw [h2]; exact h3⟩, h1⟩
  choose F hF using step
  have inj : Function.Injective F := by
    intro a b h
    obtain ⟨A, B, ha⟩ := a.2
    obtain ⟨A', B', hb⟩ := b.2
    apply Subtype.ext
    refine next_around_inj hL ha hb (hF a) ?_
    rw [h]; exact hF b
  have iter : ∀ k (a : labelSet W), walk W k a.1 = some (F^[k] a).1 := by
    intro k
    induction k with
    | zero => intro a; rfl
    | succ k ih =>
      intro a
      unfold walk at *
      rw [Function.iterate_succ_apply', ih, Function.iterate_succ_apply', Option.bind_some, hF]
      rfl
  have hp := hL.own _ _ _ _ hx
  refine ⟨?_, fun k => ?_⟩
  · obtain ⟨k, k0, hk⟩ := inj.mem_periodicPts (⟨x, A, B, by rw [hp]; exact hx⟩ : labelSet W)
    exact ⟨k, k0, by rw [iter k (⟨x, A, B, by rw [hp]; exact hx⟩ : labelSet W), hk.eq]⟩
  · induction k with
    | zero => exact ⟨x, B, rfl, by rw [hp]; exact hx⟩
    | succ k ih =>
      obtain ⟨z, C, h1, h2⟩ := ih
      obtain ⟨y, hy⟩ := Option.ne_none_iff_exists'.1 (hO _ _ _ _ h2)
      obtain ⟨j, e, f, -, -, -, h3, h4, D, h5⟩ := next_around hL h2 hy
      refine ⟨f.data, D, ?_, by rw [h4]; exact h5⟩
      unfold walk at *
      rw [Function.iterate_succ_apply', h1, Option.bind_some, h3]
      rfl

end Walnut.Poly
