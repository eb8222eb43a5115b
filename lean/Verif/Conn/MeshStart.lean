/-
The facets before the first call, and which half-edges are connected in which call.
-/
import Verif.Conn.MeshVisit
import Verif.Bsp.Laminar

namespace Walnut.Conn
open Walnut.Geom Walnut.Poly Walnut.Bsp Walnut.Props

section
variable {l : List (Polygon EdgeInfo)}

theorem facets_poly {j : Nat} {P : Polygon EdgeInfo} (hP : l[j]? = some P) :
    (facets l).world.polys j = ⟨P.plane, P.drop, ((List.range P.count).map (edgeNum l j)).map (edgeAt (netOf l))⟩ := by
  have hj : j < l.length := (List.getElem?_eq_some_iff.1 hP).1
  simp only [facets, Mesh.ofNet, hP, if_pos hj, netOf_cycle hP]
  rfl

theorem facets_none {j : Nat} (hj : l.length ≤ j) : (facets l).world.polys j = ⟨⟨⟨0, 0, 0⟩, 0⟩, 0, []⟩ := by
  simp only [facets, Mesh.ofNet, List.getElem?_eq_none hj, if_neg (not_lt.2 hj)]

theorem facets_edge {j i : Nat} {P : Polygon EdgeInfo} (hP : l[j]? = some P) (hi : i < P.count) :
    ((facets l).world.polys j).vertexD i = P.vertexD i ∧ ((facets l).world.polys j).lineD i = P.lineD i := by
  obtain ⟨h1, h2, -⟩ := netOf_edge hP hi
  have hg : ((facets l).world.polys j).edges[i]? = some (edgeAt (netOf l) (edgeNum l j i)) := by
    rw [facets_poly hP]
    simp [hi]
  obtain ⟨-, g2, g3⟩ := pt_get hg
  exact ⟨g2.trans h1, g3.trans h2⟩

theorem facets_count {j : Nat} {P : Polygon EdgeInfo} (hP : l[j]? = some P) : ((facets l).world.polys j).count = P.count := by
  rw [facets_poly hP]
  simp [Polygon.count]

theorem facets_region {j : Nat} {P : Polygon EdgeInfo} (hP : l[j]? = some P) : ((facets l).world.polys j).region = P.region := by
  unfold Polygon.region
  rw [facets_count hP]
  congr 1
  ext q
  constructor
  · rintro ⟨i, hi, rfl⟩; exact ⟨i, hi, by unfold Polygon.pt; rw [(facets_edge hP hi).1]⟩
  · rintro ⟨i, hi, rfl⟩; exact ⟨i, hi, by unfold Polygon.pt; rw [(facets_edge hP hi).1]⟩

theorem facets_convex {j : Nat} {P : Polygon EdgeInfo} (hP : l[j]? = some P) (hc : IsConvexPolygon P) : IsConvexPolygon ((facets l).world.polys j) := by
  have cnt := facets_count hP
  have pl : ((facets l).world.polys j).plane = P.plane := by rw [facets_poly hP]
  have dr : ((facets l).world.polys j).drop = P.drop := by rw [facets_poly hP]
  have pt : ∀ i, i < P.count → ((facets l).world.polys j).pt i = P.pt i := by
    intro i hi; unfold Polygon.pt; rw [(facets_edge hP hi).1]
  have three := hc.three
  refine ⟨by rw [pl, dr]; exact hc.drop, ?_, ?_, ?_, ?_, ?_, ?_⟩
  · intro i hi; rw [cnt] at hi; rw [(facets_edge hP hi).1]; exact hc.finite i hi
  · intro i hi; rw [cnt] at hi; rw [pl, pt i hi]; exact hc.onPlane i hi
  · intro i hi
    rw [cnt] at hi
    rw [cnt, pt i hi, pt _ (Nat.mod_lt _ (by omega)), (facets_edge hP hi).2]
    exact hc.line i hi
  · intro i j' k h1 h2 h3
    rw [cnt] at h3
    rw [pl, pt i (by omega), pt j' (by omega), pt k h3]
    exact hc.ccw i j' k h1 h2 h3
  · intro i j' h1 h2
    rw [cnt] at h2
    rw [pt i (by omega), pt j' h2]
    exact hc.distinct i j' h1 h2
  · obtain ⟨i, j', k, h1, h2, h3, h4⟩ := hc.proper
    exact ⟨i, j', k, h1, h2, by rw [cnt]; exact h3, by rw [pl, pt i (by omega), pt j' (by omega), pt k h3]; exact h4⟩

/-- The facets before the first call. -/
structure Fit (l : List (Polygon EdgeInfo)) : Prop where
  convex : ∀ P ∈ l, IsConvexPolygon P
  ord : ∀ P ∈ l, Ordinary P.plane.n
  small : ∀ P ∈ l, ∀ e ∈ P.edges, NoMin3 e.line.d

theorem facets_rep (h : Fit l) : Rep (facets l) (netOf l) := by
  refine ofNet_rep (netOf_ok h.convex) ?_ (fun _ _ _ _ => rfl)
  intro p hp
  have hp' : p < l.length := hp
  simp only [netOf, List.getElem?_eq_getElem hp']

theorem facets_linked (h : Fit l) : Poly.Linked (facets l).world := by
  have hR := facets_rep h
  refine ⟨?_, ?_, ?_, ?_⟩
  · intro p
    by_cases hp : p < l.length
    · right
      exact facets_convex (List.getElem?_eq_getElem hp) (h.convex _ (List.getElem_mem hp))
    · left; rw [facets_none (not_lt.1 hp)]
  · intro p
    rw [halfEdges_labels]
    by_cases hp : p < l.length
    · rw [facets_poly (List.getElem?_eq_getElem hp)]
      dsimp only
      rw [List.map_map]
      have : ((fun e : Edge Nat => e.data) ∘ edgeAt (netOf l)) = id := rfl
      rw [this, List.map_id]
      exact cycle_nodup (List.getElem?_eq_getElem hp)
    · rw [facets_none (not_lt.1 hp)]; simp
  · intro p x A B hx
    obtain ⟨h1, h2, -⟩ := hR.half.1 hx
    exact hR.owner p h1 x h2
  · intro p x A B y _ hy
    cases hy

theorem facets_good (h : Fit l) : (facets l).Good := by
  have hR := facets_rep h
  refine ⟨facets_linked h, ?_, hR.empty⟩
  intro p e he
  obtain ⟨h1, x, h2, rfl⟩ := hR.mem.1 he
  exact (hR.ok.own p x h2).1

theorem ordinary_zero : Ordinary ⟨0, 0, 0⟩ := by
  intro i
  fin_cases i <;> simp [V3.comp]

theorem facets_ord (h : Fit l) (p : Nat) : Ordinary ((facets l).world.polys p).plane.n := by
  by_cases hp : p < l.length
  · rw [facets_poly (List.getElem?_eq_getElem hp)]
    exact h.ord _ (List.getElem_mem hp)
  · rw [facets_none (not_lt.1 hp)]
    exact ordinary_zero

/-- The original half-edges, with the calls and the facets they are about. -/
def planOf (l : List (Polygon EdgeInfo)) (call : Nat → Nat) (under : Nat → Nat → Prop) : Plan where
  n := (netOf l).count
  fac := (netOf l).poly
  line := (netOf l).line
  start x := ((netOf l).vertex x).pt
  stop x := ((netOf l).target x).pt
  call := call
  under := under

theorem planOf_edge (h : Fit l) {z : Nat} (hz : z < (netOf l).count) : ∃ j P i, l[j]? = some P ∧ i < P.count ∧ IsConvexPolygon P ∧ z = edgeNum l j i ∧
    ((netOf l).vertex z).pt = P.pt i ∧ ((netOf l).target z).pt = P.pt ((i + 1) % P.count) ∧ (netOf l).line z = P.lineD i ∧ (netOf l).poly z = j ∧
    EdgeLine ((netOf l).line z) ((netOf l).vertex z).pt ((netOf l).target z).pt ∧ ((netOf l).vertex z).pt ≠ ((netOf l).target z).pt := by
  obtain ⟨j, i, hm, rfl⟩ := edgeNum_surj hz
  obtain ⟨P, hP, hi⟩ := mem_edgeIds.1 hm
  have hc := h.convex P (List.mem_of_getElem? hP)
  obtain ⟨e1, e2, e3, e4⟩ := netOf_edge hP hi
  have e5 := netOf_target hP hi
  refine ⟨j, P, i, hP, hi, hc, rfl, by rw [e1]; rfl, by rw [e5]; rfl, e2, e3, ?_, ?_⟩
  · rw [e1, e2, e5]; exact hc.line i hi
  · rw [e1, e5]
    have h3 := hc.three
    have hm : (i + 1) % P.count < P.count := Nat.mod_lt _ (by omega)
    have hne : (i + 1) % P.count ≠ i := by
      rcases Nat.lt_or_ge (i + 1) P.count with c | c
      · rw [Nat.mod_eq_of_lt c]; omega
      · rw [show i + 1 = P.count by omega, Nat.mod_self]; omega
    rcases lt_or_gt_of_ne hne with c | c
    · exact (hc.distinct _ _ c hi).symm
    · exact hc.distinct _ _ c hm

theorem planOf_origin (h : Fit l) (call : Nat → Nat) (under : Nat → Nat → Prop) : Origin (planOf l call under) (facets l).world (netOf l) := by
  refine ⟨fun _ _ => rfl, fun _ _ => rfl, fun _ _ => rfl, ?_, ?_, ?_, facets_ord h⟩
  · intro z hz
    obtain ⟨j, P, i, hP, hi, hc, -, -, -, -, g4, -⟩ := planOf_edge h hz
    show (netOf l).normal ((netOf l).poly z) = ((facets l).world.polys ((netOf l).poly z)).plane.n
    rw [g4, facets_poly hP]
    simp only [netOf, hP]
  · intro z hz
    obtain ⟨j, P, i, hP, hi, hc, -, -, -, -, g4, g5⟩ := planOf_edge h hz
    exact g5
  · intro z hz
    obtain ⟨j, P, i, hP, hi, hc, -, g1, g2, g3, g4, g5, g6⟩ := planOf_edge h hz
    show dotQ ((facets l).world.polys ((netOf l).poly z)).plane.n.q ((netOf l).line z).d.q = 0 ∧ ((facets l).world.polys ((netOf l).poly z)).plane.n ≠ _
    rw [g4, facets_poly hP]
    constructor
    · obtain ⟨s, s0, hd⟩ := g5.dir
      unfold dotQ
      rw [hd, hd, hd, g1, g2]
      have o1 := hc.onPlane i hi
      have o2 := hc.onPlane ((i + 1) % P.count) (Nat.mod_lt _ (by omega))
      unfold HS3.side dotQ at o1 o2
      dsimp only
      linear_combination s * o2 - s * o1
    · intro h0
      have := hc.drop
      have h0' : P.plane.n = ⟨0, 0, 0⟩ := h0
      rw [h0'] at this
      apply this
      generalize P.drop = k
      fin_cases k <;> rfl

theorem planOf_inv (h : Fit l) (call : Nat → Nat) (under : Nat → Nat → Prop) : (planOf l call under).Inv (facets l).world 0 (facets l).world id id id := by
  have hR := facets_rep h
  have hL := facets_linked h
  have hop : ∀ {x A B}, Poly.Open (facets l).world x A B → x < (netOf l).count ∧ ((netOf l).vertex x).pt = A ∧ ((netOf l).target x).pt = B := by
    intro x A B hx
    obtain ⟨p, h1, h2, h3, h4, -⟩ := hR.open.1 hx
    exact ⟨(hR.ok.own p x h2).1, h3, h4⟩
  refine ⟨hL, ?_, ?_, fun _ _ => rfl, fun i j e => Or.inl e, ?_, ?_, ?_, fun _ => rfl⟩
  · intro p
    have ho := facets_ord h p
    refine ⟨⟨(ho 0).2, (ho 1).2, (ho 2).2⟩, fun e he => ?_⟩
    obtain ⟨h1, x, h2, rfl⟩ := hR.mem.1 he
    obtain ⟨j, P, i, hP, hi, hc, -, -, -, g3, -⟩ := planOf_edge h (hR.ok.own p x h2).1
    show NoMin3 ((netOf l).line x).d
    rw [g3]
    have hge : P.edges[i]? = some P.edges[i] := List.getElem?_eq_getElem hi
    have : P.lineD i = (P.edges[i]).line := by unfold Polygon.lineD; rw [hge]
    rw [this]
    exact h.small P (List.mem_of_getElem? hP) _ (List.getElem_mem hi)
  · intro p e he
    obtain ⟨h1, x, h2, rfl⟩ := hR.mem.1 he
    obtain ⟨c1, c2⟩ := hR.ok.own p x h2
    exact ⟨c1, rfl, c2, ⟨fun _ => Nat.zero_le _, fun _ => rfl⟩, fun _ => c1⟩
  · rintro i j ⟨x, A, B, y, hx, hy, -⟩
    cases hy
  · refine ⟨?_, ?_, fun z _ _ => ⟨Aligned.refl _, rfl, rfl⟩, ?_, ?_⟩
    · intro x A B hx k hk t
      obtain ⟨h1, h2, h3⟩ := hop hx
      constructor
      · intro ho
        refine ⟨x, h1, Nat.zero_le _, rfl, ?_⟩
        show Over ((netOf l).vertex x).pt ((netOf l).target x).pt k t
        rw [h2, h3]; exact ho
      · rintro ⟨z, -, -, rfl, ho⟩
        have ho' : Over ((netOf l).vertex (id z)).pt ((netOf l).target (id z)).pt k t := ho
        rwa [h2, h3] at ho'
    · intro z hz _
      obtain ⟨j, P, i, hP, hi, hc, -, -, -, -, g4, -⟩ := planOf_edge h hz
      have hm := hR.ok.mem z hz
      rw [g4] at hm
      exact ⟨_, _, hR.open.2 ⟨j, (List.getElem?_eq_some_iff.1 hP).1, hm, rfl, rfl, rfl⟩⟩
    · intro x A B hx
      obtain ⟨h1, h2, h3⟩ := hop hx
      obtain ⟨j, P, i, hP, hi, hc, -, -, -, -, -, g5⟩ := planOf_edge h h1
      rw [h2, h3] at g5
      exact g5
    · intro x A B A' B' hx hx'
      obtain ⟨-, h2, h3⟩ := hop hx
      obtain ⟨-, h2', h3'⟩ := hop hx'
      exact ⟨h2.symm.trans h2', h3.symm.trans h3'⟩
  · refine ⟨fun p => ?_, fun q => SameDir3.refl _⟩
    ext z
    simp

end

end Walnut.Conn
