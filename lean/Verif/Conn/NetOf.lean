/-
The net of half-edges of a list of polygons.
-/
import Verif.Conn.CallReady

namespace Walnut.Conn
open Walnut.Geom Walnut.Poly Walnut.Bsp

variable {l : List (Polygon EdgeInfo)}

theorem mem_edgeIds {j i : Nat} : (j, i) ∈ edgeIds l ↔ ∃ P, l[j]? = some P ∧ i < P.count := by
  unfold edgeIds
  rw [List.mem_flatMap]
  constructor
  · rintro ⟨⟨P, k⟩, hx, hm⟩
    obtain ⟨i', hi', e⟩ := List.mem_map.1 hm
    obtain ⟨rfl, rfl⟩ := Prod.mk.inj e
    exact ⟨P, List.mk_mem_zipIdx_iff_getElem?.1 hx, List.mem_range.1 hi'⟩
  · rintro ⟨P, hP, hi⟩
    exact ⟨(P, j), List.mk_mem_zipIdx_iff_getElem?.2 hP, List.mem_map.2 ⟨i, List.mem_range.2 hi, rfl⟩⟩

theorem edgeIds_nodup : (edgeIds l).Nodup := by
  unfold edgeIds
  rw [List.nodup_flatMap]
  constructor
  · intro x _
    exact List.nodup_range.map fun a b e => (Prod.mk.inj e).2
  · rw [List.pairwise_iff_getElem]
    intro a b ha hb hab x hx hy
    obtain ⟨i, _, rfl⟩ := List.mem_map.1 hx
    obtain ⟨i', _, e⟩ := List.mem_map.1 hy
    have := (Prod.mk.inj e).1
    simp only [List.getElem_zipIdx, zero_add] at this
    omega

theorem edgeNum_get {j i : Nat} (h : (j, i) ∈ edgeIds l) : (edgeIds l)[edgeNum l j i]? = some (j, i) := by
  have hi := List.idxOf_lt_length_iff.2 h
  unfold edgeNum
  rw [List.getElem?_eq_getElem hi, List.getElem_idxOf hi]

theorem edgeNum_inj {j i j' i' : Nat} (h : (j, i) ∈ edgeIds l) (h' : (j', i') ∈ edgeIds l) (e : edgeNum l j i = edgeNum l j' i') : j = j' ∧ i = i' := by
  have h1 := edgeNum_get h
  rw [e, edgeNum_get h'] at h1
  obtain ⟨a, b⟩ := Prod.mk.inj (Option.some.inj h1)
  exact ⟨a.symm, b.symm⟩

theorem edgeNum_surj {e : Nat} (h : e < (edgeIds l).length) : ∃ j i, (j, i) ∈ edgeIds l ∧ e = edgeNum l j i := by
  obtain ⟨j, i, he⟩ : ∃ j i, (edgeIds l)[e] = (j, i) := ⟨_, _, rfl⟩
  refine ⟨j, i, by rw [← he]; exact List.getElem_mem h, ?_⟩
  unfold edgeNum
  rw [← he, edgeIds_nodup.idxOf_getElem]

theorem netOf_edge {j i : Nat} {P : Polygon EdgeInfo} (hP : l[j]? = some P) (hi : i < P.count) :
    (netOf l).vertex (edgeNum l j i) = P.vertexD i ∧ (netOf l).line (edgeNum l j i) = P.lineD i ∧ (netOf l).poly (edgeNum l j i) = j ∧ edgeNum l j i < (netOf l).count := by
  have hm := mem_edgeIds.2 ⟨P, hP, hi⟩
  have hg := edgeNum_get hm
  refine ⟨?_, ?_, ?_, List.idxOf_lt_length_iff.2 hm⟩
  · simp only [netOf, hg, Option.bind_some, hP, Option.map_some, Option.getD_some]
  · simp only [netOf, hg, Option.bind_some, hP, Option.map_some, Option.getD_some]
  · simp only [netOf, hg, Option.map_some, Option.getD_some]

theorem netOf_cycle {j : Nat} {P : Polygon EdgeInfo} (hP : l[j]? = some P) : (netOf l).cycle j = (List.range P.count).map (edgeNum l j) := by
  simp only [netOf, hP]

theorem cycle_nodup {j : Nat} {P : Polygon EdgeInfo} (hP : l[j]? = some P) : ((List.range P.count).map (edgeNum l j)).Nodup := by
  refine List.Nodup.map_on ?_ List.nodup_range
  intro a ha b hb e
  exact (edgeNum_inj (mem_edgeIds.2 ⟨P, hP, List.mem_range.1 ha⟩) (mem_edgeIds.2 ⟨P, hP, List.mem_range.1 hb⟩) e).2

theorem netOf_target {j i : Nat} {P : Polygon EdgeInfo} (hP : l[j]? = some P) (hi : i < P.count) : (netOf l).target (edgeNum l j i) = P.vertexD ((i + 1) % P.count) := by
  obtain ⟨_, _, h3, _⟩ := netOf_edge hP hi
  have hn : (i + 1) % P.count < P.count := Nat.mod_lt _ (by omega)
  unfold Net.target Net.nextVertex
  rw [h3, netOf_cycle hP]
  have hs : succIn ((List.range P.count).map (edgeNum l j)) (edgeNum l j i) = some (edgeNum l j ((i + 1) % P.count)) := by
    unfold succIn
    rw [if_pos (List.mem_map.2 ⟨i, List.mem_range.2 hi, rfl⟩)]
    have hx : ((List.range P.count).map (edgeNum l j)).idxOf (edgeNum l j i) = i := by
      have := (cycle_nodup hP).idxOf_getElem i (by simpa using hi)
      simpa using this
    rw [hx, List.length_map, List.length_range, List.getElem?_map, List.getElem?_range hn]
    rfl
  rw [hs, Option.map_some, Option.getD_some]
  exact (netOf_edge hP hn).1

theorem netOf_ok (hc : ∀ P ∈ l, IsConvexPolygon P) : (netOf l).Ok := by
  refine ⟨?_, ?_, ?_, ?_, ?_, ?_⟩
  · intro e he
    obtain ⟨j, i, hm, rfl⟩ := edgeNum_surj he
    obtain ⟨P, hP, hi⟩ := mem_edgeIds.1 hm
    rw [(netOf_edge hP hi).2.2.1, netOf_cycle hP]
    exact List.mem_map.2 ⟨i, List.mem_range.2 hi, rfl⟩
  · intro p e he
    cases hP : l[p]? with
    | none => simp [netOf, hP] at he
    | some P =>
      rw [netOf_cycle hP] at he
      obtain ⟨i, hi, rfl⟩ := List.mem_map.1 he
      obtain ⟨_, _, h3, h4⟩ := netOf_edge hP (List.mem_range.1 hi)
      exact ⟨h4, h3⟩
  · intro p
    cases hP : l[p]? with
    | none => simp [netOf, hP]
    | some P => rw [netOf_cycle hP]; exact cycle_nodup hP
  · intro e he
    obtain ⟨j, i, hm, rfl⟩ := edgeNum_surj he
    obtain ⟨P, hP, hi⟩ := mem_edgeIds.1 hm
    rw [(netOf_edge hP hi).1]
    exact (hc P (List.mem_of_getElem? hP)).finite i hi
  · intro e f h; simp [netOf] at h
  · intro e f h; simp [netOf] at h

end Walnut.Conn
