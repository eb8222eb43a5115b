/-
Half-edges of a polygon as (label, start, end), and what joining polygons and removing
vertices does to them.
-/
import Verif.Poly.LinkSpec
import Verif.Poly.MergeRun

namespace Walnut.Poly
open Walnut.Geom Walnut.Props Walnut.Mono

/-- The half-edges along an open path of edges which ends at `q`. -/
def path : List (Edge Nat) → Q3 → List (Nat × Q3 × Q3)
  | [], _ => []
  | [e], q => [(e.data, e.vertex.pt, q)]
  | e :: f :: t, q => (e.data, e.vertex.pt, f.vertex.pt) :: path (f :: t) q

theorem path_append (l : List (Edge Nat)) (f : Edge Nat) (t : List (Edge Nat)) (q : Q3) :
    path (l ++ f :: t) q = path l f.vertex.pt ++ path (f :: t) q := by
  induction l with
  | nil => rfl
  | cons e l ih =>
    cases l with
    | nil => rfl
    | cons g l =>
      rw [List.cons_append] at ih ⊢
      rw [List.cons_append, path, path, ih]; rfl

theorem halfEdges_cons (e : Edge Nat) (t : List (Edge Nat)) : halfEdges (e :: t) = path (e :: t) e.vertex.pt := by
  have aux : ∀ (l : List (Edge Nat)) (c : Edge Nat), ((c :: l).zip (l ++ [e])).map
      (fun x : Edge Nat × Edge Nat => (x.1.data, x.1.vertex.pt, x.2.vertex.pt)) = path (c :: l) e.vertex.pt := by
    intro l
    induction l with
    | nil => intro c; rfl
    | cons d l ih =>
      intro c
      rw [List.cons_append, List.zip_cons_cons, List.map_cons, ih d]; rfl
  unfold halfEdges
  rw [List.rotate_cons_succ, List.rotate_zero]
  exact aux t e

theorem halfEdges_rotated {l l' : List (Edge Nat)} (h : l ~r l') : (halfEdges l).Perm (halfEdges l') := by
  obtain ⟨k, rfl⟩ := h
  have e : halfEdges (l.rotate k) = (halfEdges l).rotate k := by
    unfold halfEdges
    rw [← List.map_rotate, List.rotate_rotate, Nat.add_comm, ← List.rotate_rotate]
    unfold List.zip
    rw [List.zipWith_rotate_distrib _ _ _ _ (by simp)]
  rw [e]
  exact (List.rotate_perm _ _).symm

theorem halfEdges_labels (l : List (Edge Nat)) : (halfEdges l).map Prod.fst = l.map (·.data) := by
  unfold halfEdges
  rw [List.map_map]
  have : (Prod.fst ∘ fun x : Edge Nat × Edge Nat => (x.1.data, x.1.vertex.pt, x.2.vertex.pt)) = (fun e : Edge Nat => e.data) ∘ Prod.fst := rfl
  rw [this, ← List.map_map, List.map_fst_zip]
  simp

theorem mem_halfEdges {P : Polygon Nat} {h : Nat × Q3 × Q3} :
    h ∈ halfEdges P.edges ↔ ∃ i e, P.edges[i]? = some e ∧ e.data = h.1 ∧ P.pt i = h.2.1 ∧ P.pt ((i + 1) % P.count) = h.2.2 := by
  have key : ∀ i, (halfEdges P.edges)[i]? = P.edges[i]?.map fun e => (e.data, e.vertex.pt, P.pt ((i + 1) % P.count)) := by
    intro i
    unfold halfEdges
    rw [List.getElem?_map]
    by_cases hi : i < P.edges.length
    · have h1 : (i + 1) % P.edges.length < P.edges.length := Nat.mod_lt _ (by omega)
      rw [List.getElem?_eq_getElem (by rw [List.length_zip, List.length_rotate]; omega), List.getElem?_eq_getElem hi]
      simp only [Option.map_some, List.getElem_zip, List.getElem_rotate]
      rw [(pt_get (P := P) (i := (i + 1) % P.count) (e := P.edges[(i + 1) % P.edges.length]) (List.getElem?_eq_getElem h1)).1]
    · rw [List.getElem?_eq_none (by rw [List.length_zip, List.length_rotate]; omega), List.getElem?_eq_none (by omega)]; rfl
  rw [List.mem_iff_getElem?]
  constructor
  · rintro ⟨i, hi⟩
    rw [key] at hi
    obtain ⟨e, he, rfl⟩ := Option.map_eq_some_iff.1 hi
    exact ⟨i, e, he, rfl, (pt_get he).1, rfl⟩
  · rintro ⟨i, e, he, h1, h2, h3⟩
    refine ⟨i, ?_⟩
    rw [key, he]
    simp only [Option.map_some, Option.some.injEq]
    rw [← (pt_get he).1, h1, h2, h3]

/-- Two edges of a convex polygon are never opposite to each other. -/
theorem no_reverse {P : Polygon Nat} (hP : IsConvexPolygon P) {x y : Nat} {A B : Q3} (h1 : (x, A, B) ∈ halfEdges P.edges)
    (h2 : (y, B, A) ∈ halfEdges P.edges) : False := by
  obtain ⟨i, e, he, -, a1, b1⟩ := mem_halfEdges.1 h1
  obtain ⟨j, f, hf, -, b2, a2⟩ := mem_halfEdges.1 h2
  have n3 := hP.three
  have hi : i < P.count := (List.getElem?_eq_some_iff.1 he).1
  have hj : j < P.count := (List.getElem?_eq_some_iff.1 hf).1
  have inj : ∀ {i j}, i < P.count → j < P.count → P.pt i = P.pt j → i = j := by
    intro i j hi hj e
    rcases Nat.lt_trichotomy i j with h | h | h
    · exact absurd e (hP.distinct i j h hj)
    · exact h
    · exact absurd e.symm (hP.distinct j i h hi)
  dsimp only at a1 b1 a2 b2
  have e1 := inj (Nat.mod_lt _ (by omega)) hj (b1.trans b2.symm)
  have e2 := inj (Nat.mod_lt _ (by omega)) hi (a2.trans a1.symm)
  by_cases c1 : i + 1 < P.count
  · rw [Nat.mod_eq_of_lt c1] at e1
    by_cases c2 : j + 1 < P.count
    · rw [Nat.mod_eq_of_lt c2] at e2; omega
    · rw [show j + 1 = P.count by omega, Nat.mod_self] at e2; omega
  · rw [show i + 1 = P.count by omega, Nat.mod_self] at e1
    rw [← e1, Nat.mod_eq_of_lt (by omega)] at e2; omega

/-- The half-edges of two polygons joined along their first edges. -/
theorem halfEdges_join {ea na pa eb nb pb : Edge Nat} {Pm Qm : List (Edge Nat)} (ptA : ea.vertex.pt = nb.vertex.pt)
    (ptB : eb.vertex.pt = na.vertex.pt) :
    ∃ H K, halfEdges (ea :: na :: (Pm ++ [pa])) = (ea.data, ea.vertex.pt, na.vertex.pt) :: H ∧
      halfEdges (eb :: nb :: (Qm ++ [pb])) = (eb.data, eb.vertex.pt, nb.vertex.pt) :: K ∧
      halfEdges (nb :: (Qm ++ [pb]) ++ na :: (Pm ++ [pa])) = K ++ H := by
  refine ⟨path (na :: (Pm ++ [pa])) ea.vertex.pt, path (nb :: (Qm ++ [pb])) eb.vertex.pt, ?_, ?_, ?_⟩
  · rw [halfEdges_cons]; rfl
  · rw [halfEdges_cons]; rfl
  · rw [List.cons_append, halfEdges_cons, ← List.cons_append, path_append, ptB, ptA]

/-- The half-edges without the second vertex. -/
theorem halfEdges_omit (e f g : Edge Nat) (t : List (Edge Nat)) :
    ∃ H, halfEdges (e :: f :: g :: t) = (e.data, e.vertex.pt, f.vertex.pt) :: (f.data, f.vertex.pt, g.vertex.pt) :: H ∧
      halfEdges (e :: g :: t) = (e.data, e.vertex.pt, g.vertex.pt) :: H := by
  refine ⟨path (g :: t) e.vertex.pt, ?_, ?_⟩
  · rw [halfEdges_cons]; rfl
  · rw [halfEdges_cons]; rfl

theorem erase_next {P : Polygon Nat} {i : Nat} {e f : Edge Nat} (h2 : 2 ≤ P.count) (he : P.edges[i]? = some e)
    (hf : P.edges[(i + 1) % P.count]? = some f) :
    ∃ t, P.edges ~r e :: f :: t ∧ e :: t ~r P.edges.eraseIdx ((i + 1) % P.count) := by
  obtain ⟨hi, hie⟩ := List.getElem?_eq_some_iff.1 he
  unfold Polygon.count at *
  by_cases c : i + 1 < P.edges.length
  · rw [Nat.mod_eq_of_lt c] at hf ⊢
    obtain ⟨_, hfe⟩ := List.getElem?_eq_some_iff.1 hf
    have d : P.edges = P.edges.take i ++ e :: f :: P.edges.drop (i + 2) := by
      conv_lhs => rw [← List.take_append_drop i P.edges, List.drop_eq_getElem_cons hi, hie, List.drop_eq_getElem_cons c, hfe]
    have hl : (P.edges.take i).length = i := by rw [List.length_take]; omega
    refine ⟨P.edges.drop (i + 2) ++ P.edges.take i, ?_, ?_⟩
    · have := List.isRotated_append (l := P.edges.take i) (l' := e :: f :: P.edges.drop (i + 2))
      rw [← d] at this
      simpa using this
    · have e1 : P.edges.eraseIdx (i + 1) = P.edges.take i ++ e :: P.edges.drop (i + 2) := by
        conv_lhs => rw [d]
        rw [List.eraseIdx_append_of_length_le (by omega), hl, Nat.add_sub_cancel_left]
        simp
      rw [e1]
      have := List.isRotated_append (l := e :: P.edges.drop (i + 2)) (l' := P.edges.take i)
      simpa using this
  · have hil : i + 1 = P.edges.length := by omega
    rw [hil, Nat.mod_self] at hf ⊢
    obtain ⟨h0, hfe⟩ := List.getElem?_eq_some_iff.1 hf
    obtain ⟨L, hL⟩ : ∃ L, P.edges = f :: (L ++ [e]) := by
      match hP : P.edges with
      | [] => rw [hP] at hi; simp at hi
      | g :: l =>
        simp only [hP] at hfe hie hil h2
        simp at hfe
        subst hfe
        rcases List.eq_nil_or_concat' l with hl | ⟨L, q, hl⟩
        · subst hl; simp at h2
        · subst hl
          refine ⟨L, ?_⟩
          simp at hil
          subst hil
          simp at hie
          rw [hie]
    rw [hL]
    refine ⟨L, ?_, ?_⟩
    · have := List.isRotated_append (l := f :: L) (l' := [e])
      simpa using this
    · have := List.isRotated_append (l := [e]) (l' := L)
      simpa using this

end Walnut.Poly
