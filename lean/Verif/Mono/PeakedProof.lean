/-
The polygons emitted by the decomposer go down and then up in the monotone dimension, if no two vertices agree in it.
-/
import Verif.Mono.Unimodal

namespace Walnut.Mono
open Walnut.Geom

/-- The closed polyline goes down in the dimension `mono`, and then up. -/
def Peaked (mono : Fin 3) (l : List HP3) : Prop :=
  ∃ (D B : List HP3) (tk t1 b1 bl : HP3), l = D ++ B ∧ D.Pairwise (fun a b => b.pt mono < a.pt mono) ∧
    B.Pairwise (fun a b => a.pt mono < b.pt mono) ∧ D.head? = some tk ∧ D.getLast? = some t1 ∧ B.head? = some b1 ∧
    B.getLast? = some bl ∧ t1.pt mono ≠ b1.pt mono ∧ tk.pt mono ≠ bl.pt mono

theorem Peaked.reverse {mono : Fin 3} {l : List HP3} (h : Peaked mono l) : Peaked mono l.reverse := by
  obtain ⟨D, B, tk, t1, b1, bl, rfl, h1, h2, e1, e2, e3, e4, n1, n2⟩ := h
  exact ⟨B.reverse, D.reverse, bl, b1, t1, tk, by simp, by simpa [List.pairwise_reverse] using h2, by simpa [List.pairwise_reverse] using h1,
    by simpa using e4, by simpa using e3, by simpa using e2, by simpa using e1, n1.symm, n2.symm⟩

/-- No two of the vertices agree in the dimension `mono`. -/
def Differ (mono : Fin 3) (a b : HP3) : Prop := a.pt mono ≠ b.pt mono

/-- A triangle of the triangulator. -/
structure FedS (mono : Fin 3) (vs : List HP3) (t : Tri) : Prop where
  m1 : t.p1 ∈ vs
  m2 : t.p2 ∈ vs
  m3 : t.p3 ∈ vs
  n12 : Differ mono t.p1 t.p2
  n23 : Differ mono t.p2 t.p3
  n31 : Differ mono t.p3 t.p1
  beyond : t.Beyond mono

/-- The polygon that is being built. -/
structure Growing (mono : Fin 3) (vs : List HP3) (s : DecState) : Prop where
  mem : ∀ a ∈ s.top ++ s.bottom, a ∈ vs
  topDown : s.top.Pairwise (fun a b => b.pt mono < a.pt mono)
  bottomDown : s.bottom.Pairwise (fun a b => b.pt mono < a.pt mono)
  ends : ∃ tk t1 bl b1, s.top.head? = some tk ∧ s.top.getLast? = some t1 ∧ s.bottom.head? = some bl ∧ s.bottom.getLast? = some b1 ∧
    t1.pt mono ≠ b1.pt mono ∧ tk.pt mono ≠ bl.pt mono

theorem Growing.peaked {mono : Fin 3} {vs : List HP3} {s : DecState} (h : Growing mono vs s) : Peaked mono s.verts := by
  obtain ⟨tk, t1, bl, b1, e1, e2, e3, e4, n1, n2⟩ := h.ends
  exact ⟨s.top, s.bottom.reverse, tk, t1, b1, bl, rfl, h.topDown, by simpa [List.pairwise_reverse] using h.bottomDown, e1, e2,
    by simpa using e4, by simpa using e3, n1, n2⟩

theorem start_growing {drop mono : Fin 3} {vs : List HP3} {t : Tri} (h : FedS mono vs t) : Growing mono vs (startPiece drop t) := by
  have l1 := lt_of_le_of_ne h.beyond.le1 h.n31.symm
  have l2 := lt_of_le_of_ne h.beyond.le2 h.n23
  unfold startPiece
  cases ht : t.isTop
  · refine ⟨?_, by simp, by simpa using l2, t.p1, t.p1, t.p3, t.p2, by simp, by simp, by simp, by simp, h.n12, h.n31.symm⟩
    simp [h.m1, h.m2, h.m3]
  · refine ⟨?_, by simpa using l1, by simp, t.p3, t.p1, t.p2, t.p2, by simp, by simp, by simp, by simp, h.n12, h.n23.symm⟩
    simp [h.m1, h.m2, h.m3]

theorem add_growing {drop mono : Fin 3} {vs : List HP3} (hT : Tame drop vs) {t : Tri} (h : FedS mono vs t) {a b : HP3} {tr br : List HP3}
    {so o : Int} (hs : Growing mono vs ⟨a :: tr, b :: br, so⟩) (e1 : a.pt = t.p1.pt) (e2 : b.pt = t.p2.pt) :
    Growing mono vs (addVertex t ⟨a :: tr, b :: br, so⟩ o) := by
  have l1 := lt_of_le_of_ne h.beyond.le1 h.n31.symm
  have l2 := lt_of_le_of_ne h.beyond.le2 h.n23
  obtain ⟨hmem, hd1, hd2, tk, t1, bl, b1, q1, q2, q3, q4, n1, n2⟩ := hs
  simp only at hmem hd1 hd2 q1 q2 q3 q4
  unfold addVertex
  cases ht : t.isTop
  · have hne : t.p2.eq t.p3 = false := by
      by_contra hc
      have := (hT.eq h.m2 h.m3).1 (by simpa using hc)
      rw [this] at l2; exact lt_irrefl _ l2
    simp only [hne, Bool.false_eq_true, if_false, Bool.not_false, if_true]
    refine ⟨?_, hd1, List.pairwise_cons.2 ⟨?_, hd2⟩, tk, t1, t.p3, b1, q1, q2, rfl, ?_, n1, ?_⟩
    · intro x hx
      simp only [List.mem_append, List.mem_cons] at hx hmem
      rcases hx with hx | rfl | hx
      · exact hmem x (Or.inl hx)
      · exact h.m3
      · exact hmem x (Or.inr hx)
    · intro x hx
      rcases List.mem_cons.1 hx with rfl | hx
      · rw [e2]; exact l2
      · have := (List.pairwise_cons.1 hd2).1 x hx
        rw [e2] at this; linarith
    · simpa [List.getLast?_cons_cons] using q4
    · simp at q1; rw [← q1, e1]; exact h.n31.symm
  · have hne : t.p1.eq t.p3 = false := by
      by_contra hc
      have := (hT.eq h.m1 h.m3).1 (by simpa using hc)
      rw [this] at l1; exact lt_irrefl _ l1
    simp only [hne, if_true, Bool.not_false]
    refine ⟨?_, List.pairwise_cons.2 ⟨?_, hd1⟩, hd2, t.p3, t1, bl, b1, rfl, ?_, q3, q4, n1, ?_⟩
    · intro x hx
      simp only [List.cons_append, List.mem_append, List.mem_cons] at hx hmem
      rcases hx with rfl | hx
      · exact h.m3
      · exact hmem x (by tauto)
    · intro x hx
      rcases List.mem_cons.1 hx with rfl | hx
      · rw [e1]; exact l1
      · have := (List.pairwise_cons.1 hd1).1 x hx
        rw [e1] at this; linarith
    · simpa [List.getLast?_cons_cons] using q2
    · simp at q3; rw [← q3, e2]; exact h.n23.symm

theorem emit_growing {drop mono : Fin 3} {vs : List HP3} (hT : Tame drop vs) {t : Tri} (h : FedS mono vs t) {s s' : DecState}
    (hs : s.top = [] ∧ s.bottom = [] ∨ Growing mono vs s) {out : List Piece} (ho : emitTriangle drop t s = some (out, s')) :
    Growing mono vs s' ∧ ∀ p ∈ out, Peaked mono p.verts := by
  have hstart := start_growing (drop := drop) h
  rcases hs with ⟨h1, h2⟩ | hs
  · obtain ⟨st, sb, so⟩ := s
    simp only at h1 h2
    subst h1 h2
    simp [emitTriangle] at ho
    obtain ⟨rfl, rfl⟩ := ho
    exact ⟨hstart, by simp⟩
  · obtain ⟨st, sb, so⟩ := s
    have hpk := hs.peaked
    obtain ⟨tk, t1, bl, b1, q1, q2, q3, q4, -, -⟩ := hs.ends
    cases st with
    | nil => simp at q1
    | cons a tr =>
      cases sb with
      | nil => simp at q3
      | cons b br =>
        unfold emitTriangle at ho
        simp only at ho
        have emitCase : out = [⟨so, (DecState.mk (a :: tr) (b :: br) so).verts⟩] → s' = startPiece drop t →
            Growing mono vs s' ∧ ∀ p ∈ out, Peaked mono p.verts := by
          rintro rfl rfl
          refine ⟨hstart, ?_⟩
          intro p hp
          simp at hp; subst hp
          exact hpk
        split at ho
        · rename_i heq
          simp only [Bool.and_eq_true] at heq
          have e1 := (hT.eq (hs.mem a (by simp)) h.m1).1 heq.1
          have e2 := (hT.eq (hs.mem b (by simp)) h.m2).1 heq.2
          simp only [bind, Option.bind] at ho
          split at ho
          · exact absurd ho (by simp)
          · rename_i c hcc
            cases c
            · simp at ho
              exact emitCase ho.1.symm ho.2.symm
            · simp at ho
              obtain ⟨rfl, rfl⟩ := ho
              exact ⟨add_growing hT h hs e1 e2, by simp⟩
        · simp at ho
          exact emitCase ho.1.symm ho.2.symm

theorem emits_growing {drop mono : Fin 3} {vs : List HP3} (hT : Tame drop vs) :
    ∀ (l : List Tri) (s s' : DecState) (out : List Piece), (∀ t ∈ l, FedS mono vs t) →
    (s.top = [] ∧ s.bottom = [] ∨ Growing mono vs s) → emitTriangles drop l s = some (out, s') →
    (l ≠ [] → Growing mono vs s') ∧ ∀ p ∈ out, Peaked mono p.verts := by
  intro l
  induction l with
  | nil =>
    intro s s' out _ _ h
    simp [emitTriangles] at h
    obtain ⟨rfl, rfl⟩ := h
    exact ⟨fun h => absurd rfl h, by simp⟩
  | cons t l ih =>
    intro s s' out hl hs h
    simp only [emitTriangles, bind, Option.bind] at h
    cases hp : emitTriangle drop t s with
    | none => simp [hp] at h
    | some r =>
      obtain ⟨o1, s1⟩ := r
      simp only [hp] at h
      cases hq : emitTriangles drop l s1 with
      | none => simp [hq] at h
      | some q =>
        obtain ⟨o2, s2⟩ := q
        simp only [hq, pure, Option.some.injEq, Prod.mk.injEq] at h
        obtain ⟨rfl, rfl⟩ := h
        obtain ⟨g1, v1⟩ := emit_growing hT (hl t (by simp)) hs hp
        obtain ⟨g2, v2⟩ := ih s1 s2 o2 (fun x hx => hl x (by simp [hx])) (Or.inr g1) hq
        refine ⟨fun _ => ?_, ?_⟩
        · cases l with
          | nil => simp [emitTriangles] at hq; rw [← hq.2]; exact g1
          | cons x l => exact g2 (by simp)
        · intro p hp
          rcases List.mem_append.1 hp with h1 | h1
          · exact v1 p h1
          · exact v2 p h1

theorem decompose_peaked {drop mono : Fin 3} {t0 z : HP3} {top bottom : List HP3} {out : List Piece} (hne : mono ≠ drop)
    (hT : Tame drop (t0 :: top ++ bottom)) (hz : bottom.getLast? = some z) (hd : (t0 :: top ++ bottom).Pairwise (Differ mono))
    (hup : (t0 :: top ++ [z]).Pairwise fun a b => a.pt mono < b.pt mono)
    (hlow : (t0 :: bottom).Pairwise fun a b => a.pt mono < b.pt mono)
    (h : decompose drop mono (t0 :: top) bottom = some out) :
    ∀ p ∈ out, TurnsOnly drop p.orientation (p.verts.map (·.pt)) ∧ (p.orientation ≠ 0 → Peaked mono p.verts) := by
  have hap : (t0 :: top ++ bottom).Pairwise (Apart drop) := by
    refine hd.imp ?_
    intro a b hab
    unfold Differ at hab
    unfold Apart
    by_contra hc
    push Not at hc
    apply hab
    fin_cases drop <;> fin_cases mono <;> first | exact absurd rfl hne | exact hc.1 | exact hc.2
  have htri : ∀ tris st, triangulate drop mono [] (t0 :: top) bottom = some (tris, st) → ∀ t ∈ tris, t.Beyond mono :=
    fun tris st ht t htm => triangulate_strict hT hup hlow hz ht t htm
  have hconv := decompose_conv (strict := true) hne hT hap h (by
    intro tris st ht t htm; simpa using htri tris st ht t htm)
  intro p hp
  refine ⟨(hconv p hp).1, fun hor => ?_⟩
  simp only [decompose, bind, Option.bind] at h
  cases hq1 : triangulate drop mono [] (t0 :: top) bottom with
  | none => simp [hq1] at h
  | some r =>
    obtain ⟨tris, st⟩ := r
    simp only [hq1] at h
    cases hq : emitTriangles drop tris ⟨[], [], 0⟩ with
    | none => simp [hq] at h
    | some q =>
      obtain ⟨o2, s2⟩ := q
      simp only [hq, pure, Option.some.injEq] at h
      subst h
      obtain ⟨_, htl⟩ := triangulate_tiles hq1
      have hd' : ((t0 :: top).reverse ++ bottom).Pairwise (Differ mono) :=
        ((List.reverse_perm (t0 :: top)).append_right bottom).pairwise_iff (fun {x y} h => Ne.symm h) |>.2 hd
      have hfed : ∀ t ∈ tris, FedS mono (t0 :: top ++ bottom) t := by
        intro t ht
        obtain ⟨a1, a2, a3⟩ := htl.verts t ht
        obtain ⟨n1, n2, n3⟩ := htl.pw (Differ mono) (fun a b h => Ne.symm h) hd' t ht
        exact ⟨by simpa [or_assoc, or_comm, or_left_comm] using a1, by simpa [or_assoc, or_comm, or_left_comm] using a2,
          by simpa [or_assoc, or_comm, or_left_comm] using a3, n1, n2, n3, htri tris st hq1 t ht⟩
      obtain ⟨g, v⟩ := emits_growing hT tris _ s2 o2 hfed (Or.inl ⟨rfl, rfl⟩) hq
      rcases List.mem_append.1 hp with h1 | h1
      · exact v p h1
      · simp only [List.mem_singleton] at h1; subst h1
        by_cases hl : tris = []
        · subst hl
          simp [emitTriangles] at hq
          rw [← hq.2] at hor; simp at hor
        · exact (g hl).peaked

end Walnut.Mono
