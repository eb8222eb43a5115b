/- Proofs about the export. -/
import Verif.Vtk.Export
import Verif.Props.Mapper

namespace Walnut.Vtk
open Walnut.Geom Walnut.Util Walnut.Poly Walnut.Props Relation

variable {δ : Type} [DecidableEq δ]

/-- The objects of `s` access the values that they accessed in `s0`. -/
structure SameAcc (s0 s : RHeap) : Prop where
  inv : RInv s
  acc : ∀ b x, Accesses s0 b x → Accesses s b x

theorem deref_result {s : RHeap} (hi : RInv s) {a r : Nat} (h : Accesses s a r) : ∃ N s', (∀ fuel, N ≤ fuel → deref s fuel a = some (s', r)) ∧ SameAcc s s' := by
  obtain ⟨N, s', r', hN⟩ := primary_result hi h.live
  obtain ⟨p1, p2, p3, -, -, -⟩ := primary_spec hi N a s' r' (hN N le_rfl)
  obtain rfl := h.det p2
  refine ⟨N, s', fun fuel hf => ?_, p1, p3⟩
  obtain ⟨R, hR, hRr⟩ := (p3 _ _ h).root
  have hc := (p1.con r R hR).2 hRr
  unfold deref
  simp only [hN fuel hf, hR, hc, if_true]

theorem SameAcc.trans {s0 s s' : RHeap} (h : SameAcc s0 s) (h' : SameAcc s s') : SameAcc s0 s' := ⟨h'.inv, fun b x hb => h'.acc b x (h.acc b x hb)⟩

theorem number_spec {s0 : RHeap} : ∀ (es : List (δ × Nat)) (n : Numbering δ), SameAcc s0 n.heap → (∀ e ∈ es, ∃ r, Accesses s0 e.2 r) → (es.map Prod.snd).Nodup →
    ∃ N n', (∀ fuel, N ≤ fuel → number fuel n es = some n') ∧ SameAcc s0 n'.heap ∧ (∃ new, n'.points = n.points ++ new ∧ new.Sublist (es.map Prod.fst)) ∧
      (∀ e ∈ es, Accesses s0 e.2 e.2 → n'.points[n'.values e.2]? = some e.1) ∧ (∀ a, a ∉ es.map Prod.snd → n'.values a = n.values a) ∧
      ∀ k, n.points.length ≤ k → k < n'.points.length → ∃ e ∈ es, Accesses s0 e.2 e.2 ∧ n'.values e.2 = k := by
  intro es
  induction es with
  | nil => intro n hn _ _; exact ⟨0, n, fun _ _ => rfl, hn, ⟨[], by simp, by simp⟩, by simp, by simp, by intro k h1 h2; omega⟩
  | cons e es ih =>
    intro n hn hl hd
    obtain ⟨d, a⟩ := e
    rw [List.map_cons, List.nodup_cons] at hd
    obtain ⟨r, hr⟩ := hl (d, a) (by simp)
    obtain ⟨N1, hN1⟩ := primaryConst_accesses (hn.acc _ _ hr)
    have hl' : ∀ e ∈ es, ∃ r, Accesses s0 e.2 r := fun e he => hl e (by simp [he])
    by_cases hra : r = a
    · subst hra
      obtain ⟨N2, s', hN2, hs'⟩ := deref_result hn.inv (hn.acc _ _ hr)
      obtain ⟨N3, n', hN3, g1, ⟨new, g2, g2'⟩, g3, g4, g5⟩ := ih ⟨s', setAt n.values r n.points.length, n.points ++ [d]⟩ (hn.trans hs') hl' hd.2
      refine ⟨max N1 (max N2 N3), n', fun fuel hf => ?_, g1, ⟨d :: new, by rw [g2]; simp, by simpa using g2'⟩, ?_, ?_, ?_⟩
      · rw [number, isPrimary, hN1 fuel (by omega)]
        simp only [Option.map_some, decide_true, Option.bind_some, hN2 fuel (by omega)]
        exact hN3 fuel (by omega)
      · intro e he hacc
        rcases List.mem_cons.1 he with rfl | he
        · rw [g4 _ hd.1, g2]
          simp [setAt]
        · exact g3 e he hacc
      · intro b hb
        rw [List.map_cons, List.mem_cons, not_or] at hb
        rw [g4 b hb.2]
        simp [setAt, hb.1]
      · intro k h1 h2
        by_cases hk : k = n.points.length
        · exact ⟨(d, r), by simp, hr, by rw [g4 _ hd.1, hk]; simp [setAt]⟩
        · obtain ⟨e, he, h3⟩ := g5 k (by simp; omega) h2
          exact ⟨e, by simp [he], h3⟩
    · obtain ⟨N3, n', hN3, g1, ⟨new, g2, g2'⟩, g3, g4, g5⟩ := ih n hn hl' hd.2
      refine ⟨max N1 N3, n', fun fuel hf => ?_, g1, ⟨new, g2, by rw [List.map_cons]; exact g2'.cons _⟩, ?_, ?_, ?_⟩
      · rw [number, isPrimary, hN1 fuel (by omega)]
        simp only [Option.map_some, decide_eq_false hra, Option.bind_some]
        exact hN3 fuel (by omega)
      · intro e he hacc
        rcases List.mem_cons.1 he with rfl | he
        · exact absurd (hr.det hacc) hra
        · exact g3 e he hacc
      · intro b hb
        rw [List.map_cons, List.mem_cons, not_or] at hb
        exact g4 b hb.2
      · intro k h1 h2
        obtain ⟨e, he, h3⟩ := g5 k h1 h2
        exact ⟨e, by simp [he], h3⟩

theorem cell_spec {m : Mapper δ} {D : HP3 → δ} {s0 : RHeap} {values : Nat → Nat} {points : List δ} {f : HP3 → Nat} : ∀ (vs : List HP3) (s : RHeap), SameAcc s0 s →
    (∀ v ∈ vs, ∃ a r, m.find (D v) = some a ∧ Accesses s0 a r ∧ values r = f v) →
    ∃ N s', (∀ fuel, N ≤ fuel → cell fuel m D ⟨s, values, points⟩ vs = some (⟨s', values, points⟩, vs.map f)) ∧ SameAcc s0 s' := by
  intro vs
  induction vs with
  | nil => intro s hs _; exact ⟨0, s, fun _ _ => rfl, hs⟩
  | cons v vs ih =>
    intro s hs h
    obtain ⟨a, r, h1, h2, h3⟩ := h v (by simp)
    obtain ⟨N1, s1, hN1, hs1⟩ := deref_result hs.inv (hs.acc _ _ h2)
    obtain ⟨N2, s2, hN2, hs2⟩ := ih s1 (hs.trans hs1) fun w hw => h w (by simp [hw])
    refine ⟨max N1 N2, s2, fun fuel hf => ?_, hs2⟩
    rw [cell, h1]
    simp only [Option.bind_some, hN1 fuel (by omega), hN2 fuel (by omega), Option.map_some, h3, List.map_cons]

theorem cells_spec {m : Mapper δ} {D : HP3 → δ} {s0 : RHeap} {values : Nat → Nat} {points : List δ} {f : HP3 → Nat} : ∀ (fs : List (List HP3)) (s : RHeap), SameAcc s0 s →
    (∀ vs ∈ fs, ∀ v ∈ vs, ∃ a r, m.find (D v) = some a ∧ Accesses s0 a r ∧ values r = f v) →
    ∃ N s', (∀ fuel, N ≤ fuel → cells fuel m D ⟨s, values, points⟩ fs = some (⟨s', values, points⟩, fs.map (·.map f))) ∧ SameAcc s0 s' := by
  intro fs
  induction fs with
  | nil => intro s hs _; exact ⟨0, s, fun _ _ => rfl, hs⟩
  | cons vs fs ih =>
    intro s hs h
    obtain ⟨N1, s1, hN1, hs1⟩ := cell_spec (points := points) vs s hs (h vs (by simp))
    obtain ⟨N2, s2, hN2, hs2⟩ := ih s1 hs1 fun w hw => h w (by simp [hw])
    refine ⟨max N1 N2, s2, fun fuel hf => ?_, hs2⟩
    rw [cells, hN1 fuel (by omega)]
    simp only [Option.bind_some, hN2 fuel (by omega), Option.map_some, List.map_cons]

end Walnut.Vtk
