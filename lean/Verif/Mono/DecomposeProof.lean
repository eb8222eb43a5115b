/-
The polygons emitted by the decomposer tile the polygon, and never turn against their
orientation.
-/
import Verif.Mono.Decompose
import Verif.Mono.OrientProof

namespace Walnut.Mono
open Walnut.Geom

/-! ### sums -/

/-- The sum over the boundaries of a list of pieces. -/
def pieceSum (g : HP3 → HP3 → ℚ) (l : List Piece) : ℚ := (l.map fun p => cSum g p.verts).sum

@[simp] theorem pieceSum_nil (g : HP3 → HP3 → ℚ) : pieceSum g [] = 0 := rfl
@[simp] theorem pieceSum_cons (g : HP3 → HP3 → ℚ) (p : Piece) (l : List Piece) :
    pieceSum g (p :: l) = cSum g p.verts + pieceSum g l := rfl
@[simp] theorem pieceSum_append (g : HP3 → HP3 → ℚ) (l m : List Piece) :
    pieceSum g (l ++ m) = pieceSum g l + pieceSum g m := by simp [pieceSum]

theorem cSum_snoc (g : HP3 → HP3 → ℚ) (a b : HP3) (M : List HP3) :
    cSum g (a :: M ++ [b]) = pSum g (a :: M ++ [b]) + g b a := by
  show pSum g (a :: (M ++ [b]) ++ [a]) = _
  have : a :: (M ++ [b]) ++ [a] = (a :: M) ++ b :: [a] := by simp
  rw [this, pSum_append]
  simp [pSum]

theorem cSum_add (g : HP3 → HP3 → ℚ) (hg : ∀ a b, g a b = -g b a) (a b c : HP3) (M : List HP3) :
    cSum g (c :: (a :: M ++ [b])) = cSum g (a :: M ++ [b]) + (g a b + g b c + g c a) := by
  rw [← cSum_rotate]
  have e : a :: M ++ [b] ++ [c] = a :: (M ++ [b]) ++ [c] := by simp
  rw [e, cSum_snoc, cSum_snoc]
  have e2 : a :: (M ++ [b]) ++ [c] = (a :: M) ++ b :: [c] := by simp
  rw [e2, pSum_append]
  have e3 : a :: M ++ [b] = (a :: M) ++ [b] := rfl
  rw [e3]
  simp only [pSum]
  rw [hg b a]; ring

theorem cSum_tri (g : HP3 → HP3 → ℚ) (drop : Fin 3) (t : Tri) : cSum g (startPiece drop t).verts = t.sum g := by
  unfold startPiece DecState.verts Tri.sum
  cases t.isTop <;> simp [cSum, pSum] <;> ring

/-- Points of the polygon that are `==` are the same point. -/
theorem Tame.eq {drop : Fin 3} {vs : List HP3} (h : Tame drop vs) {a b : HP3} (ha : a ∈ vs) (hb : b ∈ vs) :
    a.eq b = true ↔ a.pt = b.pt :=
  Props.C20_eq a b (by have := h.pos a ha; omega) (by have := h.pos b hb; omega)

/-- What holds of the polygon being built. -/
structure Built (vs : List HP3) (s : DecState) : Prop where
  mem : ∀ a ∈ s.top ++ s.bottom, a ∈ vs
  both : s.top = [] ↔ s.bottom = []
  size : s.top ≠ [] → 3 ≤ s.top.length + s.bottom.length

theorem Built.verts_mem {vs : List HP3} {s : DecState} (h : Built vs s) : ∀ a ∈ s.verts, a ∈ vs := by
  intro a ha
  refine h.mem a ?_
  simpa [DecState.verts] using ha

theorem start_built {vs : List HP3} (drop : Fin 3) {t : Tri} (h1 : t.p1 ∈ vs) (h2 : t.p2 ∈ vs) (h3 : t.p3 ∈ vs) :
    Built vs (startPiece drop t) ∧ (startPiece drop t).top ≠ [] := by
  refine ⟨⟨?_, ?_, ?_⟩, ?_⟩ <;> unfold startPiece <;> cases t.isTop <;> simp [h1, h2, h3]

theorem verts_split (a b : HP3) (tr br : List HP3) (o : Int) :
    (DecState.mk (a :: tr) (b :: br) o).verts = a :: (tr ++ br.reverse) ++ [b] := by
  simp [DecState.verts]

theorem add_verts (t : Tri) (a b : HP3) (tr br : List HP3) (o0 o : Int) :
    let s' := addVertex t ⟨a :: tr, b :: br, o0⟩ o
    s'.orientation = o ∧
    ((t.isTop = true ∧ t.p1.eq t.p3 = true ∨ t.isTop = false ∧ t.p2.eq t.p3 = true) ∧
        s'.top = a :: tr ∧ s'.bottom = b :: br ∨
     t.isTop = true ∧ t.p1.eq t.p3 = false ∧ s'.top = t.p3 :: a :: tr ∧ s'.bottom = b :: br ∨
     t.isTop = false ∧ t.p2.eq t.p3 = false ∧ s'.top = a :: tr ∧ s'.bottom = t.p3 :: b :: br) := by
  unfold addVertex
  cases h : t.isTop <;> simp
  · cases h2 : t.p2.eq t.p3 <;> simp
  · cases h2 : t.p1.eq t.p3 <;> simp

theorem emit_built {drop : Fin 3} {vs : List HP3} (ht : Tame drop vs) {t : Tri} (h1 : t.p1 ∈ vs) (h2 : t.p2 ∈ vs)
    (h3 : t.p3 ∈ vs) {s s' : DecState} (hs : Built vs s) {out : List Piece}
    (h : emitTriangle drop t s = some (out, s')) :
    Built vs s' ∧ s'.top ≠ [] ∧
    (∀ f : Q3 → Q3 → ℚ, Antisymmetric f → let g := fun a b : HP3 => f a.pt b.pt
      cSum g s.verts + t.sum g = pieceSum g out + cSum g s'.verts) ∧
    (∀ p ∈ out, ∀ a ∈ p.verts, a ∈ vs) := by
  have hstart := start_built drop h1 h2 h3
  obtain ⟨st, sb, so⟩ := s
  unfold emitTriangle at h
  cases st with
  | nil =>
    have : sb = [] := hs.both.1 rfl
    subst this
    simp at h
    obtain ⟨rfl, rfl⟩ := h
    refine ⟨hstart.1, hstart.2, fun f _ => ?_, by simp⟩
    simp only
    rw [cSum_tri]
    simp [DecState.verts, cSum]
  | cons a tr =>
    cases sb with
    | nil => simp at h
    | cons b br =>
      simp only at h
      have hm := hs.verts_mem
      have emitCase : out = [⟨so, (DecState.mk (a :: tr) (b :: br) so).verts⟩] → s' = startPiece drop t →
          Built vs s' ∧ s'.top ≠ [] ∧
          (∀ f : Q3 → Q3 → ℚ, Antisymmetric f → let g := fun a b : HP3 => f a.pt b.pt
            cSum g (DecState.mk (a :: tr) (b :: br) so).verts + t.sum g = pieceSum g out + cSum g s'.verts) ∧
          (∀ p ∈ out, ∀ a ∈ p.verts, a ∈ vs) := by
        rintro rfl rfl
        refine ⟨hstart.1, hstart.2, fun f _ => ?_, ?_⟩
        · simp only
          rw [cSum_tri]; simp
        · intro p hp
          simp at hp; subst hp
          exact hm
      split at h
      · rename_i heq
        simp only [Bool.and_eq_true] at heq
        have ha : a ∈ vs := hs.mem a (by simp)
        have hb : b ∈ vs := hs.mem b (by simp)
        have e1 := (ht.eq ha h1).1 heq.1
        have e2 := (ht.eq hb h2).1 heq.2
        generalize (if so = 0 then t.p2.get2DTwistDirReduced drop t.p1 t.p3 else so) = o at h
        simp only [bind, Option.bind] at h
        split at h
        · exact absurd h (by simp)
        · rename_i c hc
          cases c
          · simp at h
            exact emitCase h.1.symm h.2.symm
          · simp at h
            obtain ⟨rfl, rfl⟩ := h
            obtain ⟨_, hadd⟩ := add_verts t a b tr br so o
            have hsz := hs.size (by simp)
            simp at hsz
            generalize hS : addVertex t ⟨a :: tr, b :: br, so⟩ o = S at hadd
            obtain ⟨S1, S2, S3⟩ := S
            simp only at hadd
            have anti0 : ∀ f : Q3 → Q3 → ℚ, Antisymmetric f → ∀ x, f x x = 0 := by
              intro f hf x; have := hf x x; linarith
            rcases hadd with ⟨hd, rfl, rfl⟩ | ⟨_, hne, rfl, rfl⟩ | ⟨_, hne, rfl, rfl⟩
            · refine ⟨⟨hs.mem, hs.both, hs.size⟩, by simp, fun f hf => ?_, by simp⟩
              simp only [verts_split]
              have : t.sum (fun a b : HP3 => f a.pt b.pt) = 0 := by
                rcases hd with ⟨_, h5⟩ | ⟨_, h5⟩
                · have e := (ht.eq h1 h3).1 h5
                  simp only [Tri.sum, e]
                  rw [hf t.p3.pt t.p2.pt, anti0 f hf]; ring
                · have e := (ht.eq h2 h3).1 h5
                  simp only [Tri.sum, e]
                  rw [hf t.p1.pt t.p3.pt, anti0 f hf]; ring
              rw [this]; simp
            · refine ⟨⟨?_, by simp, by intro _; simp; omega⟩, by simp, fun f hf => ?_, by simp⟩
              · intro x hx
                simp only [List.cons_append, List.mem_cons] at hx
                rcases hx with h5 | h5
                · subst h5; exact h3
                · exact hs.mem x (by simpa using h5)
              · simp only
                have e5 : (DecState.mk (t.p3 :: a :: tr) (b :: br) S3).verts =
                    t.p3 :: (a :: (tr ++ br.reverse) ++ [b]) := by simp [DecState.verts]
                rw [e5, verts_split, cSum_add _ (fun x y => hf x.pt y.pt)]
                simp only [Tri.sum, e1, e2, pieceSum_nil]
                ring
            · refine ⟨⟨?_, by simp, by intro _; simp; omega⟩, by simp, fun f hf => ?_, by simp⟩
              · intro x hx
                simp only [List.cons_append, List.mem_cons, List.mem_append] at hx
                rcases hx with h5 | h5 | h5 | h5 | h5
                · exact hs.mem x (by simp [h5])
                · exact hs.mem x (by simp [h5])
                · subst h5; exact h3
                · exact hs.mem x (by simp [h5])
                · exact hs.mem x (by simp [h5])
              · simp only
                have e5 : (DecState.mk (a :: tr) (t.p3 :: b :: br) S3).verts =
                    (a :: (tr ++ br.reverse) ++ [b]) ++ [t.p3] := by simp [DecState.verts]
                rw [e5, cSum_rotate, verts_split, cSum_add _ (fun x y => hf x.pt y.pt)]
                simp only [Tri.sum, e1, e2, pieceSum_nil]
                ring
      · simp at h
        exact emitCase h.1.symm h.2.symm

theorem emits_sum {drop : Fin 3} {vs : List HP3} (ht : Tame drop vs) : ∀ (l : List Tri) (s s' : DecState)
    (out : List Piece), (∀ t ∈ l, t.p1 ∈ vs ∧ t.p2 ∈ vs ∧ t.p3 ∈ vs) → Built vs s →
    emitTriangles drop l s = some (out, s') →
    Built vs s' ∧ (∀ f : Q3 → Q3 → ℚ, Antisymmetric f → let g := fun a b : HP3 => f a.pt b.pt
      cSum g s.verts + triSum g l = pieceSum g out + cSum g s'.verts) ∧
    (∀ p ∈ out, ∀ a ∈ p.verts, a ∈ vs) := by
  intro l
  induction l with
  | nil =>
    intro s s' out _ hs h
    simp [emitTriangles] at h
    obtain ⟨rfl, rfl⟩ := h
    exact ⟨hs, fun f _ => by simp, by simp⟩
  | cons t l ih =>
    intro s s' out hl hs h
    simp only [emitTriangles, bind, Option.bind] at h
    cases hp : emitTriangle drop t s with
    | none => simp [hp] at h
    | some r =>
      obtain ⟨o1, s1⟩ := r
      simp only [hp] at h
      cases hq : emitTriangles drop l s1 with
      | none => simp [hq] at h
      | some q =>
        obtain ⟨o2, s2⟩ := q
        simp only [hq, pure, Option.some.injEq, Prod.mk.injEq] at h
        obtain ⟨rfl, rfl⟩ := h
        obtain ⟨m1, m2, m3⟩ := hl t (by simp)
        obtain ⟨b1, _, sum1, v1⟩ := emit_built ht m1 m2 m3 hs hp
        obtain ⟨b2, sum2, v2⟩ := ih s1 s2 o2 (fun x hx => hl x (by simp [hx])) b1 hq
        refine ⟨b2, fun f hf => ?_, ?_⟩
        · have e1 := sum1 f hf
          have e2 := sum2 f hf
          simp only at e1 e2 ⊢
          rw [triSum_cons, pieceSum_append]
          linarith
        · intro p hp
          rcases List.mem_append.1 hp with h1 | h1
          · exact v1 p h1
          · exact v2 p h1

theorem decompose_sum {drop mono : Fin 3} {top bottom : List HP3} {out : List Piece}
    (ht : Tame drop (top ++ bottom)) (h : decompose drop mono top bottom = some out) :
    (∀ f : Q3 → Q3 → ℚ, Antisymmetric f → pieceSum (fun a b : HP3 => f a.pt b.pt) out =
      cSum (fun a b : HP3 => f a.pt b.pt) (top.reverse ++ bottom)) ∧
    (∀ p ∈ out, ∀ a ∈ p.verts, a ∈ top ++ bottom) := by
  simp only [decompose, bind, Option.bind] at h
  cases hp : triangulate drop mono [] top bottom with
  | none => simp [hp] at h
  | some r =>
    obtain ⟨tris, st⟩ := r
    simp only [hp] at h
    cases hq : emitTriangles drop tris ⟨[], [], 0⟩ with
    | none => simp [hq] at h
    | some q =>
      obtain ⟨o2, s2⟩ := q
      simp only [hq, pure, Option.some.injEq] at h
      subst h
      obtain ⟨_, htl⟩ := triangulate_tiles hp
      have hv : ∀ t ∈ tris, t.p1 ∈ top ++ bottom ∧ t.p2 ∈ top ++ bottom ∧ t.p3 ∈ top ++ bottom := by
        intro t h; simpa using htl.verts t h
      obtain ⟨b2, sum2, v2⟩ := emits_sum ht tris _ s2 o2 hv ⟨by simp, by simp, by simp⟩ hq
      refine ⟨fun f hf => ?_, ?_⟩
      · have e := sum2 f hf
        simp only at e
        rw [htl.sum _ (fun a b => hf a.pt b.pt)]
        rw [show cSum (fun a b : HP3 => f a.pt b.pt) (DecState.mk [] [] 0).verts = 0 from rfl] at e
        rw [pieceSum_append, pieceSum_cons, pieceSum_nil]
        linarith
      · intro p hp
        rcases List.mem_append.1 hp with h1 | h1
        · exact v2 p h1
        · simp at h1; subst h1
          exact b2.verts_mem

end Walnut.Mono
