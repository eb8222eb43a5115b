/-
Lemmas for C65 and C56: the sum over the boundaries of the polygons emitted by the factory.
-/
import Verif.Mono.Factory
import Verif.Mono.PlanarProof
import Verif.Props.Orienting
import Verif.Props.Ranges
import Verif.Props.Lines
import Verif.Poly.Spec

namespace Walnut.Mono
open Walnut.Geom Walnut.Props

/-! ### flat pieces -/

/-- The quantity is additive for vertices that are collinear in the projection. -/
def FlatAdd (drop : Fin 3) (vs : List HP3) (g : HP3 → HP3 → ℚ) : Prop :=
  ∀ a ∈ vs, ∀ b ∈ vs, ∀ c ∈ vs, T drop a b c = 0 → g a b + g b c = g a c

theorem FlatAdd.tri {drop : Fin 3} {vs : List HP3} {g : HP3 → HP3 → ℚ} (h : FlatAdd drop vs g)
    (hg : ∀ a b, g a b = -g b a) {t : Tri} (h1 : t.p1 ∈ vs) (h2 : t.p2 ∈ vs) (h3 : t.p3 ∈ vs)
    (hz : T drop t.p2 t.p1 t.p3 = 0) : t.sum g = 0 := by
  have := h t.p1 h1 t.p2 h2 t.p3 h3 (by simp only [T, turnAt] at hz ⊢; linarith)
  simp only [Tri.sum]
  rw [hg t.p3 t.p1]; linarith

theorem emit_shape {drop : Fin 3} {t : Tri} {s s' : DecState} {out : List Piece} (hb : s.top = [] ↔ s.bottom = [])
    (h : emitTriangle drop t s = some (out, s')) :
    (s.top = [] ∧ out = [] ∧ s' = startPiece drop t) ∨
    (out = [⟨s.orientation, s.verts⟩] ∧ s' = startPiece drop t) ∨
    (out = [] ∧ s'.orientation = if s.orientation = 0 then t.p2.get2DTwistDirReduced drop t.p1 t.p3 else s.orientation) := by
  obtain ⟨st, sb, so⟩ := s
  unfold emitTriangle at h
  cases st with
  | nil =>
    have : sb = [] := hb.1 rfl
    subst this
    simp at h
    exact Or.inl ⟨rfl, h.1, h.2.symm⟩
  | cons a tr =>
    cases sb with
    | nil => simp at h
    | cons b br =>
      simp only at h
      split at h
      · generalize ho : (if so = 0 then t.p2.get2DTwistDirReduced drop t.p1 t.p3 else so) = o at h
        simp only [bind, Option.bind] at h
        split at h
        · exact absurd h (by simp)
        · rename_i c hc
          cases c
          · simp at h
            exact Or.inr (Or.inl ⟨h.1.symm, h.2.symm⟩)
          · simp at h
            obtain ⟨rfl, rfl⟩ := h
            exact Or.inr (Or.inr ⟨rfl, by rw [(add_verts t a b tr br so o).1, ← ho]⟩)
      · simp at h
        exact Or.inr (Or.inl ⟨h.1.symm, h.2.symm⟩)

theorem emits_zero {drop : Fin 3} {vs : List HP3} (ht : Tame drop vs) {f : Q3 → Q3 → ℚ} (hf : Antisymmetric f)
    (hadd : FlatAdd drop vs fun a b => f a.pt b.pt) : ∀ (l : List Tri) (s s' : DecState)
    (out : List Piece), (∀ t ∈ l, t.p1 ∈ vs ∧ t.p2 ∈ vs ∧ t.p3 ∈ vs) → Built vs s →
    (s.orientation = 0 → cSum (fun a b : HP3 => f a.pt b.pt) s.verts = 0) →
    emitTriangles drop l s = some (out, s') →
    (s'.orientation = 0 → cSum (fun a b : HP3 => f a.pt b.pt) s'.verts = 0) ∧
    ∀ p ∈ out, p.orientation = 0 → cSum (fun a b : HP3 => f a.pt b.pt) p.verts = 0 := by
  intro l
  induction l with
  | nil =>
    intro s s' out _ hs h0 h
    simp [emitTriangles] at h
    obtain ⟨rfl, rfl⟩ := h
    exact ⟨h0, by simp⟩
  | cons t l ih =>
    intro s s' out hl hs h0 h
    simp only [emitTriangles, bind, Option.bind] at h
    cases hp : emitTriangle drop t s with
    | none => simp [hp] at h
    | some r =>
      obtain ⟨o1, s1⟩ := r
      simp only [hp] at h
      cases hq : emitTriangles drop l s1 with
      | none => simp [hq] at h
      | some q =>
        obtain ⟨o2, s2⟩ := q
        simp only [hq, pure, Option.some.injEq, Prod.mk.injEq] at h
        obtain ⟨rfl, rfl⟩ := h
        obtain ⟨m1, m2, m3⟩ := hl t (by simp)
        obtain ⟨b1, _, sum1, _⟩ := emit_built ht m1 m2 m3 hs hp
        have e1 := sum1 f hf
        simp only at e1
        have zero : t.p2.get2DTwistDirReduced drop t.p1 t.p3 = 0 → t.sum (fun a b : HP3 => f a.pt b.pt) = 0 :=
          fun hz => hadd.tri (fun a b => hf _ _) m1 m2 m3 ((ht.twist m2 m1 m3).2.2.1.1 hz)
        have hstart : (startPiece drop t).orientation = 0 →
            cSum (fun a b : HP3 => f a.pt b.pt) (startPiece drop t).verts = 0 := by
          intro hz; rw [cSum_tri]; exact zero hz
        have key : (s1.orientation = 0 → cSum (fun a b : HP3 => f a.pt b.pt) s1.verts = 0) ∧
            ∀ p ∈ o1, p.orientation = 0 → cSum (fun a b : HP3 => f a.pt b.pt) p.verts = 0 := by
          rcases emit_shape hs.both hp with ⟨_, rfl, rfl⟩ | ⟨rfl, rfl⟩ | ⟨rfl, ho⟩
          · exact ⟨hstart, by simp⟩
          · exact ⟨hstart, by intro p hp; simp at hp; subst hp; exact h0⟩
          · refine ⟨fun hz => ?_, by simp⟩
            rw [ho] at hz
            by_cases h5 : s.orientation = 0
            · rw [if_pos h5] at hz
              rw [h0 h5, zero hz] at e1
              simp at e1; exact e1.symm
            · rw [if_neg h5] at hz; exact absurd hz h5
        obtain ⟨k1, k2⟩ := ih s1 s2 o2 (fun x hx => hl x (by simp [hx])) b1 key.1 hq
        refine ⟨k1, fun p hp => ?_⟩
        rcases List.mem_append.1 hp with h1 | h1
        · exact key.2 p h1
        · exact k2 p h1

theorem decompose_zero {drop mono : Fin 3} {top bottom : List HP3} {out : List Piece}
    (ht : Tame drop (top ++ bottom)) {f : Q3 → Q3 → ℚ} (hf : Antisymmetric f)
    (hadd : FlatAdd drop (top ++ bottom) fun a b => f a.pt b.pt) (h : decompose drop mono top bottom = some out) :
    ∀ p ∈ out, p.orientation = 0 → cSum (fun a b : HP3 => f a.pt b.pt) p.verts = 0 := by
  simp only [decompose, bind, Option.bind] at h
  cases hp : triangulate drop mono [] top bottom with
  | none => simp [hp] at h
  | some r =>
    obtain ⟨tris, st⟩ := r
    simp only [hp] at h
    cases hq : emitTriangles drop tris ⟨[], [], 0⟩ with
    | none => simp [hq] at h
    | some q =>
      obtain ⟨o2, s2⟩ := q
      simp only [hq, pure, Option.some.injEq] at h
      subst h
      obtain ⟨_, htl⟩ := triangulate_tiles hp
      have hv : ∀ t ∈ tris, t.p1 ∈ top ++ bottom ∧ t.p2 ∈ top ++ bottom ∧ t.p3 ∈ top ++ bottom := by
        intro t h; simpa using htl.verts t h
      obtain ⟨k1, k2⟩ := emits_zero ht hf hadd tris _ s2 o2 hv ⟨by simp, by simp, by simp⟩ (fun _ => rfl) hq
      intro p hp
      rcases List.mem_append.1 hp with h1 | h1
      · exact k2 p h1
      · simp at h1; subst h1; exact k1

/-- The sum over a closed polyline whose segments are differences is zero. -/
theorem pSum_diff {g : HP3 → HP3 → ℚ} {φ : HP3 → ℚ} : ∀ (l : List HP3) (x y : HP3),
    (∀ a ∈ x :: l ++ [y], ∀ b ∈ x :: l ++ [y], g a b = φ b - φ a) → pSum g (x :: l ++ [y]) = φ y - φ x := by
  intro l
  induction l with
  | nil => intro x y h; simp only [List.nil_append, List.cons_append, pSum]; rw [h x (by simp) y (by simp)]; ring
  | cons a l ih =>
    intro x y h
    simp only [List.cons_append, pSum]
    have := ih a y (fun u hu v hv => h u (by simp at hu ⊢; tauto) v (by simp at hv ⊢; tauto))
    simp only [List.cons_append] at this
    rw [this, h x (by simp) a (by simp)]; ring

theorem cSum_flat {g : HP3 → HP3 → ℚ} {l : List HP3} (h : ∀ a ∈ l, ∀ b ∈ l, ∀ c ∈ l, g a b + g b c = g a c) :
    cSum g l = 0 := by
  cases l with
  | nil => rfl
  | cons x r =>
    have := pSum_diff (g := g) (φ := fun v => g x v) r x x (by
      intro a ha b hb
      have := h x (by simp) a (by simp at ha ⊢; tauto) b (by simp at hb ⊢; tauto)
      linarith)
    simp only [cSum]; rw [this]; ring

/-! ### the pieces with an orientation -/

/-- The sum over the boundaries of the pieces that are not skipped. -/
def liveSum (g : HP3 → HP3 → ℚ) (l : List Piece) : ℚ :=
  pieceSum g (l.filter fun p => p.orientation ≠ 0)

theorem liveSum_eq {g : HP3 → HP3 → ℚ} {l : List Piece} (h : ∀ p ∈ l, p.orientation = 0 → cSum g p.verts = 0) :
    liveSum g l = pieceSum g l := by
  induction l with
  | nil => rfl
  | cons p l ih =>
    have e := ih (fun q hq => h q (by simp [hq]))
    unfold liveSum at e ⊢
    by_cases ho : p.orientation = 0
    · rw [List.filter_cons_of_neg (by simp [ho]), e, pieceSum_cons, h p (by simp) ho, zero_add]
    · rw [List.filter_cons_of_pos (by simp [ho]), pieceSum_cons, e, pieceSum_cons]

theorem orientBuild_sum {drop mono : Fin 3} {m z : HP3} {l1 l2 : List HP3} (hne : mono ≠ drop)
    (hT : Tame drop (both m z l1 l2)) (hF : Faithful drop ((both m z l1 l2).map (·.pt)))
    (h1 : Ascending mono ((m :: l1 ++ [z]).map (·.pt))) (h2 : Ascending mono ((m :: l2 ++ [z]).map (·.pt)))
    {out : List Piece} (h : orientBuild drop mono (m :: l1 ++ [z]) (m :: l2 ++ [z]) = some out)
    {f : Q3 → Q3 → ℚ} (hf : Antisymmetric f) (hadd : FlatAdd drop (both m z l1 l2) fun a b => f a.pt b.pt) :
    liveSum (fun a b => f a.pt b.pt) out = cSum (fun a b => f a.pt b.pt) (m :: l1 ++ z :: l2.reverse) ∧
    (∀ p ∈ out, ∀ v ∈ p.verts, v ∈ both m z l1 l2) := by
  cases hd : detect drop mono (m :: l1 ++ [z]) (m :: l2 ++ [z]) with
  | none => simp only [orientBuild, hd, bind, Option.bind] at h; cases h
  | some r =>
    cases r with
    | none =>
      have hall := (C50_collinear drop mono m z l1 l2 hne hT hF h1 h2 none hd).1 rfl
      simp only [orientBuild, hd, bind, Option.bind, pure, Option.some.injEq, dropLast_chain] at h
      subst h
      constructor
      · have : cSum (fun a b : HP3 => f a.pt b.pt) (m :: l1 ++ z :: l2.reverse) = 0 := by
          apply cSum_flat
          have hmem : ∀ v ∈ m :: l1 ++ z :: l2.reverse, v ∈ both m z l1 l2 := by
            intro v hv; simp at hv ⊢; tauto
          intro a ha b hb c hc
          exact hadd a (hmem a ha) b (hmem b hb) c (hmem c hc)
            (hall _ (List.mem_map_of_mem (hmem a ha)) _ (List.mem_map_of_mem (hmem b hb)) _ (List.mem_map_of_mem (hmem c hc)))
        rw [this]; rfl
      · intro p hp v hv
        simp only [List.mem_singleton] at hp; subst hp
        simp at hv ⊢; tauto
    | some fl =>
      obtain ⟨hs, hm⟩ := C50_boundary drop mono m z l1 l2 hT fl hd out h
      refine ⟨?_, hm⟩
      have e := hs f hf
      rw [loopSum_map] at e
      rw [liveSum_eq, ← e]
      · unfold pieceSum
        congr 1
        apply List.map_congr_left
        intro p _; rw [loopSum_map]
      · -- pieces without an orientation
        intro p hp ho
        simp only [orientBuild, hd, bind, Option.bind] at h
        cases fl with
        | false =>
          simp only [dropLast_chain] at h
          cases hq : decompose drop mono (m :: l2) (m :: l1 ++ [z]).tail with
          | none => simp only [hq] at h; cases h
          | some o =>
            simp only [hq, pure, Option.some.injEq] at h
            have hm2 : ∀ v ∈ m :: l2 ++ (m :: l1 ++ [z]).tail, v ∈ both m z l1 l2 := by
              intro v hv; simp at hv ⊢; tauto
            have hz := decompose_zero (hT.mono hm2) hf
              (fun a ha b hb c hc => hadd a (hm2 a ha) b (hm2 b hb) c (hm2 c hc)) hq
            subst h
            simp only [List.mem_map] at hp
            obtain ⟨p', hp', rfl⟩ := hp
            simp only [emitRange] at ho ⊢
            exact hz p' hp' ho
        | true =>
          simp only [dropLast_chain] at h
          cases hq : decompose drop mono (m :: l1) (m :: l2 ++ [z]).tail with
          | none => simp only [hq] at h; cases h
          | some o =>
            simp only [hq, pure, Option.some.injEq] at h
            have hm2 : ∀ v ∈ m :: l1 ++ (m :: l2 ++ [z]).tail, v ∈ both m z l1 l2 := by
              intro v hv; simp at hv ⊢; tauto
            have hz := decompose_zero (hT.mono hm2) hf
              (fun a ha b hb c hc => hadd a (hm2 a ha) b (hm2 b hb) c (hm2 c hc)) hq
            subst h
            simp only [List.mem_map] at hp
            obtain ⟨p', hp', rfl⟩ := hp
            simp only [emitRange, if_true] at ho ⊢
            rw [cSum_reverse _ (fun a b => hf _ _), hz p' hp' (by omega), neg_zero]

/-! ### the edges -/

theorem line_valid {a b : HP3} (ha : a.w ≠ 0) (hb : b.w ≠ 0) :
    ((PL.ofHomoPoints a b).isValid = false ↔ a.pt = b.pt) ∧
    ((PL.ofHomoPoints a b).isValid = true → Poly.EdgeLine (PL.ofHomoPoints a b) a.pt b.pt) := by
  have qa : (a.w : ℚ) ≠ 0 := by exact_mod_cast ha
  have qb : (b.w : ℚ) ≠ 0 := by exact_mod_cast hb
  have e : ((a.w : ℚ) * b.w * absMult2 a.w b.w) = |(a.w : ℚ) * b.w| := by
    exact_mod_cast absMult2_mul_self ha hb
  have dir : ∀ i, (PL.ofHomoPoints a b).d.q i = |(a.w : ℚ) * b.w| * (b.pt i - a.pt i) := by
    intro i
    rw [← e]
    fin_cases i <;> simp [PL.ofHomoPoints, V3.scale, V3.sub] <;> field_simp
  have hk : (0 : ℚ) < |(a.w : ℚ) * b.w| := by positivity
  constructor
  · have i0 := dir 0
    have i1 := dir 1
    have i2 := dir 2
    have hz : (PL.ofHomoPoints a b).isValid = false ↔ ∀ i, (PL.ofHomoPoints a b).d.q i = 0 := by
      simp only [PL.isValid, V3.isZero, Bool.not_eq_false', decide_eq_true_eq]
      rw [Fin.forall_fin_succ, Fin.forall_fin_succ, Fin.forall_fin_succ]
      simp [V3.q]
      rfl
    rw [hz]
    constructor
    · intro h; funext i
      have := h i
      rw [dir i] at this
      rcases mul_eq_zero.1 this with h0 | h0
      · exact absurd h0 hk.ne'
      · linarith
    · intro h i; rw [dir i, h]; ring
  · intro _
    refine ⟨?_, _, hk, dir⟩
    apply q3_ext <;> simp [PL.ofHomoPoints, V3.scale, V3.sub, V3.cross] <;> field_simp <;> ring

theorem emitEdges_sum {f : Q3 → Q3 → ℚ} (hf : Antisymmetric f) (first : HP3) (hw1 : first.w ≠ 0) :
    ∀ (r : List HP3) (prev : HP3), prev.w ≠ 0 → (∀ v ∈ r, v.w ≠ 0) →
    pSum (fun a b : HP3 => f a.pt b.pt) ((emitEdges first prev r).map (·.1) ++ [first]) =
      pSum (fun a b : HP3 => f a.pt b.pt) (prev :: r ++ [first]) ∧
    ((emitEdges first prev r = [] ∧ prev.pt = first.pt ∧ ∀ v ∈ r, v.pt = prev.pt) ∨
      ((emitEdges first prev r).map (·.1)).head? = some prev) := by
  have f0 : ∀ x, f x x = 0 := fun x => by linarith [hf x x]
  intro r
  induction r with
  | nil =>
    intro prev hp _
    obtain ⟨hv, -⟩ := line_valid hp hw1
    simp only [emitEdges]
    cases hval : (PL.ofHomoPoints prev first).isValid with
    | true => simp
    | false =>
      have he := hv.1 hval
      simp [pSum, he, f0]
  | cons p r ih =>
    intro prev hp hw
    have hpw : p.w ≠ 0 := hw p (by simp)
    obtain ⟨hv, -⟩ := line_valid hp hpw
    simp only [emitEdges]
    cases hval : (PL.ofHomoPoints prev p).isValid with
    | true =>
      obtain ⟨i1, i2⟩ := ih p hpw (fun v hv => hw v (by simp [hv]))
      have hne : prev.pt ≠ p.pt := fun hc => by rw [hv.2 hc] at hval; simp at hval
      simp only [if_true]
      refine ⟨?_, Or.inr rfl⟩
      rcases i2 with ⟨e, hpf, hall⟩ | hh
      · rw [e] at i1 ⊢
        simp only [List.map_nil, List.nil_append, List.map_cons, List.cons_append] at i1 ⊢
        simp only [pSum] at i1 ⊢
        rw [← i1, hpf]
      · cases hE : (emitEdges first p r).map (·.1) with
        | nil => rw [hE] at hh; simp at hh
        | cons a E =>
          rw [hE] at hh i1; simp at hh; subst hh
          simp only [List.map_cons, hE, List.cons_append, pSum] at i1 ⊢
          rw [i1]
    | false =>
      have he := hv.1 hval
      obtain ⟨i1, i2⟩ := ih prev hp (fun v hv => hw v (by simp [hv]))
      simp only [Bool.false_eq_true, if_false]
      constructor
      · rw [i1]
        cases r with
        | nil => simp only [List.nil_append, List.cons_append, pSum, he, f0]; ring
        | cons a r => simp only [List.cons_append, pSum, he, f0]; ring
      · rcases i2 with ⟨e, hpf, hall⟩ | hh
        · left
          refine ⟨e, hpf, ?_⟩
          intro v hv; simp at hv; rcases hv with rfl | hv
          · exact he.symm
          · exact hall v hv
        · exact Or.inr hh

theorem emitEdges_cSum {f : Q3 → Q3 → ℚ} (hf : Antisymmetric f) {v : HP3} {r : List HP3} (hw : ∀ u ∈ v :: r, u.w ≠ 0) :
    cSum (fun a b : HP3 => f a.pt b.pt) ((emitEdges v v r).map (·.1)) = cSum (fun a b : HP3 => f a.pt b.pt) (v :: r) := by
  obtain ⟨h1, h2⟩ := emitEdges_sum hf v (hw v (by simp)) r v (hw v (by simp)) (fun u hu => hw u (by simp [hu]))
  simp only [cSum]
  rw [← h1]
  rcases h2 with ⟨e, -, -⟩ | hh
  · rw [e]; simp [pSum]
  · cases hE : (emitEdges v v r).map (·.1) with
    | nil => rw [hE] at hh; simp at hh
    | cons a E => rw [hE] at hh; simp at hh; subst hh; rfl

theorem emitEdges_mem {first : HP3} : ∀ (r : List HP3) (prev : HP3), ∀ e ∈ emitEdges first prev r, e.1 = prev ∨ e.1 ∈ r := by
  intro r
  induction r with
  | nil => intro prev e he; simp only [emitEdges] at he; split at he <;> simp at he; exact Or.inl (by rw [he])
  | cons p r ih =>
    intro prev e he
    simp only [emitEdges] at he
    split at he
    · simp only [List.mem_cons] at he
      rcases he with rfl | he
      · exact Or.inl rfl
      · rcases ih p e he with h | h
        · exact Or.inr (by simp [h])
        · exact Or.inr (by simp [h])
    · rcases ih prev e he with h | h
      · exact Or.inl h
      · exact Or.inr (by simp [h])

/-- The sum over the boundaries of the polygons emitted. -/
def outSum (g : HP3 → HP3 → ℚ) (l : List OutPoly) : ℚ := (l.map fun p => cSum g (p.edges.map (·.1))).sum

@[simp] theorem outSum_nil (g : HP3 → HP3 → ℚ) : outSum g [] = 0 := rfl
@[simp] theorem outSum_cons (g : HP3 → HP3 → ℚ) (p : OutPoly) (l : List OutPoly) :
    outSum g (p :: l) = cSum g (p.edges.map (·.1)) + outSum g l := rfl
@[simp] theorem outSum_append (g : HP3 → HP3 → ℚ) (l m : List OutPoly) :
    outSum g (l ++ m) = outSum g l + outSum g m := by simp [outSum]

theorem emitAll_sum {plane : HS3} {drop : Fin 3} {po : Int} {f : Q3 → Q3 → ℚ} (hf : Antisymmetric f) :
    ∀ (l : List Piece) (out : List OutPoly), (∀ p ∈ l, ∀ v ∈ p.verts, v.w ≠ 0) → emitAll plane drop po l = some out →
    outSum (fun a b => f a.pt b.pt) out = liveSum (fun a b => f a.pt b.pt) l := by
  intro l
  induction l with
  | nil => intro out _ h; simp [emitAll] at h; subst h; rfl
  | cons p l ih =>
    intro out hw h
    simp only [emitAll, bind, Option.bind] at h
    cases ho : emitOriented plane drop po p with
    | none => simp [ho] at h
    | some o =>
      simp only [ho] at h
      cases hq : emitAll plane drop po l with
      | none => simp [hq] at h
      | some q =>
        simp only [hq, pure, Option.some.injEq] at h
        subst h
        have e := ih q (fun x hx => hw x (by simp [hx])) hq
        rw [outSum_append, e]
        unfold emitOriented at ho
        by_cases hz : p.orientation = 0
        · rw [if_pos hz] at ho
          simp at ho; subst ho
          simp [liveSum, hz]
        · rw [if_neg hz] at ho
          cases hv : p.verts with
          | nil => rw [hv] at ho; simp at ho
          | cons v r =>
            rw [hv] at ho
            simp only [Option.some.injEq] at ho
            subst ho
            have := emitEdges_cSum hf (v := v) (r := r) (fun u hu => hw p (by simp) u (by rw [hv]; exact hu))
            unfold liveSum
            rw [List.filter_cons_of_pos (by simp [hz]), pieceSum_cons, hv, ← this]
            simp [outSum]

/-! ### the loops -/

theorem mono_ne (drop : Fin 3) : monoOf drop ≠ drop := by fin_cases drop <;> decide

theorem chain_form {c : List HP3} {lo hi : HP3} (h1 : c.head? = some lo) (h2 : c.getLast? = some hi) (h3 : 2 ≤ c.length) :
    ∃ l, c = lo :: l ++ [hi] := by
  cases c with
  | nil => simp at h1
  | cons a r =>
    simp at h1; subst h1
    cases r using List.reverseRecOn with
    | nil => simp at h3
    | append_singleton r b =>
      have e : (a :: (r ++ [b])).getLast? = some b := by
        rw [show a :: (r ++ [b]) = (a :: r) ++ [b] from rfl, List.getLast?_append]; rfl
      rw [e] at h2; simp at h2; subst h2
      exact ⟨r, rfl⟩

theorem detect_length {drop mono : Fin 3} {c1 c2 : List HP3} {r : Option Bool} (h : detect drop mono c1 c2 = some r) :
    2 ≤ c1.length ∧ 2 ≤ c2.length := by
  unfold detect at h
  split at h
  · simp
  · simp at h

theorem seg_mem {vs : List HP3} {i j : Nat} {v : HP3} (h : v ∈ seg vs i j) : v ∈ vs :=
  List.mem_of_mem_take (List.mem_of_mem_drop h)

theorem cut_mem {all c1 c2 rest : List HP3} (h : Cut all c1 c2 rest) : ∀ v ∈ c1 ++ c2, v ∈ all := by
  obtain ⟨p1, p2, p3, p4, p5, lo, hi, hall, hc1, hlo, hhi, hc2, -⟩ := h
  have m1 : ∀ v ∈ c1, v ∈ all := by
    intro v hv; rw [hc1] at hv; rw [hall]; simp at hv ⊢; tauto
  have hlo' := m1 lo (List.mem_of_head? hlo)
  have hhi' := m1 hi (List.mem_of_getLast? hhi)
  intro v hv
  rcases List.mem_append.1 hv with hv | hv
  · exact m1 v hv
  · rcases hc2 with rfl | ⟨-, rfl⟩
    · simp at hv
      rcases hv with rfl | hv | hv | rfl
      · exact hhi'
      · rw [hall]; simp; tauto
      · rw [hall]; simp; tauto
      · exact hlo'
    · simp at hv; rw [hv]; exact hlo'

/-- What a polygon emitted by the inner loop looks like. -/
structure FromPlane (plane : HS3) (drop : Fin 3) (vs : List HP3) (P : OutPoly) : Prop where
  plane : P.plane = plane ∨ P.plane = ⟨plane.n.scale (-1), plane.d * -1⟩
  drop : P.drop = drop
  source : ∃ v r, P.edges = emitEdges v v r ∧ ∀ u ∈ v :: r, u ∈ vs

theorem decompose_sign {drop mono : Fin 3} {top bottom : List HP3} {out : List Piece} (h : decompose drop mono top bottom = some out) :
    ∀ p ∈ out, p.orientation = -1 ∨ p.orientation = 0 ∨ p.orientation = 1 := by
  have tw : ∀ (a b c : HP3), a.get2DTwistDirReduced drop b c = -1 ∨ a.get2DTwistDirReduced drop b c = 0 ∨
      a.get2DTwistDirReduced drop b c = 1 := by
    intro a b c
    unfold HP3.get2DTwistDirReduced
    simp only
    split
    · simp
    · split <;> simp
  have step : ∀ (t : Tri) (s s' : DecState) (o : List Piece), emitTriangle drop t s = some (o, s') →
      (s.orientation = -1 ∨ s.orientation = 0 ∨ s.orientation = 1) →
      (s'.orientation = -1 ∨ s'.orientation = 0 ∨ s'.orientation = 1) ∧
      ∀ p ∈ o, p.orientation = -1 ∨ p.orientation = 0 ∨ p.orientation = 1 := by
    intro t s s' o h hs
    have hst : (startPiece drop t).orientation = -1 ∨ (startPiece drop t).orientation = 0 ∨
      (startPiece drop t).orientation = 1 := tw _ _ _
    obtain ⟨st, sb, so⟩ := s
    unfold emitTriangle at h
    cases st with
    | nil =>
      simp at h
      obtain ⟨rfl, rfl⟩ := h
      exact ⟨hst, by simp⟩
    | cons a tr =>
      cases sb with
      | nil => simp at h
      | cons b br =>
        simp only at h
        split at h
        · have hon : (if so = 0 then t.p2.get2DTwistDirReduced drop t.p1 t.p3 else so) = -1 ∨
              (if so = 0 then t.p2.get2DTwistDirReduced drop t.p1 t.p3 else so) = 0 ∨
              (if so = 0 then t.p2.get2DTwistDirReduced drop t.p1 t.p3 else so) = 1 := by
            split
            · exact tw _ _ _
            · exact hs
          generalize (if so = 0 then t.p2.get2DTwistDirReduced drop t.p1 t.p3 else so) = o at h hon
          simp only [bind, Option.bind] at h
          split at h
          · exact absurd h (by simp)
          · rename_i c hc
            cases c
            · simp at h
              obtain ⟨rfl, rfl⟩ := h
              exact ⟨hst, by intro p hp; simp at hp; subst hp; exact hs⟩
            · simp at h
              obtain ⟨rfl, rfl⟩ := h
              exact ⟨by rw [(add_verts t a b tr br so o).1]; exact hon, by simp⟩
        · simp at h
          obtain ⟨rfl, rfl⟩ := h
          exact ⟨hst, by intro p hp; simp at hp; subst hp; exact hs⟩
  have steps : ∀ (l : List Tri) (s s' : DecState) (o : List Piece), emitTriangles drop l s = some (o, s') →
      (s.orientation = -1 ∨ s.orientation = 0 ∨ s.orientation = 1) →
      (s'.orientation = -1 ∨ s'.orientation = 0 ∨ s'.orientation = 1) ∧
      ∀ p ∈ o, p.orientation = -1 ∨ p.orientation = 0 ∨ p.orientation = 1 := by
    intro l
    induction l with
    | nil => intro s s' o h hs; simp [emitTriangles] at h; obtain ⟨rfl, rfl⟩ := h; exact ⟨hs, by simp⟩
    | cons t l ih =>
      intro s s' o h hs
      simp only [emitTriangles, bind, Option.bind] at h
      cases hp : emitTriangle drop t s with
      | none => simp [hp] at h
      | some r =>
        obtain ⟨o1, s1⟩ := r
        simp only [hp] at h
        cases hq : emitTriangles drop l s1 with
        | none => simp [hq] at h
        | some q =>
          obtain ⟨o2, s2⟩ := q
          simp only [hq, pure, Option.some.injEq, Prod.mk.injEq] at h
          obtain ⟨rfl, rfl⟩ := h
          obtain ⟨a1, a2⟩ := step t s s1 o1 hp hs
          obtain ⟨b1, b2⟩ := ih s1 s2 o2 hq a1
          refine ⟨b1, fun p hp => ?_⟩
          rcases List.mem_append.1 hp with h1 | h1
          · exact a2 p h1
          · exact b2 p h1
  simp only [decompose, bind, Option.bind] at h
  cases hp : triangulate drop mono [] top bottom with
  | none => simp [hp] at h
  | some r =>
    obtain ⟨tris, st⟩ := r
    simp only [hp] at h
    cases hq : emitTriangles drop tris ⟨[], [], 0⟩ with
    | none => simp [hq] at h
    | some q =>
      obtain ⟨o2, s2⟩ := q
      simp only [hq, pure, Option.some.injEq] at h
      subst h
      obtain ⟨a1, a2⟩ := steps _ _ _ _ hq (Or.inr (Or.inl rfl))
      intro p hp
      rcases List.mem_append.1 hp with h1 | h1
      · exact a2 p h1
      · simp at h1; subst h1; exact a1

theorem orientBuild_sign {drop mono : Fin 3} {c1 c2 : List HP3} {out : List Piece} (h : orientBuild drop mono c1 c2 = some out) :
    ∀ p ∈ out, p.orientation = -1 ∨ p.orientation = 0 ∨ p.orientation = 1 := by
  simp only [orientBuild, bind, Option.bind] at h
  cases hd : detect drop mono c1 c2 with
  | none => simp only [hd] at h; cases h
  | some r =>
    simp only [hd] at h
    match r with
    | none =>
      simp only [pure, Option.some.injEq] at h
      subst h; simp
    | some true =>
      cases hq : decompose drop mono c1.dropLast c2.tail with
      | none => simp only [hq] at h; cases h
      | some o =>
        simp only [hq, pure, Option.some.injEq] at h
        subst h
        intro p hp
        simp only [List.mem_map] at hp
        obtain ⟨p', hp', rfl⟩ := hp
        simp only [emitRange, if_true]
        rcases decompose_sign hq p' hp' with h | h | h <;> rw [h] <;> simp
    | some false =>
      cases hq : decompose drop mono c2.dropLast c1.tail with
      | none => simp only [hq] at h; cases h
      | some o =>
        simp only [hq, pure, Option.some.injEq] at h
        subst h
        intro p hp
        simp only [List.mem_map] at hp
        obtain ⟨p', hp', rfl⟩ := hp
        simp only [emitRange, Bool.false_eq_true, if_false]
        exact decompose_sign hq p' hp'

theorem flip_sign {o po : Int} (h1 : o = -1 ∨ o = 1) (h2 : po = -1 ∨ po = 1) :
    (o.xor po).lor 1 = if o = po then 1 else -1 := by
  rcases h1 with rfl | rfl <;> rcases h2 with rfl | rfl <;> decide +kernel

theorem absMult_sign (x : Int) : -absMult x = -1 ∨ -absMult x = 1 := by
  unfold absMult; split <;> simp

theorem emitAll_from {plane : HS3} {drop : Fin 3} {po : Int} {vs : List HP3} (hpo : po = -1 ∨ po = 1) :
    ∀ (l : List Piece) (out : List OutPoly),
    (∀ p ∈ l, p.orientation = -1 ∨ p.orientation = 0 ∨ p.orientation = 1) → (∀ p ∈ l, ∀ v ∈ p.verts, v ∈ vs) →
    emitAll plane drop po l = some out → ∀ P ∈ out, FromPlane plane drop vs P := by
  intro l
  induction l with
  | nil => intro out _ _ h; simp [emitAll] at h; subst h; simp
  | cons p l ih =>
    intro out hs hv h
    simp only [emitAll, bind, Option.bind] at h
    cases ho : emitOriented plane drop po p with
    | none => simp [ho] at h
    | some o =>
      simp only [ho] at h
      cases hq : emitAll plane drop po l with
      | none => simp [hq] at h
      | some q =>
        simp only [hq, pure, Option.some.injEq] at h
        subst h
        intro P hP
        rcases List.mem_append.1 hP with hP | hP
        · unfold emitOriented at ho
          by_cases hz : p.orientation = 0
          · rw [if_pos hz] at ho
            simp at ho; subst ho; simp at hP
          · rw [if_neg hz] at ho
            cases hv2 : p.verts with
            | nil => rw [hv2] at ho; simp at ho
            | cons v r =>
              rw [hv2] at ho
              simp only [Option.some.injEq] at ho
              subst ho
              simp at hP; subst hP
              refine ⟨?_, rfl, v, r, rfl, fun u hu => hv p (by simp) u (by rw [hv2]; exact hu)⟩
              have h1 : p.orientation = -1 ∨ p.orientation = 1 := by
                rcases hs p (by simp) with h | h | h
                · exact Or.inl h
                · exact absurd h hz
                · exact Or.inr h
              rw [flip_sign h1 hpo]
              split
              · left; simp [V3.scale]
              · right; rfl
        · exact ih q (fun x hx => hs x (by simp [hx])) (fun x hx => hv x (by simp [hx])) hq P hP

/-- One round of the inner loop. -/
theorem factoryStep_spec {plane : HS3} {drop : Fin 3} {vs : List HP3} {rb re i j : Nat} {out : List OutPoly}
    (hT : Tame drop vs) (hF : Faithful drop (vs.map (·.pt))) (h1 : rb < re) (h2 : re ≤ vs.length)
    (h : factoryStep plane drop vs rb re = some (out, i, j)) :
    rb ≤ i ∧ i ≤ j ∧ j ≤ re ∧ (∀ P ∈ out, FromPlane plane drop vs P) ∧
    ∀ f : Q3 → Q3 → ℚ, Antisymmetric f → FlatAdd drop vs (fun a b => f a.pt b.pt) →
      cSum (fun a b : HP3 => f a.pt b.pt) (seg vs rb re) =
        outSum (fun a b => f a.pt b.pt) out + cSum (fun a b : HP3 => f a.pt b.pt) (seg vs i j) := by
  have hw : ∀ v ∈ vs, v.w ≠ 0 := fun v hv => by have := hT.pos v hv; omega
  obtain ⟨r, hr, r1, r2, r3, a1, a2, ⟨lo, hi, t1, t2, t3, t4⟩, hcut⟩ := C51_range vs (monoOf drop) rb re hw h1 h2
  simp only [factoryStep, hr, bind, Option.bind] at h
  cases ho : orientBuild drop (monoOf drop) r.chains.1 r.chains.2 with
  | none => simp [ho] at h
  | some pieces =>
    simp only [ho] at h
    cases hq : emitAll plane drop (-absMult (plane.n.comp drop)) pieces with
    | none => simp [hq] at h
    | some q =>
      simp only [hq, pure, Option.some.injEq, Prod.mk.injEq] at h
      obtain ⟨rfl, rfl, rfl⟩ := h
      have hlen : 2 ≤ r.chains.1.length ∧ 2 ≤ r.chains.2.length := by
        cases hd : detect drop (monoOf drop) r.chains.1 r.chains.2 with
        | none => simp only [orientBuild, hd, bind, Option.bind] at ho; cases ho
        | some x => exact detect_length hd
      obtain ⟨l1, e1⟩ := chain_form t1 t3 hlen.1
      obtain ⟨l2, e2⟩ := chain_form t2 t4 hlen.2
      have hmem : ∀ v ∈ both lo hi l1 l2, v ∈ vs := by
        have hc : ∀ v ∈ r.chains.1 ++ r.chains.2, v ∈ vs := by
          intro v hv
          have : v ∈ r.chain1 ++ r.chain2 := by
            unfold MRange.chains at hv
            split at hv <;> simp at hv ⊢ <;> tauto
          exact seg_mem (cut_mem hcut v this)
        intro v hv
        apply hc
        rw [e1, e2]
        simp at hv ⊢; tauto
      rw [e1, e2] at ho
      rw [e1] at a1
      rw [e2] at a2
      have hF' : Faithful drop ((both lo hi l1 l2).map (·.pt)) := by
        have : ∀ u ∈ (both lo hi l1 l2).map (·.pt), u ∈ vs.map (·.pt) := by
          intro u hu
          obtain ⟨v, hv, rfl⟩ := List.mem_map.1 hu
          exact List.mem_map_of_mem (hmem v hv)
        exact fun u hu v hv => hF u (this u hu) v (this v hv)
      have hpm : ∀ f : Q3 → Q3 → ℚ, Antisymmetric f → FlatAdd drop vs (fun a b => f a.pt b.pt) → _ :=
        fun f hf hadd => orientBuild_sum (mono_ne drop) (hT.mono hmem) hF' a1 a2 ho hf
          (fun a ha b hb c hc => hadd a (hmem a ha) b (hmem b hb) c (hmem c hc))
      have hpv : ∀ p ∈ pieces, ∀ v ∈ p.verts, v ∈ vs := by
        have := (hpm (fun _ _ => 0) (fun _ _ => by simp) (fun _ _ _ _ _ _ _ => by simp)).2
        exact fun p hp v hv => hmem v (this p hp v hv)
      refine ⟨r1, r2, r3, emitAll_from (absMult_sign _) pieces q (orientBuild_sign ho) hpv hq, fun f hf hadd => ?_⟩
      rw [emitAll_sum hf pieces q (fun p hp v hv => hw v (hpv p hp v hv)) hq, (hpm f hf hadd).1]
      have hg : ∀ a b : HP3, f a.pt b.pt = -f b.pt a.pt := fun a b => hf _ _
      have g0 : ∀ a : HP3, f a.pt a.pt = 0 := fun a => by linarith [hg a a]
      have hs := hcut.sum (fun a b : HP3 => f a.pt b.pt) hg
      have e3 : cSum (fun a b : HP3 => f a.pt b.pt) (r.chains.1 ++ r.chains.2.reverse) =
          cSum (fun a b : HP3 => f a.pt b.pt) (lo :: l1 ++ hi :: l2.reverse) := by
        rw [e1, e2]
        have q1 : lo :: l1 ++ [hi] ++ (lo :: l2 ++ [hi]).reverse = (lo :: l1) ++ [hi, hi] ++ (l2.reverse ++ [lo]) := by simp
        rw [q1, cSum_double _ g0]
        have q2 : lo :: l1 ++ [hi] ++ (l2.reverse ++ [lo]) = (lo :: l1 ++ hi :: l2.reverse) ++ [lo] := by simp
        rw [q2, cSum_rotate]
        have q3 : lo :: (lo :: l1 ++ hi :: l2.reverse) = [] ++ [lo, lo] ++ (l1 ++ hi :: l2.reverse) := by simp
        rw [q3, cSum_double _ g0]; rfl
      rw [← e3]
      have e4 : cSum (fun a b : HP3 => f a.pt b.pt) (r.chains.1 ++ r.chains.2.reverse) =
          cSum (fun a b : HP3 => f a.pt b.pt) (r.chain1 ++ r.chain2) := by
        unfold MRange.chains
        split
        · simp
        · simp only [List.reverse_reverse]; exact cSum_append_comm _ _ _
      rw [e4]; exact hs

theorem loop_sum {plane : HS3} {drop : Fin 3} {vs : List HP3} (hT : Tame drop vs) (hF : Faithful drop (vs.map (·.pt)))
    {i j : Nat} {out : List OutPoly} (h : FactoryLoop plane drop vs i j out) : i ≤ j → j ≤ vs.length →
    (∀ P ∈ out, FromPlane plane drop vs P) ∧
    ∀ f : Q3 → Q3 → ℚ, Antisymmetric f → FlatAdd drop vs (fun a b => f a.pt b.pt) →
      cSum (fun a b : HP3 => f a.pt b.pt) (seg vs i j) = outSum (fun a b => f a.pt b.pt) out := by
  induction h with
  | done i => intro _ hj; exact ⟨by simp, fun f _ _ => by rw [seg_nil hj]; rfl⟩
  | step hne hs hr ih =>
    intro hij hj
    obtain ⟨s1, s2, s3, s4, s5⟩ := factoryStep_spec hT hF (by omega) hj hs
    obtain ⟨i1, i2⟩ := ih s2 (by omega)
    refine ⟨fun P hP => ?_, fun f hf hadd => ?_⟩
    · rcases List.mem_append.1 hP with h | h
      · exact s4 P h
      · exact i1 P h
    · rw [outSum_append, s5 f hf hadd, i2 f hf hadd]

end Walnut.Mono
