/-
The polygons emitted by the decomposer never turn against their orientation.
-/
import Verif.Mono.DecomposeProof
import Verif.Mono.StrictProof

namespace Walnut.Mono
open Walnut.Geom

/-! ### cyclic triples -/

/-- `P` holds for all three successive members. -/
def Turns {α : Type} (P : α → α → α → Prop) : List α → Prop
  | a :: b :: c :: r => P a b c ∧ Turns P (b :: c :: r)
  | _ => True

theorem turns_iff {α : Type} {P : α → α → α → Prop} (l : List α) :
    (∀ a b c, [a, b, c] <:+: l → P a b c) ↔ Turns P l := by
  induction l with
  | nil => simp [Turns]
  | cons x l ih =>
    cases l with
    | nil =>
      simp only [Turns, iff_true]
      intro a b c h; have := h.length_le; simp at this
    | cons y l =>
      cases l with
      | nil =>
        simp only [Turns, iff_true]
        intro a b c h; have := h.length_le; simp at this
      | cons z l =>
        rw [Turns, ← ih]
        constructor
        · intro h
          exact ⟨h x y z ⟨[], l, by simp⟩, fun a b c hi => h a b c (hi.trans (List.suffix_cons _ _).isInfix)⟩
        · rintro ⟨h1, h2⟩ a b c hi
          rcases List.infix_cons_iff.1 hi with h | h
          · obtain ⟨e1, h⟩ := List.cons_prefix_cons.1 h
            obtain ⟨e2, h⟩ := List.cons_prefix_cons.1 h
            obtain ⟨e3, h⟩ := List.cons_prefix_cons.1 h
            rw [e1, e2, e3]; exact h1
          · exact h2 a b c h

theorem turns_append {α : Type} {P : α → α → α → Prop} (A : List α) (x y : α) (B : List α) :
    Turns P (A ++ x :: y :: B) ↔ Turns P (A ++ [x, y]) ∧ Turns P (x :: y :: B) := by
  induction A with
  | nil => simp [Turns]
  | cons a A ih =>
    cases A with
    | nil => simp [Turns]
    | cons b A =>
      cases A with
      | nil => simp [Turns] at ih ⊢; tauto
      | cons c A => simp only [List.cons_append, Turns] at ih ⊢; rw [ih]; tauto

/-- `P` holds for all three cyclically successive members. -/
def Cyc {α : Type} (P : α → α → α → Prop) (l : List α) : Prop := Turns P (l ++ l.take 2)

theorem cyc_split {α : Type} {P : α → α → α → Prop} {a b m1 mk : α} {M M0 M1 : List α} (h1 : M = m1 :: M1)
    (h0 : M = M0 ++ [mk]) :
    Cyc P (a :: M ++ [b]) ↔ Turns P (a :: M ++ [b]) ∧ P mk b a ∧ P b a m1 := by
  have e : a :: M ++ [b] ++ (a :: M ++ [b]).take 2 = (a :: M0) ++ mk :: b :: [a, m1] := by
    have : (a :: M ++ [b]).take 2 = [a, m1] := by rw [h1]; simp
    rw [this, h0]; simp
  unfold Cyc
  rw [e, turns_append]
  have e2 : a :: M ++ [b] = a :: M0 ++ [mk, b] := by rw [h0]; simp
  rw [e2]
  simp [Turns]

theorem cyc_snoc {α : Type} {P : α → α → α → Prop} {a b c m1 mk : α} {M M0 M1 : List α} (h1 : M = m1 :: M1)
    (h0 : M = M0 ++ [mk]) :
    Cyc P (a :: M ++ [b] ++ [c]) ↔ Turns P (a :: M ++ [b]) ∧ P mk b c ∧ P b c a ∧ P c a m1 := by
  have e : a :: M ++ [b] ++ [c] ++ (a :: M ++ [b] ++ [c]).take 2 = (a :: M0) ++ mk :: b :: [c, a, m1] := by
    have : (a :: M ++ [b] ++ [c]).take 2 = [a, m1] := by rw [h1]; simp
    rw [this, h0]; simp
  unfold Cyc
  rw [e, turns_append]
  have e2 : a :: M ++ [b] = a :: M0 ++ [mk, b] := by rw [h0]; simp
  rw [e2]
  simp [Turns]

theorem cyc_cons {α : Type} {P : α → α → α → Prop} {a b c m1 mk : α} {M M0 M1 : List α} (h1 : M = m1 :: M1)
    (h0 : M = M0 ++ [mk]) :
    Cyc P (c :: (a :: M ++ [b])) ↔ Turns P (a :: M ++ [b]) ∧ P mk b c ∧ P b c a ∧ P c a m1 := by
  have e : c :: (a :: M ++ [b]) ++ (c :: (a :: M ++ [b])).take 2 = c :: a :: m1 :: (M1 ++ [b, c, a]) := by
    have : (c :: (a :: M ++ [b])).take 2 = [c, a] := by simp
    rw [this, h1]; simp
  unfold Cyc
  rw [e, Turns]
  have e3 : a :: m1 :: (M1 ++ [b, c, a]) = (a :: M0) ++ mk :: b :: [c, a] := by
    have : m1 :: M1 = M0 ++ [mk] := by rw [← h1, h0]
    have e4 : a :: m1 :: (M1 ++ [b, c, a]) = a :: (m1 :: M1) ++ [b, c, a] := by simp
    rw [e4, this]; simp
  rw [e3, turns_append]
  have e2 : a :: M ++ [b] = a :: M0 ++ [mk, b] := by rw [h0]; simp
  rw [e2]
  simp [Turns]
  tauto

/-- The condition of `TurnsOnly` at a vertex. -/
def PT (drop : Fin 3) (o : Int) (x y z : HP3) : Prop :=
  0 ≤ T drop y x z * o ∧ (o = 0 → T drop y x z = 0)

theorem turnsOnly_iff (drop : Fin 3) (o : Int) (l : List HP3) :
    TurnsOnly drop o (l.map (·.pt)) ↔ Cyc (PT drop o) l := by
  unfold Cyc TurnsOnly
  rw [← turns_iff]
  constructor
  · intro h a b c hi
    exact h a.pt b.pt c.pt (by
      have := hi.map (·.pt); simpa using this)
  · intro h a b c hi
    have e : l.map (·.pt) ++ (l.map (·.pt)).take 2 = (l ++ l.take 2).map (·.pt) := by simp
    rw [e] at hi
    obtain ⟨u, v, hu⟩ := hi
    have hu' := hu.symm
    rw [List.map_eq_append_iff] at hu'
    obtain ⟨l1, l2, e1, e2, e3⟩ := hu'
    rw [List.map_eq_append_iff] at e2
    obtain ⟨l3, l4, e6, e4, e5⟩ := e2
    obtain ⟨x, y, z, e7⟩ : ∃ x y z, l4 = [x, y, z] := by
      have := congrArg List.length e5; simp at this
      exact List.length_eq_three.1 this
    subst e7
    simp only [List.map_cons, List.map_nil, List.cons.injEq, and_true] at e5
    rw [← e5.1, ← e5.2.1, ← e5.2.2]
    exact h x y z ⟨l3, l2, by rw [e1, e6]⟩

/-! ### algebra -/

theorem sameSign_mul {s o : Int} {t : ℚ} (h : SameSign s t) (ho : o = -1 ∨ o = 0 ∨ o = 1) :
    (s * o ≤ 0 → t * o ≤ 0) ∧ (0 ≤ s * o → 0 ≤ t * o) := by
  obtain ⟨h1, h2, h3⟩ := h
  rcases ho with rfl | rfl | rfl
  · constructor
    · intro hs
      have : ¬ t < 0 := fun hc => by have := h1.2 hc; omega
      push_cast; linarith [not_lt.1 this]
    · intro hs
      have : ¬ 0 < t := fun hc => by have := h3.2 hc; omega
      push_cast; linarith [not_lt.1 this]
  · simp
  · constructor
    · intro hs
      have : ¬ 0 < t := fun hc => by have := h3.2 hc; omega
      push_cast; linarith [not_lt.1 this]
    · intro hs
      have : ¬ t < 0 := fun hc => by have := h1.2 hc; omega
      push_cast; linarith [not_lt.1 this]

theorem nonneg_of_mul {x y z u v w : ℚ} (hx : 0 < x) (hu : 0 ≤ u) (hv : 0 ≤ v) (hy : 0 ≤ y) (hz : 0 ≤ z)
    (h : x * w = u * y + v * z) : 0 ≤ w := by
  by_contra hc
  have h1 := mul_neg_of_pos_of_neg hx (not_le.1 hc)
  have h2 := mul_nonneg hu hy
  have h3 := mul_nonneg hv hz
  linarith

/-- A vertex beyond both ends of a convex chain, on the inner sides of the two edges
there, makes a convex corner. -/
theorem apex {drop mono : Fin 3} (hm : mono ≠ drop) {a b m1 mk c : Q3} {o : ℚ}
    (h1 : 0 ≤ turnAt drop b mk a * o) (h2 : 0 ≤ turnAt drop a b m1 * o) (h3 : 0 ≤ turnAt drop b mk c * o)
    (h4 : 0 ≤ turnAt drop a c m1 * o) (hac : a mono ≤ c mono) (hbc : b mono ≤ c mono)
    (ha : b mono ≤ a mono → m1 mono < a mono) (hb : a mono ≤ b mono → mk mono < b mono) :
    0 ≤ turnAt drop c b a * o := by
  rcases le_total (b mono) (a mono) with h | h
  · refine nonneg_of_mul (x := a mono - m1 mono) (u := c mono - a mono) (v := a mono - b mono)
      (y := turnAt drop a b m1 * o) (z := turnAt drop a c m1 * o) (by linarith [ha h]) (by linarith) (by linarith)
      h2 h4 ?_
    rcases ne_drop hm with h | h <;> subst h <;> simp only [turnAt] <;> ring
  · refine nonneg_of_mul (x := b mono - mk mono) (u := b mono - a mono) (v := c mono - b mono)
      (y := turnAt drop b mk c * o) (z := turnAt drop b mk a * o) (by linarith [hb h]) (by linarith) (by linarith)
      h3 h1 ?_
    rcases ne_drop hm with h | h <;> subst h <;> simp only [turnAt] <;> ring

/-- Two points with different projections. -/
def Apart (drop : Fin 3) (a b : HP3) : Prop :=
  a.pt (drop + 1) ≠ b.pt (drop + 1) ∨ a.pt (drop + 2) ≠ b.pt (drop + 2)

theorem Apart.symm {drop : Fin 3} {a b : HP3} (h : Apart drop a b) : Apart drop b a :=
  h.imp (fun h => h.symm) (fun h => h.symm)

theorem Apart.ne {drop : Fin 3} {a b : HP3} (h : Apart drop a b) : a.pt ≠ b.pt := by
  intro he
  rcases h with h | h <;> exact h (by rw [he])

/-- Points on a line through two different points. -/
theorem flat_trans {drop : Fin 3} {a b x y : Q3} (h : a (drop + 1) ≠ b (drop + 1) ∨ a (drop + 2) ≠ b (drop + 2))
    (h1 : turnAt drop a b x = 0) (h2 : turnAt drop a b y = 0) : turnAt drop a x y = 0 := by
  have e1 : (b (drop + 1) - a (drop + 1)) * turnAt drop a x y =
      (x (drop + 1) - a (drop + 1)) * turnAt drop a b y - (y (drop + 1) - a (drop + 1)) * turnAt drop a b x := by
    simp only [turnAt]; ring
  have e2 : (b (drop + 2) - a (drop + 2)) * turnAt drop a x y =
      (x (drop + 2) - a (drop + 2)) * turnAt drop a b y - (y (drop + 2) - a (drop + 2)) * turnAt drop a b x := by
    simp only [turnAt]; ring
  rw [h1, h2] at e1 e2
  simp only [mul_zero, sub_zero] at e1 e2
  rcases h with h | h
  · rcases mul_eq_zero.1 e1 with h3 | h3
    · exact absurd (by linarith) h
    · exact h3
  · rcases mul_eq_zero.1 e2 with h3 | h3
    · exact absurd (by linarith) h
    · exact h3

theorem turn_cycle (drop : Fin 3) (a b c : Q3) : turnAt drop a c b = turnAt drop b a c := by
  simp only [turnAt]; ring

theorem turn_flip (drop : Fin 3) (a b c : Q3) : turnAt drop a b c = -turnAt drop a c b := by
  simp only [turnAt]; ring

/-! ### the invariant -/

/-- What is known of a triangle. -/
structure Fed (drop mono : Fin 3) (vs : List HP3) (strict : Bool) (t : Tri) : Prop where
  m1 : t.p1 ∈ vs
  m2 : t.p2 ∈ vs
  m3 : t.p3 ∈ vs
  ne12 : Apart drop t.p1 t.p2
  ne23 : Apart drop t.p2 t.p3
  ne31 : Apart drop t.p3 t.p1
  mode : if strict then t.Beyond mono else t.Ccw drop

/-- What holds of the polygon being built. -/
structure Conv (drop mono : Fin 3) (strict : Bool) (s : DecState) : Prop where
  turn : s.top ≠ [] → Cyc (PT drop s.orientation) s.verts
  sign : s.orientation = -1 ∨ s.orientation = 0 ∨ s.orientation = 1
  mode : if strict then s.top.Pairwise (fun a b => b.pt mono < a.pt mono) ∧
      s.bottom.Pairwise (fun a b => b.pt mono < a.pt mono) else s.orientation ≤ 0

theorem reduced_cases (p : HP3) (drop : Fin 3) (a b : HP3) :
    p.get2DTwistDirReduced drop a b = -1 ∨ p.get2DTwistDirReduced drop a b = 0 ∨ p.get2DTwistDirReduced drop a b = 1 := by
  unfold HP3.get2DTwistDirReduced
  simp only
  split
  · simp
  · split <;> simp

theorem sign_self {o : Int} {t : ℚ} (h : SameSign o t) : 0 ≤ t * o ∧ (o = 0 → t = 0) := by
  obtain ⟨h1, h2, h3⟩ := h
  refine ⟨?_, fun h => h2.1 h⟩
  rcases lt_trichotomy o 0 with ho | ho | ho
  · have := h1.1 ho
    have : (o : ℚ) < 0 := by exact_mod_cast ho
    nlinarith
  · subst ho; simp
  · have := h3.1 ho
    have : (0 : ℚ) < o := by exact_mod_cast ho
    positivity

theorem start_conv {drop mono : Fin 3} {vs : List HP3} {strict : Bool} (hT : Tame drop vs) {t : Tri}
    (h : Fed drop mono vs strict t) : Conv drop mono strict (startPiece drop t) := by
  have hsg := (hT.twist h.m2 h.m1 h.m3).2
  have hself := sign_self hsg
  refine ⟨fun _ => ?_, reduced_cases _ _ _ _, ?_⟩
  · unfold startPiece DecState.verts
    cases t.isTop
    · simp only [Bool.false_eq_true, if_false, Cyc, List.reverse_cons, List.reverse_nil, List.nil_append,
        List.cons_append, List.take_succ_cons, List.take_zero, Turns, and_true]
      refine ⟨hself, ?_, ?_⟩
      · have e : T drop t.p3 t.p2 t.p1 = T drop t.p2 t.p1 t.p3 := by simp only [T, turnAt]; ring
        unfold PT; rw [e]; exact hself
      · have e : T drop t.p1 t.p3 t.p2 = T drop t.p2 t.p1 t.p3 := by simp only [T, turnAt]; ring
        unfold PT; rw [e]; exact hself
    · simp only [if_true, Cyc, List.reverse_cons, List.reverse_nil, List.nil_append,
        List.cons_append, List.take_succ_cons, List.take_zero, Turns, and_true]
      refine ⟨?_, hself, ?_⟩
      · have e : T drop t.p1 t.p3 t.p2 = T drop t.p2 t.p1 t.p3 := by simp only [T, turnAt]; ring
        unfold PT; rw [e]; exact hself
      · have e : T drop t.p3 t.p2 t.p1 = T drop t.p2 t.p1 t.p3 := by simp only [T, turnAt]; ring
        unfold PT; rw [e]; exact hself
  · have hm := h.mode
    cases strict
    · simp only [Bool.false_eq_true, if_false] at hm ⊢
      show t.p2.get2DTwistDirReduced drop t.p1 t.p3 ≤ 0
      by_contra hc
      have := hsg.2.2.1 (by omega)
      exact absurd hm (not_le.2 this)
    · simp only [if_true] at hm ⊢
      unfold startPiece
      cases ht : t.isTop
      · simp; exact hm.lt2 ht
      · simp; exact hm.lt1 ht

theorem add_conv {drop mono : Fin 3} {vs : List HP3} {strict : Bool} (hne : mono ≠ drop) (hT : Tame drop vs) {t : Tri}
    (h : Fed drop mono vs strict t) {a b : HP3} {tr br : List HP3} {so : Int}
    (hs : Built vs ⟨a :: tr, b :: br, so⟩) (hc : Conv drop mono strict ⟨a :: tr, b :: br, so⟩)
    (ea : a.pt = t.p1.pt) (eb : b.pt = t.p2.pt)
    {o : Int} (ho : o = if so = 0 then t.p2.get2DTwistDirReduced drop t.p1 t.p3 else so)
    (hk : keepsConvex drop o (match (generalizing := false) tr with | x :: _ => x | [] => (b :: br).getLastD b)
      (match (generalizing := false) br with | x :: _ => x | [] => (a :: tr).getLastD a) t = some true) :
    Conv drop mono strict (addVertex t ⟨a :: tr, b :: br, so⟩ o) := by
  have hsz := hs.size (by simp)
  simp at hsz
  obtain ⟨m1, M1, mk, M0, e1, e0, hp1, hp0, hX1, hX0⟩ : ∃ (m1 : HP3) (M1 : List HP3) (mk : HP3) (M0 : List HP3),
      tr ++ br.reverse = m1 :: M1 ∧ tr ++ br.reverse = M0 ++ [mk] ∧
      (match (generalizing := false) tr with | x :: _ => x | [] => (b :: br).getLastD b) = m1 ∧
      (match (generalizing := false) br with | x :: _ => x | [] => (a :: tr).getLastD a) = mk ∧
      (m1 ∈ tr ∨ tr = [] ∧ m1 ∈ br) ∧ (mk ∈ br ∨ br = [] ∧ mk ∈ tr) := by
    cases tr with
    | nil =>
      cases br with
      | nil => simp at hsz
      | cons x br =>
        refine ⟨(x :: br).getLast (by simp), ((x :: br).dropLast).reverse, x, br.reverse, ?_, by simp, ?_, rfl,
          Or.inr ⟨rfl, List.getLast_mem _⟩, Or.inl (by simp)⟩
        · have := List.dropLast_append_getLast (l := x :: br) (by simp)
          conv_lhs => rw [← this]
          simp
        · simp [List.getLastD, List.getLast_cons]
    | cons y tr =>
      cases br with
      | nil =>
        refine ⟨y, tr, (y :: tr).getLast (by simp), (y :: tr).dropLast, by simp, ?_, rfl, ?_, Or.inl (by simp),
          Or.inr ⟨rfl, List.getLast_mem _⟩⟩
        · simp [List.dropLast_append_getLast]
        · simp [List.getLastD, List.getLast_cons]
      | cons x br =>
        refine ⟨y, tr ++ (x :: br).reverse, x, y :: tr ++ br.reverse, by simp, by simp, rfl, rfl, Or.inl (by simp),
          Or.inl (by simp)⟩
  have hm1 : m1 ∈ vs := hs.mem m1 (by rcases hX1 with h5 | ⟨_, h5⟩ <;> simp [h5])
  have hmk : mk ∈ vs := hs.mem mk (by rcases hX0 with h5 | ⟨_, h5⟩ <;> simp [h5])
  rw [hp1, hp0] at hk
  have hcyc := hc.turn (by simp)
  rw [verts_split, cyc_split e1 e0] at hcyc
  obtain ⟨hpath, hb0, ha0⟩ := hcyc
  simp only at hpath hb0 ha0
  -- the orientation
  have hosign : o = -1 ∨ o = 0 ∨ o = 1 := by
    rw [ho]; split
    · exact reduced_cases _ _ _ _
    · exact hc.sign
  -- the tests
  have htests : T drop t.p1 m1 t.p3 * o ≤ 0 ∧ 0 ≤ T drop t.p2 mk t.p3 * o := by
    have hmul : ∀ (w : Word) (r : Int), mulSign w o = some r → w.toInt * o = r := by
      intro w r hr
      simp only [mulSign] at hr
      split at hr
      · exact Option.some.inj hr
      · exact absurd hr (by simp)
    cases hc1 : mulSign (t.p1.get2DTwistDir drop m1 t.p3) o with
    | none => simp [keepsConvex, hc1] at hk
    | some c1 =>
      by_cases hle : c1 ≤ 0
      · cases hc2 : mulSign (t.p2.get2DTwistDir drop mk t.p3) o with
        | none => simp [keepsConvex, hc1, hc2, hle] at hk
        | some c2 =>
          simp [keepsConvex, hc1, hc2, hle] at hk
          rw [← hmul _ _ hc1] at hle
          rw [← hmul _ _ hc2] at hk
          exact ⟨(sameSign_mul (hT.twist h.m1 hm1 h.m3).1 hosign).1 hle,
            (sameSign_mul (hT.twist h.m2 hmk h.m3).1 hosign).2 hk⟩
      · simp [keepsConvex, hc1, hle] at hk
  have hsg := (hT.twist h.m2 h.m1 h.m3).2
  have hself := sign_self hsg
  -- the three new corners
  have Ta : T drop a t.p3 m1 = -T drop t.p1 m1 t.p3 := by
    simp only [T, ea]; exact turn_flip _ _ _ _
  have Tb : T drop b mk t.p3 = T drop t.p2 mk t.p3 := by simp only [T, eb]
  have Tc : T drop t.p3 b a = T drop t.p2 t.p1 t.p3 := by
    simp only [T, ea, eb, turnAt]; ring
  have cornerA : PT drop o t.p3 a m1 ∧ PT drop o mk b t.p3 := by
    have n1 : 0 ≤ T drop a t.p3 m1 * o := by rw [Ta]; linarith [htests.1]
    have n2 : 0 ≤ T drop b mk t.p3 * o := by rw [Tb]; exact htests.2
    refine ⟨⟨n1, ?_⟩, ⟨n2, ?_⟩⟩
    · intro hz
      have hso : so = 0 := by
        by_contra hcc
        rw [if_neg hcc] at ho; exact hcc (ho.symm.trans hz)
      rw [if_pos hso] at ho
      have f1 : turnAt drop a.pt b.pt m1.pt = 0 := ha0.2 hso
      have f2 : turnAt drop t.p2.pt t.p1.pt t.p3.pt = 0 := hself.2 (ho ▸ hz)
      have f3 : turnAt drop a.pt b.pt t.p3.pt = 0 := by
        have : turnAt drop a.pt b.pt t.p3.pt = -turnAt drop t.p2.pt t.p1.pt t.p3.pt := by
          rw [ea, eb]; simp only [turnAt]; ring
        rw [this, f2]; simp
      exact flat_trans (by have := h.ne12; unfold Apart at this; rwa [ea, eb]) f3 f1
    · intro hz
      have hso : so = 0 := by
        by_contra hcc
        rw [if_neg hcc] at ho; exact hcc (ho.symm.trans hz)
      rw [if_pos hso] at ho
      have f1 : turnAt drop b.pt a.pt mk.pt = 0 := by
        have := hb0.2 hso
        have e : turnAt drop b.pt a.pt mk.pt = -turnAt drop b.pt mk.pt a.pt := by simp only [turnAt]; ring
        rw [e]; simpa using this
      have f2 : turnAt drop b.pt a.pt t.p3.pt = 0 := by rw [ea, eb]; exact hself.2 (ho ▸ hz)
      exact flat_trans (by have := h.ne12.symm; unfold Apart at this; rwa [ea, eb]) f1 f2
  have cornerC : PT drop o b t.p3 a := by
    unfold PT; rw [Tc]
    by_cases hso : so = 0
    · rw [if_pos hso] at ho; rw [ho]; exact hself
    · rw [if_neg hso] at ho
      subst ho
      refine ⟨?_, fun hz => absurd hz hso⟩
      have hm := h.mode
      have hcm := hc.mode
      cases strict
      · simp only [Bool.false_eq_true, if_false] at hm hcm
        have h5 : (o : ℚ) ≤ 0 := by exact_mod_cast hcm
        have h6 : T drop t.p2 t.p1 t.p3 ≤ 0 := hm
        nlinarith
      · simp only [if_true] at hm hcm
        obtain ⟨pw1, pw2⟩ := hcm
        rw [← Tc]
        refine apex hne (a := a.pt) (b := b.pt) (m1 := m1.pt) (mk := mk.pt) (c := t.p3.pt) hb0.1 ha0.1
          cornerA.2.1 cornerA.1.1 (by rw [ea]; exact hm.le1) (by rw [eb]; exact hm.le2) ?_ ?_
        · intro hba
          rcases hX1 with h7 | ⟨_, h7⟩
          · exact (List.pairwise_cons.1 pw1).1 m1 h7
          · have := (List.pairwise_cons.1 pw2).1 m1 h7; linarith
        · intro hab
          rcases hX0 with h7 | ⟨_, h7⟩
          · exact (List.pairwise_cons.1 pw2).1 mk h7
          · have := (List.pairwise_cons.1 pw1).1 mk h7; linarith
  have hpath' : Turns (PT drop o) (a :: (tr ++ br.reverse) ++ [b]) := by
    by_cases hso : so = 0
    · rw [← turns_iff] at hpath ⊢
      intro x y z hi
      have := (hpath x y z hi).2 hso
      exact ⟨by rw [this]; simp, fun _ => this⟩
    · rw [if_neg hso] at ho; rw [ho]; exact hpath
  obtain ⟨hor, hadd⟩ := add_verts t a b tr br so o
  have hmode : strict = false → o ≤ 0 := by
    rintro rfl
    have hm := h.mode
    have hcm := hc.mode
    simp only [Bool.false_eq_true, if_false] at hm hcm
    rw [ho]; split
    · by_contra hcc
      have := hsg.2.2.1 (by omega)
      exact absurd hm (not_le.2 this)
    · exact hcm
  generalize addVertex t ⟨a :: tr, b :: br, so⟩ o = S at hor hadd
  obtain ⟨S1, S2, S3⟩ := S
  simp only at hor hadd
  subst hor
  rcases hadd with ⟨hd, rfl, rfl⟩ | ⟨ht, _, rfl, rfl⟩ | ⟨ht, _, rfl, rfl⟩
  · exfalso
    rcases hd with ⟨_, h5⟩ | ⟨_, h5⟩
    · exact h.ne31.ne ((hT.eq h.m1 h.m3).1 h5).symm
    · exact h.ne23.ne ((hT.eq h.m2 h.m3).1 h5)
  · refine ⟨fun _ => ?_, hosign, ?_⟩
    · have e5 : (DecState.mk (t.p3 :: a :: tr) (b :: br) S3).verts =
          t.p3 :: (a :: (tr ++ br.reverse) ++ [b]) := by simp [DecState.verts]
      rw [e5, cyc_cons e1 e0]
      exact ⟨hpath', cornerA.2, cornerC, cornerA.1⟩
    · cases strict
      · simpa using hmode rfl
      · have hm := h.mode
        have hcm := hc.mode
        simp only [if_true] at hm hcm ⊢
        refine ⟨List.pairwise_cons.2 ⟨?_, hcm.1⟩, hcm.2⟩
        intro x hx
        have h8 := hm.lt1 ht
        rcases List.mem_cons.1 hx with h7 | h7
        · rw [h7, ea]; exact h8
        · have := (List.pairwise_cons.1 hcm.1).1 x h7
          rw [ea] at this; linarith
  · refine ⟨fun _ => ?_, hosign, ?_⟩
    · have e5 : (DecState.mk (a :: tr) (t.p3 :: b :: br) S3).verts =
          (a :: (tr ++ br.reverse) ++ [b]) ++ [t.p3] := by simp [DecState.verts]
      rw [e5, cyc_snoc e1 e0]
      exact ⟨hpath', cornerA.2, cornerC, cornerA.1⟩
    · cases strict
      · simpa using hmode rfl
      · have hm := h.mode
        have hcm := hc.mode
        simp only [if_true] at hm hcm ⊢
        refine ⟨hcm.1, List.pairwise_cons.2 ⟨?_, hcm.2⟩⟩
        intro x hx
        have h8 := hm.lt2 ht
        rcases List.mem_cons.1 hx with h7 | h7
        · rw [h7, eb]; exact h8
        · have := (List.pairwise_cons.1 hcm.2).1 x h7
          rw [eb] at this; linarith

theorem emit_conv {drop mono : Fin 3} {vs : List HP3} {strict : Bool} (hne : mono ≠ drop) (hT : Tame drop vs) {t : Tri}
    (h : Fed drop mono vs strict t) {s s' : DecState} (hs : Built vs s) (hc : Conv drop mono strict s)
    {out : List Piece} (ho : emitTriangle drop t s = some (out, s')) :
    Conv drop mono strict s' ∧ s'.top ≠ [] ∧
      ∀ p ∈ out, Cyc (PT drop p.orientation) p.verts ∧ (strict = false → p.orientation ≤ 0) := by
  have hstart := start_conv hT h
  have hbs := (emit_built hT h.m1 h.m2 h.m3 hs ho).2.1
  obtain ⟨st, sb, so⟩ := s
  unfold emitTriangle at ho
  cases st with
  | nil =>
    have : sb = [] := hs.both.1 rfl
    subst this
    simp at ho
    obtain ⟨rfl, rfl⟩ := ho
    exact ⟨hstart, hbs, by simp⟩
  | cons a tr =>
    cases sb with
    | nil => simp at ho
    | cons b br =>
      simp only at ho
      have emitCase : out = [⟨so, (DecState.mk (a :: tr) (b :: br) so).verts⟩] → s' = startPiece drop t →
          Conv drop mono strict s' ∧ s'.top ≠ [] ∧
            ∀ p ∈ out, Cyc (PT drop p.orientation) p.verts ∧ (strict = false → p.orientation ≤ 0) := by
        rintro rfl rfl
        refine ⟨hstart, hbs, ?_⟩
        intro p hp
        simp at hp; subst hp
        refine ⟨hc.turn (by simp), ?_⟩
        rintro rfl
        have := hc.mode
        simpa using this
      split at ho
      · rename_i heq
        simp only [Bool.and_eq_true] at heq
        have ha : a ∈ vs := hs.mem a (by simp)
        have hb : b ∈ vs := hs.mem b (by simp)
        have e1 := (hT.eq ha h.m1).1 heq.1
        have e2 := (hT.eq hb h.m2).1 heq.2
        simp only [bind, Option.bind] at ho
        split at ho
        · exact absurd ho (by simp)
        · rename_i c hcc
          cases c
          · simp at ho
            exact emitCase ho.1.symm ho.2.symm
          · simp at ho
            obtain ⟨rfl, rfl⟩ := ho
            exact ⟨add_conv hne hT h hs hc e1 e2 rfl hcc, hbs, by simp⟩
      · simp at ho
        exact emitCase ho.1.symm ho.2.symm

theorem emits_conv {drop mono : Fin 3} {vs : List HP3} {strict : Bool} (hne : mono ≠ drop) (hT : Tame drop vs) :
    ∀ (l : List Tri) (s s' : DecState) (out : List Piece), (∀ t ∈ l, Fed drop mono vs strict t) → Built vs s →
    Conv drop mono strict s → emitTriangles drop l s = some (out, s') →
    Conv drop mono strict s' ∧ (l ≠ [] → s'.top ≠ []) ∧
      ∀ p ∈ out, Cyc (PT drop p.orientation) p.verts ∧ (strict = false → p.orientation ≤ 0) := by
  intro l
  induction l with
  | nil =>
    intro s s' out _ _ hc h
    simp [emitTriangles] at h
    obtain ⟨rfl, rfl⟩ := h
    exact ⟨hc, fun h => absurd rfl h, by simp⟩
  | cons t l ih =>
    intro s s' out hl hs hc h
    simp only [emitTriangles, bind, Option.bind] at h
    cases hp : emitTriangle drop t s with
    | none => simp [hp] at h
    | some r =>
      obtain ⟨o1, s1⟩ := r
      simp only [hp] at h
      cases hq : emitTriangles drop l s1 with
      | none => simp [hq] at h
      | some q =>
        obtain ⟨o2, s2⟩ := q
        simp only [hq, pure, Option.some.injEq, Prod.mk.injEq] at h
        obtain ⟨rfl, rfl⟩ := h
        have hf := hl t (by simp)
        obtain ⟨b1, _, _, _⟩ := emit_built hT hf.m1 hf.m2 hf.m3 hs hp
        obtain ⟨c1, n1, v1⟩ := emit_conv hne hT hf hs hc hp
        obtain ⟨c2, n2, v2⟩ := ih s1 s2 o2 (fun x hx => hl x (by simp [hx])) b1 c1 hq
        refine ⟨c2, fun _ => ?_, ?_⟩
        · cases l with
          | nil => simp [emitTriangles] at hq; rw [← hq.2]; exact n1
          | cons x l => exact n2 (by simp)
        · intro p hp
          rcases List.mem_append.1 hp with h1 | h1
          · exact v1 p h1
          · exact v2 p h1

theorem decompose_conv {drop mono : Fin 3} {top bottom : List HP3} {strict : Bool} (hne : mono ≠ drop)
    (hT : Tame drop (top ++ bottom)) (hap : (top ++ bottom).Pairwise (Apart drop)) {out : List Piece}
    (h : decompose drop mono top bottom = some out)
    (hmode : ∀ tris st, triangulate drop mono [] top bottom = some (tris, st) → ∀ t ∈ tris,
      if strict then t.Beyond mono else t.Ccw drop) :
    ∀ p ∈ out, TurnsOnly drop p.orientation (p.verts.map (·.pt)) ∧ (strict = false → p.orientation ≤ 0) := by
  simp only [decompose, bind, Option.bind] at h
  cases hp : triangulate drop mono [] top bottom with
  | none => simp [hp] at h
  | some r =>
    obtain ⟨tris, st⟩ := r
    simp only [hp] at h
    cases hq : emitTriangles drop tris ⟨[], [], 0⟩ with
    | none => simp [hq] at h
    | some q =>
      obtain ⟨o2, s2⟩ := q
      simp only [hq, pure, Option.some.injEq] at h
      subst h
      obtain ⟨_, htl⟩ := triangulate_tiles hp
      have hap' : (top.reverse ++ bottom).Pairwise (Apart drop) :=
        ((List.reverse_perm top).append_right bottom).pairwise_iff (fun {x y} h => h.symm) |>.2 hap
      have hfed : ∀ t ∈ tris, Fed drop mono (top ++ bottom) strict t := by
        intro t ht
        obtain ⟨a1, a2, a3⟩ := htl.verts t ht
        obtain ⟨n1, n2, n3⟩ := htl.pw (Apart drop) (fun a b h => h.symm) hap' t ht
        exact ⟨by simpa using a1, by simpa using a2, by simpa using a3, n1, n2, n3, hmode tris st hp t ht⟩
      have hB0 : Built (top ++ bottom) ⟨[], [], 0⟩ := ⟨by simp, by simp, by simp⟩
      have hC0 : Conv drop mono strict ⟨[], [], 0⟩ := ⟨by simp, by simp, by cases strict <;> simp⟩
      obtain ⟨c2, n2, v2⟩ := emits_conv hne hT tris _ s2 o2 hfed hB0 hC0 hq
      intro p hp2
      rw [turnsOnly_iff]
      rcases List.mem_append.1 hp2 with h1 | h1
      · exact v2 p h1
      · simp only [List.mem_singleton] at h1; subst h1
        have hm := c2.mode
        refine ⟨?_, ?_⟩
        · by_cases hl : tris = []
          · subst hl
            simp [emitTriangles] at hq
            rw [← hq.2]; simp [DecState.verts, Cyc, Turns]
          · exact c2.turn (n2 hl)
        · rintro rfl; simpa using hm

end Walnut.Mono
