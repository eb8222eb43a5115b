/-
Pushing winding numbers to the children: no assertion fails and no null pointer is
followed.
-/
import Verif.Bsp.RouteProof
import Verif.Props.Boxes

namespace Walnut.Bsp
open Walnut.Geom Walnut.Poly Walnut.Props

theorem rxy_values (u v : V3) : rxyCompareBivector u v = -1 ∨ rxyCompareBivector u v = 0 ∨ rxyCompareBivector u v = 1 := by
  have key : ∀ a b : Int, Geom.cmp a b = -1 ∨ Geom.cmp a b = 0 ∨ Geom.cmp a b = 1 := by
    intro a b; unfold Geom.cmp; rcases lt_trichotomy (a - b) 0 with h | h | h
    · exact Or.inl (Int.sign_eq_neg_one_of_neg h)
    · rw [h]; simp
    · exact Or.inr (Or.inr (Int.sign_eq_one_of_pos h))
  unfold rxyCompareBivector
  simp only
  split_ifs <;> exact key _ _

/-- Parallel planes through a common point are the same. -/
theorem parallel_side {f h : HS3} (hn : f.n ≠ ⟨0, 0, 0⟩) (hc : h.n.cross f.n = ⟨0, 0, 0⟩) {x y : Q3}
    (fx : f.side x = 0) (hx : h.side x = 0) (fy : f.side y = 0) : h.side y = 0 := by
  simp only [V3.cross, V3.mk.injEq] at hc
  obtain ⟨c1, c2, c3⟩ := hc
  have c1 : (h.n.y * f.n.z : ℚ) = h.n.z * f.n.y := by exact_mod_cast (by linarith : h.n.y * f.n.z = h.n.z * f.n.y)
  have c2 : (h.n.z * f.n.x : ℚ) = h.n.x * f.n.z := by exact_mod_cast (by linarith : h.n.z * f.n.x = h.n.x * f.n.z)
  have c3 : (h.n.x * f.n.y : ℚ) = h.n.y * f.n.x := by exact_mod_cast (by linarith : h.n.x * f.n.y = h.n.y * f.n.x)
  rw [HS3.side_eq] at *
  have hne : (f.n.x : ℚ) ≠ 0 ∨ (f.n.y : ℚ) ≠ 0 ∨ (f.n.z : ℚ) ≠ 0 := by
    by_contra hcon
    push Not at hcon
    apply hn
    obtain ⟨a1, a2, a3⟩ := hcon
    have b1 : f.n.x = 0 := by exact_mod_cast a1
    have b2 : f.n.y = 0 := by exact_mod_cast a2
    have b3 : f.n.z = 0 := by exact_mod_cast a3
    cases hh : f.n; rw [hh] at b1 b2 b3; simp at b1 b2 b3; rw [b1, b2, b3]
  rcases hne with h0 | h0 | h0
  · apply mul_left_cancel₀ h0
    linear_combination h.n.x * (fy - fx) + f.n.x * hx - c3 * (y 1 - x 1) + c2 * (y 2 - x 2)
  · apply mul_left_cancel₀ h0
    linear_combination h.n.y * (fy - fx) + f.n.y * hx + c3 * (y 0 - x 0) - c1 * (y 2 - x 2)
  · apply mul_left_cancel₀ h0
    linear_combination h.n.z * (fy - fx) + f.n.z * hx - c2 * (y 0 - x 0) + c1 * (y 1 - x 1)

theorem effect_num {c vc : Int} (hc : c = 1 ∨ c = -1) (hs : c + vc = 0) {mult z : Int} (hm : mult = 1 ∨ mult = -1) (hz : z = 1 ∨ z = -1)
    (s m : Int) : ∃ w : Int × Bool,
    (if ¬ ((c < 0 ∧ 0 < vc) ∨ (0 < c ∧ vc < 0)) then none
    else
      if z * mult = 0 then none
      else
        if ¬ (vc * (z * mult) = 1 ∨ vc * (z * mult) = -1) then none
        else if ¬ (z * mult = 1 ∨ z * mult = -1) then none
        else if vc * (z * mult) * s ≥ 0 then
          if (decide (m < 0) != decide (vc < 0)) != decide (mult < 0) then some (0, false)
          else some (z * mult, decide (vc * (z * mult) = -1))
        else some (0, false)) = some w ∧ (w.1 = -1 ∨ w.1 = 0 ∨ w.1 = 1) := by
  have hvc : vc = -c := by omega
  subst hvc
  rcases hc with rfl | rfl <;> rcases hm with rfl | rfl <;> rcases hz with rfl | rfl <;> norm_num <;> split_ifs <;> simp

/-- `GetPWNEffectAtVertex` is defined for the ends of an edge on an ancestor's plane and
returns -1, 0 or 1. -/
theorem pwnEffect_defined {anc : Anc} {P : Polygon EdgeInfo} {i j : Nat} (hanc : ∀ a ∈ anc, a.1.plane.n ≠ ⟨0, 0, 0⟩)
    (hj : j = i ∨ j = (i + 1) % P.count) {edgeLast : SplitSide} {v : Edge EdgeInfo} (h1 : Deepest anc (AtEdge P i) edgeLast)
    (h2 : Deepest anc (AtVertex P j) v.data.vertexLast) (g : HS3) {c : Int} (hc : compareSide g.n edgeLast = some c) (hc0 : c ≠ 0) :
    ∃ x, pwnEffect g c edgeLast v = some x ∧ (x.1 = -1 ∨ x.1 = 0 ∨ x.1 = 1) := by
  have hsub : ∀ h, AtEdge P i h → AtVertex P j h := by
    intro h he
    rcases hj with rfl | rfl
    · exact he.1
    · exact he.2
  obtain ⟨es, hes, rfl⟩ : ∃ es, edgeLast.split = some es ∧ rxyCompareBivector g.n es.plane.n * (if edgeLast.pos then -1 else 1) = c := by
    unfold compareSide at hc
    obtain ⟨es, e1, e2⟩ := Option.map_eq_some_iff.1 hc
    exact ⟨es, e1, e2⟩
  obtain ⟨hE, a, ha, rfl⟩ := h1.holds hes
  obtain ⟨vs, hvs⟩ : ∃ vs, v.data.vertexLast.split = some vs := Option.isSome_iff_exists.1 (h2.exists ha (hsub _ hE))
  obtain ⟨hV, b, hb, rfl⟩ := h2.holds hvs
  unfold pwnEffect
  have hcv : compareSide g.n v.data.vertexLast =
      some (rxyCompareBivector g.n vs.plane.n * (if v.data.vertexLast.pos then -1 else 1)) := by
    unfold compareSide; rw [hvs]; rfl
  rw [hcv, hvs, hes]
  simp only
  by_cases hs : rxyCompareBivector g.n es.plane.n * (if edgeLast.pos then -1 else 1) +
      rxyCompareBivector g.n vs.plane.n * (if v.data.vertexLast.pos then -1 else 1) ≠ 0
  · rw [if_pos hs]; exact ⟨_, rfl, by simp⟩
  rw [if_neg hs]
  have hne : rxyCompareBivector vs.plane.n es.plane.n ≠ 0 := by
    intro hz
    rw [C28_zero] at hz
    have hVE : AtEdge P i vs.plane := by
      have key : ∀ y, es.plane.side y = 0 → vs.plane.side y = 0 := fun y hy =>
        parallel_side (hanc _ ha) hz (hsub _ hE) hV hy
      exact ⟨key _ hE.1, key _ hE.2⟩
    have e := h1.unique h2 hes hvs (hsub _ hE) hVE
    rw [e] at hes hs hc0
    rw [hvs] at hes
    obtain rfl := Option.some.inj hes
    omega
  have v1 := rxy_values g.n es.plane.n
  have v3 := rxy_values vs.plane.n es.plane.n
  exact effect_num (by split_ifs at hc0 ⊢ <;> omega) (not_not.1 hs) (by split_ifs <;> simp) (by omega) _ _

theorem bump_length {info info' : List Info} {id : Nat} {f : Info → Info} (h : bump info id f = some info') :
    info'.length = info.length ∧ id < info.length := by
  unfold bump at h
  split_ifs at h with hi
  rw [← Option.some.inj h]
  exact ⟨by simp, hi⟩

theorem addPwn_defined {k : List Info × List Info} {id : Nat} (h1 : id < k.1.length) (h2 : id < k.2.length) (x : Int × Bool) (s : Int) :
    ∃ k', addPwn k id x s = some k' ∧ k'.1.length = k.1.length ∧ k'.2.length = k.2.length := by
  unfold addPwn bump
  split_ifs
  · exact ⟨_, rfl, rfl, rfl⟩
  · exact ⟨_, rfl, rfl, by simp⟩
  · exact ⟨_, rfl, by simp, rfl⟩

theorem pushEdgePwn_defined {anc : Anc} {P : Polygon EdgeInfo} {i : Nat} (hanc : ∀ a ∈ anc, a.1.plane.n ≠ ⟨0, 0, 0⟩)
    {e next : Edge EdgeInfo} (h1 : Deepest anc (AtEdge P i) e.data.edgeLast) (h2 : Deepest anc (AtVertex P i) e.data.vertexLast)
    (h3 : Deepest anc (AtVertex P ((i + 1) % P.count)) next.data.vertexLast) (g : HS3) {id : Nat} {k : List Info × List Info}
    (l1 : id < k.1.length) (l2 : id < k.2.length) :
    ∃ k', pushEdgePwn g id e next k = some k' ∧ k'.1.length = k.1.length ∧ k'.2.length = k.2.length := by
  unfold pushEdgePwn
  cases hc : compareSide g.n e.data.edgeLast with
  | none => exact ⟨_, rfl, rfl, rfl⟩
  | some c =>
    by_cases hc0 : c = 0
    · simp only [hc0, if_true]; exact ⟨_, rfl, rfl, rfl⟩
    · simp only [hc0, if_false]
      obtain ⟨x, hx, _⟩ := pwnEffect_defined hanc (Or.inl rfl) h1 h2 g hc hc0
      obtain ⟨y, hy, _⟩ := pwnEffect_defined hanc (Or.inr rfl) h1 h3 g hc hc0
      rw [hx]
      obtain ⟨k1, e1, e2, e3⟩ := addPwn_defined l1 l2 x 1
      simp only [e1, hy]
      obtain ⟨k2, e4, e5, e6⟩ := addPwn_defined (k := k1) (by rw [e2]; exact l1) (by rw [e3]; exact l2) y (-1)
      exact ⟨k2, e4, e5.trans e2, e6.trans e3⟩

theorem pushPolyPwn_defined {anc : Anc} {P : Polygon EdgeInfo} (hanc : ∀ a ∈ anc, a.1.plane.n ≠ ⟨0, 0, 0⟩) (hP : EdgesOK anc P)
    {first : Edge EdgeInfo} (hf : P.edges[0]? = some first) (g : HS3) {id : Nat} :
    ∀ (l pre : List (Edge EdgeInfo)) (k : List Info × List Info), P.edges = pre ++ l → id < k.1.length → id < k.2.length →
      ∃ k', pushPolyPwn g id first l k = some k' ∧ k'.1.length = k.1.length ∧ k'.2.length = k.2.length := by
  intro l
  induction l with
  | nil => intro pre k _ _ _; exact ⟨k, rfl, rfl, rfl⟩
  | cons e l ih =>
    intro pre k he l1 l2
    have hcount : P.count = pre.length + (l.length + 1) := by unfold Polygon.count; rw [he]; simp
    have h0 : P.edges[pre.length]? = some e := by rw [he]; simp
    have hnext : P.edges[(pre.length + 1) % P.count]? = some (l.headD first) := by
      cases l with
      | nil =>
        simp only [List.length_nil] at hcount
        rw [show pre.length + 1 = P.count by omega, Nat.mod_self, hf]; rfl
      | cons y l =>
        simp only [List.length_cons] at hcount
        rw [Nat.mod_eq_of_lt (by omega), he]
        simp
    obtain ⟨k1, e1, e2, e3⟩ := pushEdgePwn_defined hanc (hP _ _ h0).2.1 (hP _ _ h0).1 (hP _ _ hnext).1 g l1 l2
    obtain ⟨k2, e4, e5, e6⟩ := ih (pre ++ [e]) k1 (by rw [he]; simp) (by rw [e2]; exact l1) (by rw [e3]; exact l2)
    refine ⟨k2, ?_, e5.trans e2, e6.trans e3⟩
    unfold pushPolyPwn
    rw [e1]
    exact e4

theorem pushPwn_defined {anc : Anc} (hanc : ∀ a ∈ anc, a.1.plane.n ≠ ⟨0, 0, 0⟩) (g : HS3) :
    ∀ (l : List BPoly) (k : List Info × List Info), (∀ p ∈ l, EdgesOK anc p.poly ∧ p.id < k.1.length ∧ p.id < k.2.length) →
      ∃ k', pushPwn g l k = some k' ∧ k'.1.length = k.1.length ∧ k'.2.length = k.2.length := by
  intro l
  induction l with
  | nil => intro k _; exact ⟨k, rfl, rfl, rfl⟩
  | cons p l ih =>
    intro k h
    unfold pushPwn
    cases he : p.poly.edges with
    | nil => exact ih k fun x hx => h x (by simp [hx])
    | cons e t =>
      obtain ⟨h1, h2, h3⟩ := h p (by simp)
      obtain ⟨k1, e1, e2, e3⟩ := pushPolyPwn_defined hanc h1 (first := e) (by rw [he]; rfl) g (id := p.id) (e :: t) [] k (by rw [he]; rfl) h2 h3
      simp only [e1]
      obtain ⟨k2, e4, e5, e6⟩ := ih k1 fun x hx => by rw [e2, e3]; exact h x (by simp [hx])
      exact ⟨k2, e4, e5.trans e2, e6.trans e3⟩

/-! ### What pushing winding numbers leaves alone -/

/-- Only winding numbers differ. -/
def SameCounts (a b : List Info) : Prop :=
  b.map (fun i => (i.interior, i.border)) = a.map (fun i => (i.interior, i.border))

theorem SameCounts.refl (a : List Info) : SameCounts a a := rfl
theorem SameCounts.trans {a b c : List Info} (h : SameCounts a b) (h' : SameCounts b c) : SameCounts a c := Eq.trans h' h

theorem bump_pwn {info info' : List Info} {id : Nat} {f : Info → Int} (h : bump info id (fun i => { i with pwn := f i }) = some info') :
    SameCounts info info' := by
  unfold bump at h
  split_ifs at h
  rw [← Option.some.inj h]
  unfold SameCounts
  apply List.ext_getElem?
  intro j
  simp only [List.getElem?_map, modify_get]
  cases info[j]? <;> by_cases hj : id = j <;> simp [hj]

theorem addPwn_same {k k' : List Info × List Info} {id : Nat} {x : Int × Bool} {s : Int} (h : addPwn k id x s = some k') :
    SameCounts k.1 k'.1 ∧ SameCounts k.2 k'.2 := by
  unfold addPwn at h
  split_ifs at h
  · rw [← Option.some.inj h]; exact ⟨.refl _, .refl _⟩
  · obtain ⟨y, hy, rfl⟩ := Option.map_eq_some_iff.1 h
    exact ⟨.refl _, bump_pwn hy⟩
  · obtain ⟨y, hy, rfl⟩ := Option.map_eq_some_iff.1 h
    exact ⟨bump_pwn hy, .refl _⟩

theorem pushEdgePwn_same {k k' : List Info × List Info} {g : HS3} {id : Nat} {e next : Edge EdgeInfo}
    (h : pushEdgePwn g id e next k = some k') : SameCounts k.1 k'.1 ∧ SameCounts k.2 k'.2 := by
  unfold pushEdgePwn at h
  split at h
  · rw [← Option.some.inj h]; exact ⟨.refl _, .refl _⟩
  · split_ifs at h
    · rw [← Option.some.inj h]; exact ⟨.refl _, .refl _⟩
    · split at h
      · simp at h
      · split at h
        · simp at h
        · rename_i h1
          split at h
          · simp at h
          · exact ⟨(addPwn_same h1).1.trans (addPwn_same h).1, (addPwn_same h1).2.trans (addPwn_same h).2⟩

theorem pushPolyPwn_same {g : HS3} {id : Nat} {first : Edge EdgeInfo} : ∀ (l : List (Edge EdgeInfo)) {k k' : List Info × List Info},
    pushPolyPwn g id first l k = some k' → SameCounts k.1 k'.1 ∧ SameCounts k.2 k'.2 := by
  intro l
  induction l with
  | nil => intro k k' h; rw [← Option.some.inj h]; exact ⟨.refl _, .refl _⟩
  | cons e l ih =>
    intro k k' h
    unfold pushPolyPwn at h
    split at h
    · simp at h
    · rename_i h1
      have a := pushEdgePwn_same h1
      have b := ih h
      exact ⟨a.1.trans b.1, a.2.trans b.2⟩

theorem pushPwn_same {g : HS3} : ∀ (l : List BPoly) {k k' : List Info × List Info},
    pushPwn g l k = some k' → SameCounts k.1 k'.1 ∧ SameCounts k.2 k'.2 := by
  intro l
  induction l with
  | nil => intro k k' h; rw [← Option.some.inj h]; exact ⟨.refl _, .refl _⟩
  | cons p l ih =>
    intro k k' h
    unfold pushPwn at h
    split at h
    · exact ih h
    · split at h
      · simp at h
      · rename_i h1
        have a := pushPolyPwn_same _ h1
        have b := ih h
        exact ⟨a.1.trans b.1, a.2.trans b.2⟩

end Walnut.Bsp
