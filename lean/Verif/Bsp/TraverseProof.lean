/-
The faces that the traverser hands to the plane partitioner.
-/
import Verif.Bsp.PartitionTerm
import Verif.Bsp.TraverseSpec
import Verif.Bsp.SettledProof

namespace Walnut.Bsp
open Walnut.Geom Walnut.Poly Walnut.Props

/-! ### Ancestors -/

/-- The ancestors of a node: valid planes, at the prefixes of the node's path. -/
def AncOK (anc : Anc) : Prop :=
  (∀ a ∈ anc, a.1.plane.n ≠ ⟨0, 0, 0⟩) ∧ ∀ (i : Nat) a, anc[i]? = some a → a.1.path = (anc.take i).map Prod.snd

theorem AncOK.nil : AncOK [] := ⟨by simp, by simp⟩

theorem AncOK.append {anc : Anc} (h : AncOK anc) {g : HS3} (hg : g.n ≠ ⟨0, 0, 0⟩) (s : Bool) : AncOK (anc ++ [(⟨anc.map Prod.snd, g⟩, s)]) := by
  refine ⟨anc_extend h.1 hg s, fun i a hi => ?_⟩
  by_cases hl : i < anc.length
  · rw [List.getElem?_append_left hl] at hi
    rw [h.2 i a hi, List.take_append_of_le_length hl.le]
  · have he : i = anc.length := by
      have := (List.getElem?_eq_some_iff.1 hi).1
      simp at this; omega
    subst he
    simp at hi
    rw [← hi, List.take_left]

theorem AncOK.paths {anc : Anc} (h : AncOK anc) : PathsOK anc := by
  have key : ∀ (i : Nat) a, anc[i]? = some a → a.1.path.length = i := by
    intro i a hi
    rw [h.2 i a hi]
    have := (List.getElem?_eq_some_iff.1 hi).1
    simp; omega
  constructor
  · rw [List.pairwise_iff_getElem]
    intro i j hi hj hij he
    simp only [List.length_map] at hi hj
    simp only [List.getElem_map] at he
    have a := key i anc[i] (List.getElem?_eq_getElem hi)
    have b := key j anc[j] (List.getElem?_eq_getElem hj)
    rw [he] at a
    omega
  · intro a ha
    obtain ⟨i, hi, rfl⟩ := List.mem_iff_getElem.1 ha
    rw [key i _ (List.getElem?_eq_getElem hi)]; exact hi

theorem AncOK.sub : ∀ {t : Node} {anc : Anc}, TreeOK anc t → AncOK anc → ∀ x ∈ t.subs anc, AncOK x.1 := by
  intro t
  induction t with
  | leaf d => intro anc _ ha x hx; rw [List.mem_singleton.1 hx]; exact ha
  | inner d g n p ihn ihp =>
    intro anc h ha x hx
    unfold Node.subs at hx
    rcases List.mem_cons.1 hx with rfl | hx
    · exact ha
    · rcases List.mem_append.1 hx with hx | hx
      · exact ihn h.2.2.2.2.1 (ha.append h.2.2.2.1 _) x hx
      · exact ihp h.2.2.2.2.2 (ha.append h.2.2.2.1 _) x hx

theorem PathsOK.unique {anc : Anc} (h : PathsOK anc) {a b : PlaneRef × Bool} (ha : a ∈ anc) (hb : b ∈ anc) (he : a.1.path = b.1.path) : a = b := by
  obtain ⟨i, hi, rfl⟩ := List.mem_iff_getElem.1 ha
  obtain ⟨j, hj, rfl⟩ := List.mem_iff_getElem.1 hb
  rcases lt_trichotomy i j with hij | rfl | hij
  · exact absurd (by rw [List.getElem_map, List.getElem_map]; exact he) (List.pairwise_iff_getElem.1 h.1 i j (by simpa using hi) (by simpa using hj) hij)
  · rfl
  · exact absurd (by rw [List.getElem_map, List.getElem_map]; exact he.symm) (List.pairwise_iff_getElem.1 h.1 j i (by simpa using hj) (by simpa using hi) hij)

/-! ### Faces -/

/-- A border polygon's plane is a multiple of the plane it lies in. -/
theorem border_multiple {anc : Anc} (hanc : AncOK anc) {x : BPoly} (h : BorderOK anc x) :
    ∃ a ∈ anc, x.onNode = ⟨some a.1, a.2⟩ ∧ ∃ l : ℚ, (∀ j, a.1.plane.n.q j = l * x.poly.plane.n.q j) ∧ (a.1.plane.d : ℚ) = l * x.poly.plane.d ∧
      (if a.2 then l < 0 else 0 < l) := by
  obtain ⟨l', a, r, hl, ht, _, ho, hs⟩ := h.on
  have ha : a ∈ anc := by rw [hl]; simp
  obtain ⟨m, e1, e2⟩ := ht.parallel h.convex.drop
  refine ⟨a, ha, ho, m, e1, e2, ?_⟩
  have hd : dotQ x.poly.plane.n.q a.1.plane.n.q = m * dotQ x.poly.plane.n.q x.poly.plane.n.q := by
    simp only [dotQ, e1]; ring
  have hpos : 0 ≤ dotQ x.poly.plane.n.q x.poly.plane.n.q := by
    simp only [dotQ]; nlinarith [mul_self_nonneg (x.poly.plane.n.q 0), mul_self_nonneg (x.poly.plane.n.q 1), mul_self_nonneg (x.poly.plane.n.q 2)]
  rw [hd] at hs
  cases h2 : a.2 <;> simp only [h2, if_true, if_false, Bool.false_eq_true] at hs ⊢
  · by_contra hc
    push Not at hc
    nlinarith [mul_nonneg (neg_nonneg.2 hc) hpos]
  · by_contra hc
    push Not at hc
    nlinarith [mul_nonneg hc hpos]

theorem comp_q (v : V3) (i : Fin 3) : v.q i = (v.comp i : ℚ) := by
  obtain rfl | rfl | rfl := fin3 i <;> rfl

/-- The border polygons with one key lie in one plane and face the same way. -/
theorem face_ok {anc : Anc} (hanc : AncOK anc) {p : BPoly} {l : List BPoly} (hb : ∀ x ∈ p :: l, BorderOK anc x) (hk : SameKey (p :: l)) :
    ∃ h, FaceOK anc h p.poly.drop (p :: l) ∧
      ∀ x ∈ p :: l, (x.poly.plane.n.comp p.poly.drop < 0 ↔ p.poly.plane.n.comp p.poly.drop < 0) := by
  obtain ⟨a, ha, ho, m, e1, e2, hs⟩ := border_multiple hanc (hb p (by simp))
  have key : ∀ x ∈ p :: l, ∃ m' : ℚ, (∀ j, a.1.plane.n.q j = m' * x.poly.plane.n.q j) ∧ (a.1.plane.d : ℚ) = m' * x.poly.plane.d ∧
      (if a.2 then m' < 0 else 0 < m') := by
    intro x hx
    obtain ⟨b, hb', ho', m', f1, f2, hs'⟩ := border_multiple hanc (hb x hx)
    have : b = a := by
      have := hk x hx p (by simp)
      rw [ho, ho'] at this
      exact hanc.paths.unique hb' ha (by simpa using this)
    rw [this] at f1 f2 hs'
    exact ⟨m', f1, f2, hs'⟩
  have hne : ∀ m' : ℚ, (if a.2 then m' < 0 else 0 < m') → m' ≠ 0 := by
    intro m' h
    cases h2 : a.2 <;> simp only [h2, if_true, if_false, Bool.false_eq_true] at h
    · exact h.ne'
    · exact h.ne
  have hdrop : (p.poly.plane.n.comp p.poly.drop : ℚ) ≠ 0 := by exact_mod_cast (hb p (by simp)).convex.drop
  refine ⟨a.1.plane, fun x hx => ⟨hb x hx, fun q => ?_, ?_⟩, fun x hx => ?_⟩
  · obtain ⟨m', f1, f2, hs'⟩ := key x hx
    have : a.1.plane.side q = m' * x.poly.plane.side q := by
      rw [HS3.side_eq, HS3.side_eq]
      have a1 := f1 0
      have a2 := f1 1
      have a3 := f1 2
      simp only [V3.q_zero, V3.q_one, V3.q_two] at a1 a2 a3
      rw [a1, a2, a3, f2]; ring
    rw [this]
    simp [hne m' hs']
  · obtain ⟨m', f1, f2, hs'⟩ := key x hx
    have h1 := e1 p.poly.drop
    rw [f1, comp_q, comp_q] at h1
    intro hc
    rw [hc] at h1
    simp at h1
    exact h1.elim (hne m hs) (fun h => hdrop (by exact_mod_cast h))
  · obtain ⟨m', f1, f2, hs'⟩ := key x hx
    have h1 := e1 p.poly.drop
    rw [f1, comp_q, comp_q] at h1
    have e : (x.poly.plane.n.comp p.poly.drop < 0 ↔ (x.poly.plane.n.comp p.poly.drop : ℚ) < 0) := by exact_mod_cast Iff.rfl
    have e' : (p.poly.plane.n.comp p.poly.drop < 0 ↔ (p.poly.plane.n.comp p.poly.drop : ℚ) < 0) := by exact_mod_cast Iff.rfl
    rw [e, e']
    generalize (x.poly.plane.n.comp p.poly.drop : ℚ) = u at *
    generalize (p.poly.plane.n.comp p.poly.drop : ℚ) = w at *
    cases h2 : a.2 <;> simp only [h2, if_true, if_false, Bool.false_eq_true] at hs hs'
    · constructor
      · intro hu
        by_contra hc
        push Not at hc
        nlinarith [mul_nonneg hs.le hc, mul_pos hs' (neg_pos.2 hu)]
      · intro hu
        by_contra hc
        push Not at hc
        nlinarith [mul_nonneg hs'.le hc, mul_pos hs (neg_pos.2 hu)]
    · constructor
      · intro hu
        by_contra hc
        push Not at hc
        nlinarith [mul_nonneg (neg_pos.2 hs).le hc, mul_pos (neg_pos.2 hs') (neg_pos.2 hu)]
      · intro hu
        by_contra hc
        push Not at hc
        nlinarith [mul_nonneg (neg_pos.2 hs').le hc, mul_pos (neg_pos.2 hs) (neg_pos.2 hu)]

theorem changing_congr {inside : (Nat → Int) → Bool} {step step' : HS3 → Int} {s : List Facet} (h : ∀ x ∈ s, step x.2 = step' x.2) (w : Nat → Int) :
    changing inside step w s = changing inside step' w s := by
  induction s generalizing w with
  | nil => rfl
  | cons x s ih =>
    have hx : beyond step w x = beyond step' w x := by unfold beyond; rw [h x (by simp)]
    unfold changing
    rw [hx, ih fun y hy => h y (by simp [hy])]

theorem stackAt_mem {q : Q3} {l : List BPoly} {x : Facet} (h : x ∈ stackAt q l) : ∃ p ∈ l, facet p = x := by
  unfold stackAt at h
  obtain ⟨p, hp, e⟩ := List.mem_map.1 h
  exact ⟨p, List.mem_of_mem_filter hp, e⟩

/-- What the traverser does with one face of a cell: beyond every facet, the winding number of
its content is one less. -/
theorem processOnPlane_spec {v : IsInside} (hv : Lawful v) {anc : Anc} (hanc : AncOK anc) {l : List BPoly} (hb : ∀ x ∈ l, BorderOK anc x) (hk : SameKey l)
    {info : List Info} {fuel : Nat} {path : List Bool} {tr : List Visit} (hr : processOnPlane v info fuel path l = some tr) (q : Q3)
    (hq : ∀ g ∈ entered tr, g.side q ≠ 0) :
    stackAt q (accepted tr) = changing (valueAt v info.length) (fun _ => -1) (windingOf info) (stackAt q l) := by
  cases l with
  | nil => simp [processOnPlane] at hr
  | cons p l =>
    obtain ⟨h, hf, hs⟩ := face_ok hanc hb hk
    rw [partition_spec hv hf hr q hq]
    apply changing_congr
    intro x hx
    obtain ⟨y, hy, rfl⟩ := stackAt_mem hx
    unfold facetStep facet
    simp only [hs y hy]
    by_cases hc : p.poly.plane.n.comp p.poly.drop < 0 <;> simp [hc]

theorem processOnPlane_defined {v : IsInside} (hv : Lawful v) {anc : Anc} (hanc : AncOK anc) {l : List BPoly} (hl : l ≠ []) (hb : ∀ x ∈ l, BorderOK anc x)
    (hk : SameKey l) {info : List Info} {fuel : Nat} (hids : ∀ p ∈ l, p.tracker = none ∧ 0 < (info.getD p.id {}).border)
    (hint : ∀ i ∈ info, i.interior = 0) (hfuel : edgeTotal l < fuel) : ∃ tr, processOnPlane v info fuel (anc.map Prod.snd) l = some tr := by
  cases l with
  | nil => exact absurd rfl hl
  | cons p l =>
    obtain ⟨h, hf, hs⟩ := face_ok hanc hb hk
    exact partition_defined hv hanc.paths (by simp) hf hids hint hfuel

end Walnut.Bsp
