/- The invariant of edges that are all connected, and of the relation of partners. -/
import Verif.Conn.Inv

namespace Walnut.Conn
open Walnut.Geom Walnut.Props

/-- All parts below `x` have partners, which are related by `Rel`.  `rest` are the edges that have not begun. -/
structure Whole (k : Fin 3) (R : List Nat) (N0 : Net) (Rel : ℚ → Bool → Nat → Nat → Prop) (s : St) (x : ℚ) (rest : List Nat) : Prop where
  restIn : ∀ e ∈ rest, e < s.net.count
  full : ∀ e, InE N0 R e → e < s.net.count → s.net.lo k e < x → s.net.partner e ≠ none
  start : ∀ e, InE N0 R e → e < s.net.count → x ≤ s.net.lo k e → e ∈ rest ∨ ∃ h ∈ s.order, s.edge h = e
  org : ∃ org : Nat → Nat, (∀ h ∈ s.order, org (s.edge h) = h) ∧ (∀ e ∈ rest, org e = e) ∧
    (∀ e, InE N0 R e → e < s.net.count → org e ∈ R ∧ s.net.poly e = N0.poly (org e) ∧ s.net.line e = N0.line (org e) ∧
      N0.lo k (org e) ≤ s.net.lo k e ∧ s.net.hi k e ≤ N0.hi k (org e)) ∧
    ∀ e f, InE N0 R e → s.net.partner e = some f → ∀ t, s.net.lo k e ≤ t → t < s.net.hi k e → t < x →
      Rel t (s.net.isPositive k e) (org e) (org f)

section
variable {k : Fin 3} {C : HP3 → Prop} {L : PL → Prop} {R : List Nat} {N0 : Net} {s s' : St} {x : ℚ} {loc : HP3}
  {Rel : ℚ → Bool → Nat → Nat → Prop} {rest : List Nat}

theorem Whole.cut (w : Whole k R N0 Rel s x rest) (hs : Core k C L R N0 s x) {h : Nat} (hh : h ∈ s.order) (hx : loc.pt k = x)
    (hlo : s.net.lo k (s.edge h) < x) {N' : Net} {D A : Nat} (c : Cut k s.net N' (s.edge h) loc D A) :
    Whole k R N0 Rel { s with net := N', edge := Function.update s.edge h A } x rest := by
  obtain ⟨a1, a2, a3, a4, a5, a6⟩ := hs.act h hh
  have hne : ∀ g ∈ s.order, g ≠ h → s.edge g ≠ s.edge h := fun g hg hgh he => hgh (hs.inj g hg h hh he)
  refine ⟨?_, ?_, ?_, ?_⟩
  · intro e he
    have := w.restIn e he
    have := c.count
    change e < N'.count
    omega
  · intro e he hlt hl
    change N'.lo k e < x at hl
    change N'.partner e ≠ none
    rcases c.cases hlt with rfl | rfl | ⟨hlt, hn⟩
    · rw [c.pD]
      exact w.full _ a1 a2 hlo
    · rw [c.lo_A, hx] at hl
      exact absurd hl (lt_irrefl _)
    · rw [c.lo_same hlt hn] at hl
      rw [c.pE e hlt hn]
      split
      · simp
      · exact w.full e he hlt hl
  · intro e he hlt hl
    change x ≤ N'.lo k e at hl
    change e ∈ rest ∨ ∃ g ∈ s.order, Function.update s.edge h A g = e
    rcases c.cases hlt with rfl | rfl | ⟨hlt, hn⟩
    · rw [c.lo_D] at hl
      exact absurd hlo (not_lt.2 hl)
    · exact .inr ⟨h, hh, by simp⟩
    · rw [c.lo_same hlt hn] at hl
      rcases w.start e he hlt hl with h1 | ⟨g, hg, rfl⟩
      · exact .inl h1
      · have : g ≠ h := by rintro rfl; exact hn rfl
        exact .inr ⟨g, hg, Function.update_of_ne this _ _⟩
  · obtain ⟨org, o1, o2, o3, o4⟩ := w.org
    obtain ⟨org', ho⟩ : ∃ org' : Nat → Nat, org' = fun e => if e = s.net.count then org (s.edge h) else org e := ⟨_, rfl⟩
    have oD : org' D = org (s.edge h) ∧ org' A = org (s.edge h) :=
      c.pieces (P := fun e => org' e = org (s.edge h)) (by simp [ho]) (by simp [ho])
    have oE : ∀ {e}, e < s.net.count → org' e = org e := by
      intro e he
      simp [ho, Nat.ne_of_lt he]
    refine ⟨org', ?_, ?_, ?_, ?_⟩
    · intro g hg
      change org' (Function.update s.edge h A g) = g
      by_cases hgh : g = h
      · subst hgh
        rw [Function.update_self, oD.2]
        exact o1 _ hg
      · rw [Function.update_of_ne hgh, oE (hs.act g hg).2.1]
        exact o1 g hg
    · intro e he
      rw [oE (w.restIn e he)]
      exact o2 e he
    · intro e he hlt
      change e < N'.count at hlt
      simp only
      obtain ⟨b1, b2, b3, b4, b5⟩ := o3 _ a1 a2
      rcases c.cases hlt with rfl | rfl | ⟨hlt, hn⟩
      · rw [oD.1, c.poly.1, c.line.1, c.lo_D, c.hi_D, hx]
        exact ⟨b1, b2, b3, b4, a4.le.trans b5⟩
      · rw [oD.2, c.poly.2, c.line.2, c.lo_A, c.hi_A, hx]
        exact ⟨b1, b2, b3, b4.trans hlo.le, b5⟩
      · rw [oE hlt, (c.same e hlt).2.2, (c.same e hlt).1, c.lo_same hlt hn, c.hi_same hlt hn]
        exact o3 e he hlt
    · intro e f he hf t t1 t2 t3
      simp only at hf t1 t2 ⊢
      rcases c.cases (c.ok.exist _ _ hf) with rfl | rfl | ⟨hlt, hn⟩
      · rw [c.pD] at hf
        rw [c.lo_D] at t1
        rw [c.hi_D, hx] at t2
        rw [oD.1, c.pos.1, oE (hs.net.ok.exist _ _ (hs.net.ok.sym _ _ hf))]
        exact o4 _ f a1 hf t t1 (t3.trans a4) t3
      · rw [c.pA] at hf
        cases hf
      · rw [c.lo_same hlt hn] at t1
        rw [c.hi_same hlt hn] at t2
        rw [c.pos_same hlt, oE hlt]
        rw [c.pE e hlt hn] at hf
        split at hf
        · rename_i hp
          cases hf
          rw [oD.1]
          exact o4 e _ he (hs.net.ok.sym _ _ hp) t t1 t2 t3
        · rw [oE (hs.net.ok.exist _ _ (hs.net.ok.sym _ _ hf))]
          exact o4 e f he hf t t1 t2 t3

theorem Whole.join (w : Whole k R N0 Rel s x rest) {a b : Nat} (la : s.net.lo k a = x) (lb : s.net.lo k b = x) :
    Whole k R N0 Rel { s with net := s.net.join a b } x rest := by
  refine ⟨w.restIn, ?_, w.start, ?_⟩
  · intro e he hlt hl
    change (s.net.join a b).partner e ≠ none
    rw [join_partner]
    split
    · simp
    · split
      · simp
      · exact w.full e he hlt hl
  · obtain ⟨org, o1, o2, o3, o4⟩ := w.org
    refine ⟨org, o1, o2, o3, ?_⟩
    intro e f he hf t t1 t2 t3
    change (s.net.join a b).partner e = some f at hf
    change s.net.lo k e ≤ t at t1
    rw [join_partner] at hf
    split at hf
    · rename_i h1; subst h1
      rw [lb] at t1
      exact absurd t3 (not_lt.2 t1)
    · split at hf
      · rename_i h1; subst h1
        rw [la] at t1
        exact absurd t3 (not_lt.2 t1)
      · exact o4 e f he hf t t1 t2 t3

/-- Only the network, the order and the edges of entries matter. -/
theorem Whole.congr (w : Whole k R N0 Rel s x rest) (h1 : s'.net = s.net) (h2 : s'.order = s.order) (h3 : s'.edge = s.edge) :
    Whole k R N0 Rel s' x rest := by
  obtain ⟨w1, w2, w3, w4⟩ := w
  refine ⟨?_, ?_, ?_, ?_⟩
  · rw [h1]; exact w1
  · rw [h1]; exact w2
  · rw [h1, h2, h3]; exact w3
  · rw [h1, h2, h3]; exact w4

end

end Walnut.Conn
