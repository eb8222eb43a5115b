/- Invariants of connecting the edges on a line. -/
import Verif.Conn.Cut

namespace Walnut.Conn
open Walnut.Geom Walnut.Props

/-- The edges that were given, and the pieces of them. -/
def InE (N0 : Net) (R : List Nat) (e : Nat) : Prop := e ∈ R ∨ N0.count ≤ e

/-- The polygons `N` were made from `N0` by splitting edges in `R`; partners are equal up to the location `x`. -/
structure NInv (k : Fin 3) (C : HP3 → Prop) (L : PL → Prop) (R : List Nat) (N0 N : Net) (x : ℚ) : Prop where
  ok : N.Ok
  cnt : N0.count ≤ N.count
  on : ∀ e, InE N0 R e → e < N.count → L (N.line e) ∧ C (N.vertex e) ∧ C (N.target e)
  len : ∀ e, InE N0 R e → e < N.count → N.lo k e < N.hi k e
  link : ∀ e f, InE N0 R e → N.partner e = some f → InE N0 R f ∧ N.isPositive k e ≠ N.isPositive k f ∧
    N.lo k e = N.lo k f ∧ min (N.hi k e) x = min (N.hi k f) x
  frame : ∀ e < N0.count, N.line e = N0.line e ∧ N.vertex e = N0.vertex e ∧ N.poly e = N0.poly e
  other : ∀ e, ¬ InE N0 R e → N.target e = N0.target e ∧ N.partner e = N0.partner e
  normal : N.normal = N0.normal
  sub : ∀ p, (N0.cycle p).Sublist (N.cycle p)
  orig : ∀ e, InE N0 R e → e < N.count → ∃ r ∈ R, N.poly e = N0.poly r ∧ N.line e = N0.line r ∧ N0.lo k r ≤ N.lo k e ∧ N.hi k e ≤ N0.hi k r
  fresh : ∀ n, N0.count ≤ n → n < N.count → ∃ r ∈ R, N.poly n = N0.poly r ∧ N.line n = N0.line r ∧
    N0.lo k r < (N.vertex n).pt k ∧ (N.vertex n).pt k < N0.hi k r

section
variable {k : Fin 3} {C : HP3 → Prop} {L : PL → Prop} {R : List Nat} {N0 N N' : Net} {x : ℚ}

theorem NInv.self (h : NInv k C L R N0 N x) {e : Nat} (he : InE N0 R e) : N.partner e ≠ some e := fun hc =>
  (h.link e e he hc).2.1 rfl

theorem NInv.cut (h : NInv k C L R N0 N x) {a : Nat} (ha : InE N0 R a) {loc : HP3} (hC : C loc) (hx : loc.pt k = x)
    (h1 : N.lo k a < x) (h2 : x < N.hi k a) {D A : Nat} (c : Cut k N N' a loc D A) : NInv k C L R N0 N' x := by
  have hn : InE N0 R N.count := .inr h.cnt
  have inE := c.pieces (P := InE N0 R) ha hn
  have old : ∀ {e}, e < N0.count → e < N.count := fun he => lt_of_lt_of_le he h.cnt
  have link' : ∀ f, N.partner a = some f → f < N.count ∧ f ≠ a ∧ InE N0 R f := fun f hf => by
    refine ⟨h.ok.exist _ _ (h.ok.sym _ _ hf), ?_, (h.link a f ha hf).1⟩
    rintro rfl
    exact h.self ha hf
  refine ⟨c.ok, ?_, ?_, ?_, ?_, ?_, ?_, ?_, ?_, ?_, ?_⟩
  · have := c.count; have := h.cnt; omega
  · intro e he hlt
    obtain ⟨o1, o2, o3⟩ := h.on a ha c.lt
    have key := c.pieces (P := fun e => L (N'.line e) ∧ C (N'.vertex e) ∧ C (N'.target e))
      ⟨by rw [(c.same a c.lt).1]; exact o1, by rw [(c.same a c.lt).2.1]; exact o2, by rw [c.midT]; exact hC⟩
      ⟨by rw [c.new.2.1]; exact o1, by rw [c.new.1]; exact hC, by rw [c.new.2.2.2]; exact o3⟩
    rcases c.cases hlt with rfl | rfl | ⟨hlt, hne⟩
    · exact key.1
    · exact key.2
    · rw [(c.same e hlt).1, (c.same e hlt).2.1, c.target e hlt hne]
      exact h.on e he hlt
  · intro e he hlt
    rcases c.cases hlt with rfl | rfl | ⟨hlt, hne⟩
    · rw [c.lo_D, c.hi_D, hx]; exact h1
    · rw [c.lo_A, c.hi_A, hx]; exact h2
    · rw [c.lo_same hlt hne, c.hi_same hlt hne]
      exact h.len e he hlt
  · intro e f he hf
    rcases c.cases (c.ok.exist _ _ hf) with rfl | rfl | ⟨hlt, hne⟩
    · rw [c.pD] at hf
      obtain ⟨f1, f2, f3⟩ := link' f hf
      obtain ⟨_, l2, l3, l4⟩ := h.link a f ha hf
      refine ⟨f3, ?_, ?_, ?_⟩
      · rw [c.pos.1, c.pos_same f1]; exact l2
      · rw [c.lo_D, c.lo_same f1 f2]; exact l3
      · rw [c.hi_D, hx, c.hi_same f1 f2, ← l4, min_eq_right h2.le, min_self]
    · rw [c.pA] at hf
      cases hf
    · rw [c.pE e hlt hne] at hf
      split at hf
      · rename_i hp
        cases hf
        obtain ⟨_, l2, l3, l4⟩ := h.link a e ha hp
        refine ⟨inE.1, ?_, ?_, ?_⟩
        · rw [c.pos.1, c.pos_same hlt]; exact l2.symm
        · rw [c.lo_D, c.lo_same hlt hne]; exact l3.symm
        · rw [c.hi_D, hx, c.hi_same hlt hne, ← l4, min_eq_right h2.le, min_self]
      · rename_i hp
        obtain ⟨l1, l2, l3, l4⟩ := h.link e f he hf
        have hs := h.ok.sym _ _ hf
        have f1 := h.ok.exist _ _ hs
        have f2 : f ≠ a := by rintro rfl; exact hp hs
        refine ⟨l1, ?_, ?_, ?_⟩
        · rw [c.pos_same hlt, c.pos_same f1]; exact l2
        · rw [c.lo_same hlt hne, c.lo_same f1 f2]; exact l3
        · rw [c.hi_same hlt hne, c.hi_same f1 f2]; exact l4
  · intro e he
    obtain ⟨s1, s2, s3⟩ := c.same e (old he)
    rw [s1, s2, s3]
    exact h.frame e he
  · intro e he
    have hlt : e < N.count := by
      by_contra hc
      exact he (.inr (h.cnt.trans (not_lt.1 hc)))
    have hne : e ≠ a := by rintro rfl; exact he ha
    rw [c.target e hlt hne, c.pE e hlt hne, if_neg (fun hp => he (link' e hp).2.2)]
    exact h.other e he
  · rw [c.normal]; exact h.normal
  · intro p; exact (h.sub p).trans (c.sub p)
  · intro e he hlt
    rcases c.cases hlt with rfl | rfl | ⟨hlt, hne⟩
    · obtain ⟨r, r1, r2, r3, r4, r5⟩ := h.orig a ha c.lt
      refine ⟨r, r1, by rw [c.poly.1]; exact r2, by rw [c.line.1]; exact r3, by rw [c.lo_D]; exact r4, ?_⟩
      rw [c.hi_D, hx]
      exact h2.le.trans r5
    · obtain ⟨r, r1, r2, r3, r4, r5⟩ := h.orig a ha c.lt
      refine ⟨r, r1, by rw [c.poly.2]; exact r2, by rw [c.line.2]; exact r3, ?_, by rw [c.hi_A]; exact r5⟩
      rw [c.lo_A, hx]
      exact r4.trans h1.le
    · rw [(c.same e hlt).2.2, (c.same e hlt).1, c.lo_same hlt hne, c.hi_same hlt hne]
      exact h.orig e he hlt
  · intro n hn hlt
    by_cases hc : n = N.count
    · subst hc
      obtain ⟨r, r1, r2, r3, r4, r5⟩ := h.orig a ha c.lt
      refine ⟨r, r1, by rw [c.new.2.2.1]; exact r2, by rw [c.new.2.1]; exact r3, ?_, ?_⟩
      · rw [c.new.1, hx]; exact r4.trans_lt h1
      · rw [c.new.1, hx]; exact h2.trans_le r5
    · have hlt' : n < N.count := by have := c.count; omega
      rw [(c.same n hlt').2.2, (c.same n hlt').1, (c.same n hlt').2.1]
      exact h.fresh n hn hlt'

/-- Two edges become partners. -/
def Net.join (N : Net) (a b : Nat) : Net := { N with
  partner := Function.update (Function.update N.partner a (some b)) b (some a) }

theorem join_partner {a b e : Nat} : (N.join a b).partner e = if e = b then some a else if e = a then some b else N.partner e := by
  simp [Net.join, Function.update_apply]

theorem NInv.join (h : NInv k C L R N0 N x) {a b : Nat} (ha : InE N0 R a) (hb : InE N0 R b) (la : a < N.count) (lb : b < N.count)
    (na : N.partner a = none) (nb : N.partner b = none) (hp : N.isPositive k a ≠ N.isPositive k b)
    (xa : N.lo k a = x) (xb : N.lo k b = x) : NInv k C L R N0 (N.join a b) x := by
  have hab : a ≠ b := by rintro rfl; exact hp rfl
  have l1 := h.len a ha la
  have l2 := h.len b hb lb
  have lk : ∀ f, N.partner f ≠ some a ∧ N.partner f ≠ some b := fun f =>
    ⟨fun hc => absurd na (by simp [h.ok.sym _ _ hc]), fun hc => absurd nb (by simp [h.ok.sym _ _ hc])⟩
  refine ⟨⟨h.ok.mem, h.ok.own, h.ok.nodup, h.ok.fin, ?_, ?_⟩, h.cnt, h.on, h.len, ?_, h.frame, ?_, h.normal, h.sub, h.orig, h.fresh⟩
  · intro e f hf
    rw [join_partner] at hf
    split at hf
    · rename_i he; subst he; exact lb
    · split at hf
      · rename_i he; subst he; exact la
      · exact h.ok.exist _ _ hf
  · intro e f hf
    rw [join_partner] at hf ⊢
    split at hf
    · rename_i he
      subst he
      cases hf
      rw [if_neg hab, if_pos rfl]
    · rename_i heb
      split at hf
      · rename_i he
        subst he
        cases hf
        rw [if_pos rfl]
      · have hs := h.ok.sym _ _ hf
        have h1 : f ≠ a := by rintro rfl; exact (lk e).1 hf
        have h2 : f ≠ b := by rintro rfl; exact (lk e).2 hf
        rw [if_neg h2, if_neg h1]
        exact hs
  · intro e f he hf
    rw [join_partner] at hf
    change InE N0 R f ∧ N.isPositive k e ≠ N.isPositive k f ∧ N.lo k e = N.lo k f ∧ min (N.hi k e) x = min (N.hi k f) x
    split at hf
    · rename_i he'
      subst he'
      cases hf
      refine ⟨ha, hp.symm, by rw [xa, xb], ?_⟩
      rw [min_eq_right (by linarith), min_eq_right (by linarith)]
    · split at hf
      · rename_i he'
        subst he'
        cases hf
        refine ⟨hb, hp, by rw [xa, xb], ?_⟩
        rw [min_eq_right (by linarith), min_eq_right (by linarith)]
      · exact h.link e f he hf
  · intro e he
    have h1 : e ≠ a := by rintro rfl; exact he ha
    have h2 : e ≠ b := by rintro rfl; exact he hb
    rw [join_partner, if_neg h2, if_neg h1]
    exact h.other e he

end

/-- The invariant of the entries at the location `x`. -/
structure Core (k : Fin 3) (C : HP3 → Prop) (L : PL → Prop) (R : List Nat) (N0 : Net) (s : St) (x : ℚ) : Prop where
  net : NInv k C L R N0 s.net x
  nodup : s.order.Nodup
  act : ∀ h ∈ s.order, InE N0 R (s.edge h) ∧ s.edge h < s.net.count ∧ s.net.lo k (s.edge h) ≤ x ∧ x < s.net.hi k (s.edge h) ∧
    (s.key h).pos = s.net.isPositive k (s.edge h) ∧ s.net.hiPt k (s.edge h) = N0.hiPt k h
  inj : ∀ h ∈ s.order, ∀ g ∈ s.order, s.edge h = s.edge g → h = g
  mateIn : ∀ h ∈ s.order, ∀ p, s.mate h = some p → p ∈ s.order ∧ (s.key h).pos ≠ (s.key p).pos
  cur : ∀ h ∈ s.order, s.cur h = true → s.net.lo k (s.edge h) = x
  needIn : ∀ h ∈ s.need, h ∈ s.order
  done : ∀ e f, InE N0 R e → s.net.partner e = some f → (∃ h ∈ s.order, s.edge h = e) ∨ s.net.hi k e ≤ x

/-- The edge's partner is that of the entry, and the entry is its partner's partner. -/
def Proper (s : St) (h : Nat) : Prop :=
  s.net.partner (s.edge h) = (s.mate h).map s.edge ∧ ∀ p, s.mate h = some p → s.mate p = some h

/-- What does not change while partners are sought. -/
structure Frame (s s' : St) : Prop where
  order : s'.order = s.order
  key : s'.key = s.key
  cur : s'.cur = s.cur
  ends : s'.ends = s.ends
  cnt : s.net.count ≤ s'.net.count
  edge : ∀ h ∈ s.order, s'.edge h = s.edge h ∨ s.net.count ≤ s'.edge h
  rest : ∀ e < s.net.count, (∀ h ∈ s.order, s.edge h ≠ e) →
    (s'.net.line e = s.net.line e ∧ s'.net.vertex e = s.net.vertex e ∧ s'.net.target e = s.net.target e ∧ s'.net.poly e = s.net.poly e) ∧
    (s.net.partner e = none → s'.net.partner e = none)
  normal : s'.net.normal = s.net.normal

theorem Frame.refl (s : St) : Frame s s :=
  ⟨rfl, rfl, rfl, rfl, le_refl _, fun _ _ => .inl rfl, fun _ _ _ => ⟨⟨rfl, rfl, rfl, rfl⟩, id⟩, rfl⟩

theorem Frame.trans {s t u : St} (h1 : Frame s t) (h2 : Frame t u) : Frame s u := by
  refine ⟨h2.order.trans h1.order, h2.key.trans h1.key, h2.cur.trans h1.cur, h2.ends.trans h1.ends, h1.cnt.trans h2.cnt, ?_, ?_,
    h2.normal.trans h1.normal⟩
  · intro h hh
    rcases h2.edge h (by rw [h1.order]; exact hh) with e | e
    · rcases h1.edge h hh with e' | e'
      · exact .inl (e.trans e')
      · exact .inr (by omega)
    · exact .inr (h1.cnt.trans e)
  · intro e he hn
    obtain ⟨⟨a1, a2, a3, a4⟩, a5⟩ := h1.rest e he hn
    obtain ⟨⟨b1, b2, b3, b4⟩, b5⟩ := h2.rest e (lt_of_lt_of_le he h1.cnt) (by
      intro h hh
      rw [h1.order] at hh
      rcases h1.edge h hh with e' | e'
      · rw [e']; exact hn h hh
      · omega)
    exact ⟨⟨b1.trans a1, b2.trans a2, b3.trans a3, b4.trans a4⟩, fun hp => b5 (a5 hp)⟩

end Walnut.Conn
