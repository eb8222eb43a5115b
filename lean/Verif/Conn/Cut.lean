/- What `MaybeSplitEdge` does to the polygons, for both polarities. -/
import Verif.Conn.Geometry

namespace Walnut.Conn
open Walnut.Geom Walnut.Props

/-- The edge `a` of `N` was split at `mid`; `D` is the part below, which keeps the partner, and `A` the part above. -/
structure Cut (k : Fin 3) (N N' : Net) (a : Nat) (mid : HP3) (D A : Nat) : Prop where
  lt : a < N.count
  ids : (D = a ∧ A = N.count) ∨ (D = N.count ∧ A = a)
  count : N'.count = N.count + 1
  ok : N'.Ok
  normal : N'.normal = N.normal
  sub : ∀ p, (N.cycle p).Sublist (N'.cycle p)
  same : ∀ e < N.count, N'.line e = N.line e ∧ N'.vertex e = N.vertex e ∧ N'.poly e = N.poly e
  target : ∀ e < N.count, e ≠ a → N'.target e = N.target e
  new : N'.vertex N.count = mid ∧ N'.line N.count = N.line a ∧ N'.poly N.count = N.poly a ∧ N'.target N.count = N.target a
  midT : N'.target a = mid
  low : N'.loPt k D = N.loPt k a ∧ N'.hiPt k D = mid
  high : N'.loPt k A = mid ∧ N'.hiPt k A = N.hiPt k a
  pD : N'.partner D = N.partner a
  pA : N'.partner A = none
  pE : ∀ e < N.count, e ≠ a → N'.partner e = if N.partner a = some e then some D else N.partner e

namespace Cut
variable {k : Fin 3} {N N' : Net} {a : Nat} {mid : HP3} {D A : Nat} (h : Cut k N N' a mid D A)
include h

theorem cases {e : Nat} (he : e < N'.count) : e = D ∨ e = A ∨ e < N.count ∧ e ≠ a := by
  have := h.count; have := h.ids; have := h.lt
  omega

theorem ne : D ≠ A := by have := h.ids; have := h.lt; omega

theorem lt_D : D < N'.count := by have := h.count; have := h.ids; have := h.lt; omega
theorem lt_A : A < N'.count := by have := h.count; have := h.ids; have := h.lt; omega

theorem pieces {P : Nat → Prop} (h1 : P a) (h2 : P N.count) : P D ∧ P A := by
  rcases h.ids with ⟨rfl, rfl⟩ | ⟨rfl, rfl⟩
  · exact ⟨h1, h2⟩
  · exact ⟨h2, h1⟩

theorem line : N'.line D = N.line a ∧ N'.line A = N.line a :=
  h.pieces (P := fun e => N'.line e = N.line a) (h.same a h.lt).1 h.new.2.1

theorem poly : N'.poly D = N.poly a ∧ N'.poly A = N.poly a :=
  h.pieces (P := fun e => N'.poly e = N.poly a) (h.same a h.lt).2.2 h.new.2.2.1

theorem pos : N'.isPositive k D = N.isPositive k a ∧ N'.isPositive k A = N.isPositive k a := by
  unfold Net.isPositive
  rw [h.line.1, h.line.2]
  exact ⟨rfl, rfl⟩

theorem pos_same {e : Nat} (he : e < N.count) : N'.isPositive k e = N.isPositive k e := by
  unfold Net.isPositive
  rw [(h.same e he).1]

theorem loPt_same {e : Nat} (he : e < N.count) (hn : e ≠ a) : N'.loPt k e = N.loPt k e := by
  unfold Net.loPt
  rw [h.pos_same he, (h.same e he).2.1, h.target e he hn]

theorem hiPt_same {e : Nat} (he : e < N.count) (hn : e ≠ a) : N'.hiPt k e = N.hiPt k e := by
  unfold Net.hiPt
  rw [h.pos_same he, (h.same e he).2.1, h.target e he hn]

theorem lo_same {e : Nat} (he : e < N.count) (hn : e ≠ a) : N'.lo k e = N.lo k e := by
  unfold Net.lo
  rw [h.loPt_same he hn]

theorem hi_same {e : Nat} (he : e < N.count) (hn : e ≠ a) : N'.hi k e = N.hi k e := by
  unfold Net.hi
  rw [h.hiPt_same he hn]

theorem lo_D : N'.lo k D = N.lo k a := by unfold Net.lo; rw [h.low.1]
theorem hi_D : N'.hi k D = mid.pt k := by unfold Net.hi; rw [h.low.2]
theorem lo_A : N'.lo k A = mid.pt k := by unfold Net.lo; rw [h.high.1]
theorem hi_A : N'.hi k A = N.hi k a := by unfold Net.hi; rw [h.high.2]

/-- An edge without a partner stays without one. -/
theorem partner_none (hN : N.Ok) {e : Nat} (he : e < N.count) (hn : e ≠ a) (hp : N.partner e = none) : N'.partner e = none := by
  rw [h.pE e he hn, if_neg, hp]
  intro hc
  rw [hN.sym _ _ hc] at hp
  cases hp

end Cut

/-- The members of the polygons after a negative edge was split. -/
theorem cut_exists {k : Fin 3} {N : Net} (hN : N.Ok) {a : Nat} (ha : a < N.count) {mid : HP3} (hm : mid.w ≠ 0)
    (hself : N.partner a ≠ some a) :
    (N.isPositive k a = true → Cut k N (N.split a mid) a mid a N.count) ∧
    (N.isPositive k a = false → Cut k N { N.split a mid with
      partner := match (N.split a mid).partner a with
        | none => Function.update (Function.update (N.split a mid).partner N.count ((N.split a mid).partner a)) a none
        | some q => Function.update (Function.update (Function.update (N.split a mid).partner N.count ((N.split a mid).partner a)) a none)
            q (some N.count) } a mid N.count a) := by
  have ok := Net.split_ok hN ha hm
  have hne : a ≠ N.count := Nat.ne_of_lt ha
  have hpa : (N.split a mid).partner a = N.partner a := by simp [Net.split, Function.update_of_ne hne]
  have tgt : ∀ e < N.count, e ≠ a → (N.split a mid).target e = N.target e := fun e he hn => by
    rw [Net.split_target hN ha he, if_neg hn]
  have tgta : (N.split a mid).target a = mid := by rw [Net.split_target hN ha ha, if_pos rfl]
  have tgtn := Net.split_target_new (mid := mid) hN ha
  have posn : (N.split a mid).isPositive k N.count = N.isPositive k a := by simp [Net.isPositive, Net.split]
  have posa : (N.split a mid).isPositive k a = N.isPositive k a := by
    unfold Net.isPositive; rw [Net.split_line ha]
  have sub : ∀ p, (N.cycle p).Sublist ((N.split a mid).cycle p) := by
    intro p
    by_cases hp : p = N.poly a
    · subst hp
      simp only [Net.split, Function.update_self]
      exact (Net.split_ins hN ha).2.2.2.2
    · simp only [Net.split, Function.update_of_ne hp]
      exact List.Sublist.refl _
  have sm : ∀ e < N.count, (N.split a mid).line e = N.line e ∧ (N.split a mid).vertex e = N.vertex e ∧ (N.split a mid).poly e = N.poly e :=
    fun e he => ⟨Net.split_line he, Net.split_vertex he, Net.split_poly he⟩
  have vn : (N.split a mid).vertex N.count = mid := by simp [Net.split]
  have ln : (N.split a mid).line N.count = N.line a := by simp [Net.split]
  have pn : (N.split a mid).poly N.count = N.poly a := by simp [Net.split]
  constructor
  · intro hp
    refine ⟨ha, .inl ⟨rfl, rfl⟩, rfl, ok, rfl, sub, sm, tgt,
      ⟨vn, ln, pn, tgtn⟩, tgta, ?_, ?_, hpa, by simp [Net.split], ?_⟩
    · simp [Net.loPt, Net.hiPt, posa, hp, tgta, Net.split_vertex ha]
    · simp [Net.loPt, Net.hiPt, posn, hp, tgtn, vn]
    · intro e he hn
      have : (N.split a mid).partner e = N.partner e := by simp [Net.split, Function.update_of_ne (Nat.ne_of_lt he)]
      rw [this]
      split
      · rename_i h1
        exact hN.sym _ _ h1
      · rfl
  · intro hp
    -- the geometry does not depend on the partners
    have geo : ∀ p : Nat → Option Nat, ∀ e, ({ N.split a mid with partner := p } : Net).target e = (N.split a mid).target e := fun _ _ => rfl
    have glo : ∀ p : Nat → Option Nat, ∀ e, ({ N.split a mid with partner := p } : Net).loPt k e = (N.split a mid).loPt k e := fun _ _ => rfl
    have ghi : ∀ p : Nat → Option Nat, ∀ e, ({ N.split a mid with partner := p } : Net).hiPt k e = (N.split a mid).hiPt k e := fun _ _ => rfl
    generalize hP : (match (N.split a mid).partner a with
        | none => Function.update (Function.update (N.split a mid).partner N.count ((N.split a mid).partner a)) a none
        | some q => Function.update (Function.update (Function.update (N.split a mid).partner N.count ((N.split a mid).partner a)) a none)
            q (some N.count)) = P
    rw [hpa] at hP
    have hPn : P N.count = N.partner a ∧ P a = none ∧
        (∀ e < N.count, e ≠ a → P e = if N.partner a = some e then some N.count else N.partner e) ∧ (∀ e, N.count < e → P e = N.partner e) := by
      have base : ∀ e, e ≠ N.count → (N.split a mid).partner e = N.partner e := fun e he => by simp [Net.split, Function.update_of_ne he]
      rw [← hP]
      cases hq : N.partner a with
      | none =>
        refine ⟨?_, ?_, ?_, ?_⟩
        · simp [hne.symm]
        · simp
        · intro e he hn
          simp [hn, Nat.ne_of_lt he, base e (Nat.ne_of_lt he)]
        · intro e he
          have h1 : e ≠ a := by omega
          have h2 : e ≠ N.count := by omega
          simp [h1, h2, base e h2]
      | some q =>
        have hs := hN.sym _ _ hq
        have hq' := hN.exist _ _ hs
        have hqa : q ≠ a := by
          rintro rfl
          exact hself hq
        have hqn : N.count ≠ q := by omega
        refine ⟨?_, ?_, ?_, ?_⟩
        · simp [hne.symm, hqn]
        · simp [hqa.symm]
        · intro e he hn
          by_cases heq : e = q
          · subst heq
            simp
          · have : ¬ q = e := fun h => heq h.symm
            simp [hn, Nat.ne_of_lt he, base e (Nat.ne_of_lt he), heq, this]
        · intro e he
          have h1 : e ≠ a := by omega
          have h2 : e ≠ N.count := by omega
          have h3 : e ≠ q := by omega
          simp [h1, h2, h3, base e h2]
    obtain ⟨p1, p2, p3, p4⟩ := hPn
    refine ⟨ha, .inr ⟨rfl, rfl⟩, rfl, ?_, rfl, sub, sm, tgt,
      ⟨vn, ln, pn, tgtn⟩, tgta, ?_, ?_, p1, p2, p3⟩
    · have ex : ∀ e f, P e = some f → e < N.count + 1 := by
        intro e f hf
        by_contra hc
        rw [p4 e (by omega)] at hf
        have := hN.exist _ _ hf
        omega
      refine ⟨ok.mem, ok.own, ok.nodup, ok.fin, ex, ?_⟩
      intro e f hf
      change P e = some f at hf
      change P f = some e
      have he := ex e f hf
      by_cases hea : e = a
      · rw [hea, p2] at hf
        cases hf
      by_cases hen : e = N.count
      · subst hen
        rw [p1] at hf
        have hs := hN.sym _ _ hf
        have hf' := hN.exist _ _ hs
        rw [p3 f hf' (by rintro rfl; exact hself hf), if_pos hf]
      · rw [p3 e (by omega) hea] at hf
        split at hf
        · rename_i h1
          cases hf
          rw [p1, h1]
        · rename_i h1
          have hs := hN.sym _ _ hf
          have hf' := hN.exist _ _ hs
          rw [p3 f hf' (by rintro rfl; exact h1 hs), if_neg, hs]
          intro hc
          have := hN.sym _ _ hc
          rw [hs] at this
          cases this
          exact hea rfl
    · rw [glo, ghi]
      simp [Net.loPt, Net.hiPt, posn, hp, tgtn, vn]
    · rw [glo, ghi]
      simp [Net.loPt, Net.hiPt, posa, hp, tgta, Net.split_vertex ha]

/-- `MaybeSplitEdge` for an entry whose edge did not begin at the current location. -/
theorem maybeSplit_cut {k : Fin 3} {C : HP3 → Prop} {L : PL → Prop} (hL : Lined k C L) {s : St} (hN : s.net.Ok) {h : Nat} {loc : HP3}
    (ha : s.edge h < s.net.count) (hl : L (s.net.line (s.edge h))) (hv : C (s.net.vertex (s.edge h)))
    (ht : C (s.net.target (s.edge h))) (hloc : C loc) (hself : s.net.partner (s.edge h) ≠ some (s.edge h))
    (hpos : (s.key h).pos = s.net.isPositive k (s.edge h)) (hc : s.cur h = false) :
    (s.net.lo k (s.edge h) < loc.pt k ∧ loc.pt k < s.net.hi k (s.edge h) →
      ∃ N D A, maybeSplit s h loc = some { s with net := N, edge := Function.update s.edge h A } ∧
        Cut k s.net N (s.edge h) loc D A) ∧
    (¬ (s.net.lo k (s.edge h) < loc.pt k ∧ loc.pt k < s.net.hi k (s.edge h)) → maybeSplit s h loc = none) := by
  have hsp := splitOk_iff (N := s.net) hL hl hv ht hloc
  obtain ⟨c1, c2⟩ := cut_exists (k := k) hN ha (hL.fin _ hloc) hself
  unfold maybeSplit
  rw [hc, Net.splitEdge_eq hN ha]
  constructor
  · intro hb
    rw [if_pos (hsp.2 hb)]
    by_cases hp : (s.key h).pos = true
    · refine ⟨_, _, _, ?_, c1 (hpos ▸ hp)⟩
      simp [hp]
    · have hp' : (s.key h).pos = false := by simpa using hp
      refine ⟨_, _, _, ?_, c2 (hpos ▸ hp')⟩
      simp only [hp']
      simp
      cases (s.net.split (s.edge h) loc).partner (s.edge h) <;> rfl
  · intro hb
    rw [if_neg (fun h => hb (hsp.1 h))]
    simp

end Walnut.Conn
