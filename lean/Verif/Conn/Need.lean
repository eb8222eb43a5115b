/- Seeking partners keeps the invariants. -/
import Verif.Conn.Whole

namespace Walnut.Conn
open Walnut.Geom Walnut.Props

section
variable {k : Fin 3} {C : HP3 → Prop} {L : PL → Prop} {R : List Nat} {N0 : Net} {s s' : St} {x : ℚ} {loc : HP3}

theorem Core.cutState (hs : Core k C L R N0 s x) {h : Nat} (hh : h ∈ s.order) (hC : C loc) (hx : loc.pt k = x)
    (hlo : s.net.lo k (s.edge h) < x) {N' : Net} {D A : Nat} (c : Cut k s.net N' (s.edge h) loc D A) :
    Core k C L R N0 { s with net := N', edge := Function.update s.edge h A } x ∧
    Frame s { s with net := N', edge := Function.update s.edge h A } ∧
    (∀ g ∈ s.order, g ≠ h → s.mate g ≠ some h → Proper s g → Proper { s with net := N', edge := Function.update s.edge h A } g) := by
  obtain ⟨a1, a2, a3, a4, a5, a6⟩ := hs.act h hh
  have hne : ∀ g ∈ s.order, g ≠ h → s.edge g ≠ s.edge h := fun g hg hgh he => hgh (hs.inj g hg h hh he)
  have ed : ∀ g ∈ s.order, g ≠ h → Function.update s.edge h A g = s.edge g := fun g _ hgh => Function.update_of_ne hgh _ _
  have inE := c.pieces (P := InE N0 R) a1 (.inr hs.net.cnt)
  have hAold : ∀ g ∈ s.order, g ≠ h → A ≠ s.edge g := by
    intro g hg hgh hc
    rcases c.ids with ⟨_, rfl⟩ | ⟨_, rfl⟩
    · have := (hs.act g hg).2.1; omega
    · exact hne g hg hgh hc.symm
  have hnA : A = s.edge h ∨ s.net.count ≤ A := by
    rcases c.ids with ⟨_, rfl⟩ | ⟨_, rfl⟩
    · exact .inr (le_refl _)
    · exact .inl rfl
  refine ⟨⟨hs.net.cut a1 hC hx hlo a4 c, hs.nodup, ?_, ?_, hs.mateIn, ?_, hs.needIn, ?_⟩, ⟨rfl, rfl, rfl, rfl, ?_, ?_, ?_, c.normal⟩, ?_⟩
  · intro g hg
    by_cases hgh : g = h
    · subst hgh
      simp only [Function.update_self]
      refine ⟨inE.2, c.lt_A, by rw [c.lo_A, hx], by rw [c.hi_A]; exact a4, by rw [c.pos.2]; exact a5, by rw [c.high.2]; exact a6⟩
    · obtain ⟨b1, b2, b3, b4, b5, b6⟩ := hs.act g hg
      have := hne g hg hgh
      simp only [ed g hg hgh]
      refine ⟨b1, by have := c.count; omega, ?_, ?_, ?_, ?_⟩
      · rw [c.lo_same b2 this]; exact b3
      · rw [c.hi_same b2 this]; exact b4
      · rw [c.pos_same b2]; exact b5
      · rw [c.hiPt_same b2 this]; exact b6
  · intro g hg j hj hgj
    by_cases hgh : g = h
    · by_cases hjh : j = h
      · rw [hgh, hjh]
      · subst hgh
        simp only [Function.update_self, ed j hj hjh] at hgj
        exact absurd hgj (hAold j hj hjh)
    · by_cases hjh : j = h
      · subst hjh
        simp only [Function.update_self, ed g hg hgh] at hgj
        exact absurd hgj.symm (hAold g hg hgh)
      · simp only [ed j hj hjh, ed g hg hgh] at hgj
        exact hs.inj g hg j hj hgj
  · intro g hg hc
    by_cases hgh : g = h
    · subst hgh
      simp only [Function.update_self]
      rw [c.lo_A, hx]
    · simp only [ed g hg hgh]
      rw [c.lo_same (hs.act g hg).2.1 (hne g hg hgh)]
      exact hs.cur g hg hc
  · intro e f he hf
    change N'.partner e = some f at hf
    change (∃ g ∈ s.order, Function.update s.edge h A g = e) ∨ N'.hi k e ≤ x
    rcases c.cases (c.ok.exist _ _ hf) with rfl | rfl | ⟨hlt, hn⟩
    · exact .inr (by rw [c.hi_D, hx])
    · rw [c.pA] at hf; cases hf
    · have : ∃ f', s.net.partner e = some f' := by
        rw [c.pE e hlt hn] at hf
        split at hf
        · rename_i h1
          exact ⟨_, hs.net.ok.sym _ _ h1⟩
        · exact ⟨f, hf⟩
      obtain ⟨f', hf'⟩ := this
      rcases hs.done e f' he hf' with ⟨g, hg, rfl⟩ | hd
      · have hgh : g ≠ h := by rintro rfl; exact hn rfl
        exact .inl ⟨g, hg, ed g hg hgh⟩
      · exact .inr (by rw [c.hi_same hlt hn]; exact hd)
  · have := c.count
    change s.net.count ≤ N'.count
    omega
  · intro g hg
    change Function.update s.edge h A g = s.edge g ∨ _ ≤ Function.update s.edge h A g
    by_cases hgh : g = h
    · subst hgh
      simpa using hnA
    · exact .inl (ed g hg hgh)
  · intro e he hn
    have hn' : e ≠ s.edge h := fun hc => hn h hh hc.symm
    exact ⟨⟨(c.same e he).1, (c.same e he).2.1, c.target e he hn', (c.same e he).2.2⟩, c.partner_none hs.net.ok he hn'⟩
  · intro g hg hgh hm hp
    refine ⟨?_, hp.2⟩
    change N'.partner (Function.update s.edge h A g) = (s.mate g).map (Function.update s.edge h A)
    rw [ed g hg hgh, c.pE _ (hs.act g hg).2.1 (hne g hg hgh), if_neg, hp.1]
    · cases hmg : s.mate g with
      | none => rfl
      | some p =>
        have hph : p ≠ h := by rintro rfl; exact hm hmg
        simp [Function.update_of_ne hph]
    · intro hc
      have := hs.net.ok.sym _ _ hc
      rw [hp.1] at this
      cases hmg : s.mate g with
      | none => rw [hmg] at this; cases this
      | some p =>
        rw [hmg] at this
        simp only [Option.map_some, Option.some.injEq] at this
        have := hs.inj p (hs.mateIn g hg p hmg).1 h hh this
        subst this
        exact hm hmg

/-- What `MaybeSplitEdge` does. -/
structure SplitResult (k : Fin 3) (C : HP3 → Prop) (L : PL → Prop) (R : List Nat) (N0 : Net) (s s' : St) (x : ℚ) (h : Nat) : Prop where
  core : Core k C L R N0 s' x
  frame : Frame s s'
  mate : s'.mate = s.mate
  need : s'.need = s.need
  errors : s'.errors = s.errors
  lo : s'.net.lo k (s'.edge h) = x
  none : s.cur h = false → s'.net.partner (s'.edge h) = none
  same : s.cur h = true → s' = s
  edge : ∀ g ∈ s.order, g ≠ h → s'.edge g = s.edge g
  lo' : ∀ g ∈ s.order, g ≠ h → s'.net.lo k (s'.edge g) = s.net.lo k (s.edge g)
  none' : ∀ g ∈ s.order, g ≠ h → s.net.partner (s.edge g) = .none → s'.net.partner (s'.edge g) = .none
  proper : ∀ g ∈ s.order, g ≠ h → s.mate g ≠ some h → Proper s g → Proper s' g
  whole : ∀ Ord rest, Whole k R N0 Ord s x rest → Whole k R N0 Ord s' x rest

theorem Core.maybeSplit (hL : Lined k C L) (hs : Core k C L R N0 s x) {h : Nat} (hh : h ∈ s.order) (hC : C loc) (hx : loc.pt k = x) :
    (∀ s', maybeSplit s h loc = some s' → SplitResult k C L R N0 s s' x h) ∧
    (s.cur h = true ∨ s.net.lo k (s.edge h) < x → ∃ s', maybeSplit s h loc = some s') := by
  obtain ⟨a1, a2, a3, a4, a5, a6⟩ := hs.act h hh
  by_cases hc : s.cur h = true
  · have e : Conn.maybeSplit s h loc = some s := by unfold Conn.maybeSplit; rw [if_pos hc]
    refine ⟨?_, fun _ => ⟨s, e⟩⟩
    intro s' h'
    rw [e] at h'
    cases h'
    exact ⟨hs, Frame.refl s, rfl, rfl, rfl, hs.cur h hh hc, fun h1 => absurd (h1.symm.trans hc) (by decide), fun _ => rfl, fun _ _ _ => rfl,
      fun _ _ _ => rfl, fun _ _ _ hn => hn, fun _ _ _ _ hp => hp, fun _ _ w => w⟩
  · have hc : s.cur h = false := by simpa using hc
    obtain ⟨o1, o2, o3⟩ := hs.net.on _ a1 a2
    obtain ⟨m1, m2⟩ := maybeSplit_cut hL hs.net.ok a2 o1 o2 o3 hC (hs.net.self a1) a5 hc
    constructor
    · intro s' h'
      by_cases hb : s.net.lo k (s.edge h) < loc.pt k ∧ loc.pt k < s.net.hi k (s.edge h)
      · obtain ⟨N', D, A, e, c⟩ := m1 hb
        rw [e] at h'
        cases h'
        obtain ⟨r1, r2, r3⟩ := hs.cutState hh hC hx (hx ▸ hb.1) c
        have hne : ∀ g ∈ s.order, g ≠ h → s.edge g ≠ s.edge h := fun g hg hgh he => hgh (hs.inj g hg h hh he)
        refine ⟨r1, r2, rfl, rfl, rfl, ?_, ?_, ?_, ?_, ?_, ?_, r3, fun _ _ w => w.cut hs hh hx (hx ▸ hb.1) c⟩
        · simp [c.lo_A, hx]
        · intro _; simp [c.pA]
        · intro h1; rw [hc] at h1; cases h1
        · intro g hg hgh; simp [hgh]
        · intro g hg hgh
          simp [hgh, c.lo_same (hs.act g hg).2.1 (hne g hg hgh)]
        · intro g hg hgh hn
          simp [hgh, c.partner_none hs.net.ok (hs.act g hg).2.1 (hne g hg hgh) hn]
      · rw [m2 hb] at h'
        cases h'
    · intro hl
      obtain ⟨N', D, A, e, c⟩ := m1 ⟨by rw [hx]; exact hl.resolve_left (by simp [hc]), by rw [hx]; exact a4⟩
      exact ⟨_, e⟩

/-- What giving up a partner does. -/
theorem Core.release (hs : Core k C L R N0 s x) {h p : Nat} (hh : h ∈ s.order) (hr : release s h p = some s') :
    ∃ need mate, s' = { s with need := need, mate := mate } ∧ Core k C L R N0 s' x ∧ mate h = none ∧ (∀ g, g ≠ h → mate g = s.mate g) ∧
      need = (match s.mate h with | none => s.need | some o => o :: s.need) := by
  unfold Conn.release at hr
  cases hm : s.mate h with
  | none =>
    rw [hm] at hr
    cases hr
    exact ⟨_, _, rfl, hs, hm, fun _ _ => rfl, rfl⟩
  | some o =>
    rw [hm] at hr
    simp only at hr
    split at hr
    · cases hr
    · cases hr
      refine ⟨_, _, rfl, ⟨hs.net, hs.nodup, hs.act, hs.inj, ?_, hs.cur, ?_, hs.done⟩, by simp, fun g hg => by simp [hg], rfl⟩
      · intro g hg q hq
        by_cases hgh : g = h
        · subst hgh; simp at hq
        · simp only [Function.update_of_ne hgh] at hq
          exact hs.mateIn g hg q hq
      · intro g hg
        rcases List.mem_cons.1 hg with rfl | hg
        · exact (hs.mateIn h hh g hm).1
        · exact hs.needIn g hg

/-- The entry that should be the partner of `h`. -/
abbrev nb (s : St) (h : Nat) : Option Nat := neighbour s.order (s.key h).pos h

/-- The entries whose partner is not the right one. -/
def badCount (s : St) : Nat := (s.order.filter fun g => decide (s.mate g ≠ none ∧ s.mate g ≠ nb s g)).length

/-- The invariant while partners are sought. -/
structure Mid (k : Fin 3) (C : HP3 → Prop) (L : PL → Prop) (R : List Nat) (N0 : Net) (s : St) (x : ℚ) (hidden : List Nat) : Prop where
  core : Core k C L R N0 s x
  settled : ∀ h ∈ s.order, h ∉ s.need → h ∉ hidden → Proper s h
  right : ∀ h ∈ s.order, ∀ p, nb s h = some p → s.mate h = some p → Proper s h

/-- The edges around the line alternate, and partners can be found for all of them. -/
structure Alt (k : Fin 3) (s : St) (x : ℚ) (hidden : List Nat) : Prop where
  alt : ∀ h ∈ s.order, ∀ p, nb s h = some p → (s.key h).pos ≠ (s.key p).pos
  prog : ∀ h ∈ s.order, ∀ p, nb s h = some p → (h ∈ s.need ∨ h ∈ hidden) ∨ (p ∈ s.need ∨ p ∈ hidden) ∨ s.mate h = some p
  unsplit : ∀ h ∈ s.order, ∀ p, nb s h = some p → s.mate h ≠ some p →
    (s.cur h = true ∨ s.net.lo k (s.edge h) < x) ∧ (s.cur h = true → s.net.partner (s.edge h) = none)

theorem nb_symm {s : St} (hd : s.order.Nodup) {h p : Nat} (hn : nb s h = some p) (hp : (s.key h).pos ≠ (s.key p).pos) : nb s p = some h := by
  have := neighbour_symm hd hn
  rwa [show (!(s.key h).pos) = (s.key p).pos by cases h1 : (s.key h).pos <;> cases h2 : (s.key p).pos <;> simp_all] at this

theorem length_filter_mono {p q : Nat → Bool} : ∀ {l : List Nat}, (∀ a ∈ l, p a = true → q a = true) → (l.filter p).length ≤ (l.filter q).length := by
  intro l h
  rw [← List.countP_eq_length_filter, ← List.countP_eq_length_filter]
  exact List.countP_mono_left h

theorem length_filter_lt {p q : Nat → Bool} {a : Nat} {l : List Nat} (ha : a ∈ l) (hd : l.Nodup) (hp : p a = false) (hq : q a = true)
    (h : ∀ b ∈ l, p b = true → q b = true) : (l.filter p).length + 1 ≤ (l.filter q).length := by
  induction l with
  | nil => simp at ha
  | cons b l ih =>
    rw [List.nodup_cons] at hd
    rcases List.mem_cons.1 ha with rfl | ha
    · rw [List.filter_cons_of_neg (by simp [hp]), List.filter_cons_of_pos hq, List.length_cons]
      have := length_filter_mono (l := l) (p := p) (q := q) fun b hb => h b (List.mem_cons_of_mem _ hb)
      omega
    · have ih := ih ha hd.2 fun b hb => h b (List.mem_cons_of_mem _ hb)
      have hb := h b List.mem_cons_self
      cases h1 : p b <;> cases h2 : q b
      · simpa [List.filter_cons, h1, h2] using ih
      · simp [List.filter_cons, h1, h2]; omega
      · simp [h1, h2] at hb
      · simpa [List.filter_cons, h1, h2] using ih

/-- The number of wrong partners when an entry gives up its partner. -/
theorem badCount_release (hs : Core k C L R N0 s x) {h p : Nat} (hh : h ∈ s.order) (hp : nb s h = some p) (hm : s.mate h ≠ some p)
    (hr : release s h p = some s') : badCount s' + s'.need.length ≤ badCount s + s.need.length := by
  obtain ⟨need, mate, rfl, _, m1, m2, m3⟩ := hs.release hh hr
  have sub : ∀ b ∈ s.order, decide (mate b ≠ none ∧ mate b ≠ nb s b) = true → decide (s.mate b ≠ none ∧ s.mate b ≠ nb s b) = true := by
    intro b _ hb
    by_cases hbh : b = h
    · subst hbh; simp [m1] at hb
    · rwa [m2 b hbh] at hb
  cases hmh : s.mate h with
  | none =>
    rw [hmh] at m3
    subst m3
    exact Nat.add_le_add_right (length_filter_mono sub) _
  | some o =>
    rw [hmh] at m3
    subst m3
    have := length_filter_lt (p := fun b => decide (mate b ≠ none ∧ mate b ≠ nb s b))
      (q := fun b => decide (s.mate b ≠ none ∧ s.mate b ≠ nb s b)) hh hs.nodup (by simp [m1])
      (by rw [hmh] at hm ⊢; rw [hp]; simpa using hm) sub
    simp only [List.length_cons]
    change (s.order.filter fun g => decide (mate g ≠ none ∧ mate g ≠ nb s g)).length + (s.need.length + 1) ≤ _
    unfold badCount
    omega

theorem badCount_congr {s s' : St} (h1 : s'.order = s.order) (h2 : s'.key = s.key) (h3 : ∀ h ∈ s.order, s'.mate h = s.mate h ∨ s'.mate h = none ∨ s'.mate h = nb s h) :
    badCount s' ≤ badCount s := by
  unfold badCount nb
  rw [h1, h2]
  refine length_filter_mono ?_
  intro a ha hb
  rcases h3 a ha with h | h | h
  · rwa [h] at hb
  · simp [h] at hb
  · simp [h, nb] at hb

/-- What one iteration of `ProcessNeedPartners` achieves. -/
structure Step (k : Fin 3) (C : HP3 → Prop) (L : PL → Prop) (R : List Nat) (N0 : Net) (s s' : St) (x : ℚ) (h : Nat) : Prop where
  mid : Mid k C L R N0 s' x []
  frame : Frame s s'
  less : badCount s' + s'.need.length ≤ badCount s + s.need.length
  whole : ∀ Ord rest, Whole k R N0 Ord s x rest → Whole k R N0 Ord s' x rest
  err : s.errors ≤ s'.errors ∧ (s'.errors = s.errors → (∀ g ∈ s.order, g = h ∨ g ∈ s.need ∨ s.mate g ≠ none) →
    ∀ g ∈ s'.order, g ∈ s'.need ∨ s'.mate g ≠ none)

end

end Walnut.Conn
