/- The state between two locations. -/
import Verif.Conn.Ends

namespace Walnut.Conn
open Walnut.Geom Walnut.Props

/-- The edges that have not begun. -/
structure Rest (k : Fin 3) (R : List Nat) (N0 : Net) (s : St) (rest : List Nat) : Prop where
  nodup : rest.Nodup
  sorted : rest.Pairwise fun a b => N0.lo k a ≤ N0.lo k b
  new : ∀ e ∈ rest, e ∈ R ∧ e < N0.count ∧ s.net.target e = N0.target e ∧ s.net.partner e = none ∧ e ∉ s.order ∧ ∀ h ∈ s.order, s.edge h ≠ e

/-- The state after the location `x`. -/
structure Bnd (k : Fin 3) (C : HP3 → Prop) (L : PL → Prop) (R : List Nat) (N0 : Net) (s : St) (x : ℚ) (rest : List Nat) : Prop where
  core : Core k C L R N0 s x
  proper : ∀ h ∈ s.order, Proper s h
  need : s.need = []
  cur : ∀ h ∈ s.order, s.cur h = false
  perm : s.ends.Perm s.order
  heap : HeapBy (N0.hi k) s.ends
  restR : Rest k R N0 s rest
  gt : ∀ e ∈ rest, x < N0.lo k e

/-- The state at the location `y` before edges begin. -/
structure Pre (k : Fin 3) (C : HP3 → Prop) (L : PL → Prop) (R : List Nat) (N0 : Net) (s : St) (y : ℚ) (rest : List Nat) : Prop where
  core : Core k C L R N0 s y
  strong : ∀ h ∈ s.order, h ∉ s.need ∨ s.mate h ≠ none → Proper s h
  cur : ∀ h ∈ s.order, s.cur h = false
  perm : s.ends.Perm s.order
  heap : HeapBy (N0.hi k) s.ends
  restR : Rest k R N0 s rest
  ge : ∀ e ∈ rest, y ≤ N0.lo k e

/-- The order of the entries. -/
def KeyLt (N0 : Net) (k : Fin 3) (a b : Nat) : Prop := keyLess (keyOf N0 k a) (keyOf N0 k b) = some true

/-- Edges are related if they are neighbours. -/
abbrev ordRel (Ord : ℚ → List Nat) : ℚ → Bool → Nat → Nat → Prop := fun t b e f => neighbour (Ord t) b e = some f

/-- Any two edges are related. -/
abbrev anyRel : ℚ → Bool → Nat → Nat → Prop := fun _ _ _ _ => True

structure CBnd (k : Fin 3) (R : List Nat) (N0 : Net) (Ord : ℚ → List Nat) (s : St) (x : ℚ) (rest : List Nat) : Prop where
  whole : Whole k R N0 (ordRel Ord) s x rest
  mate : ∀ h ∈ s.order, s.mate h = nb s h
  key : ∀ h ∈ s.order, s.key h = keyOf N0 k h
  sorted : s.order.Pairwise (KeyLt N0 k)
  ent : ∀ h ∈ s.order, h ∈ R ∧ N0.lo k h ≤ x
  cover : ∀ e ∈ R, e ∈ rest ∨ e ∈ s.order ∨ N0.hi k e ≤ x

structure CPre (k : Fin 3) (R : List Nat) (N0 : Net) (Ord : ℚ → List Nat) (s : St) (y : ℚ) (rest : List Nat) : Prop where
  whole : Whole k R N0 (ordRel Ord) s y rest
  prog : ∀ h ∈ s.order, h ∈ s.need ∨ s.mate h = nb s h
  low : ∀ h ∈ s.order, s.net.lo k (s.edge h) < y
  key : ∀ h ∈ s.order, s.key h = keyOf N0 k h
  sorted : s.order.Pairwise (KeyLt N0 k)
  ent : ∀ h ∈ s.order, h ∈ R ∧ N0.lo k h ≤ y
  cover : ∀ e ∈ R, e ∈ rest ∨ e ∈ s.order ∨ N0.hi k e ≤ y

section
variable {k : Fin 3} {C : HP3 → Prop} {L : PL → Prop} {R : List Nat} {N0 : Net} {s s' : St} {x y : ℚ} {loc : HP3}
  {Ord : ℚ → List Nat} {rest : List Nat} {o : HeapFns}

theorem Closed.total (hc : Closed k R N0 Ord) {t : ℚ} {a b : Nat} (ha : a ∈ Ord t) (hb : b ∈ Ord t) (hab : a ≠ b) :
    (KeyLt N0 k a b ∧ keyLess (keyOf N0 k b) (keyOf N0 k a) = some false) ∨
    (KeyLt N0 k b a ∧ keyLess (keyOf N0 k a) (keyOf N0 k b) = some false) := by
  have := hc.lt t
  revert ha hb
  generalize Ord t = l at this
  induction l with
  | nil => intro h; simp at h
  | cons c l ih =>
    intro ha hb
    rw [List.pairwise_cons] at this
    rcases List.mem_cons.1 ha with ha | ha
    · rcases List.mem_cons.1 hb with hb | hb
      · exact absurd (ha.trans hb.symm) hab
      · exact .inl (ha ▸ this.1 b hb)
    · rcases List.mem_cons.1 hb with hb | hb
      · exact .inr (hb ▸ this.1 a ha)
      · exact ih this.2 ha hb

theorem Closed.nodup (hc : Closed k R N0 Ord) (t : ℚ) : (Ord t).Nodup := by
  refine (hc.lt t).imp ?_
  rintro a b ⟨h1, h2⟩ rfl
  rw [h1] at h2
  simp at h2

theorem Closed.eq (hc : Closed k R N0 Ord) {t : ℚ} {l : List Nat} (h1 : l.Nodup) (h2 : l.Pairwise (KeyLt N0 k))
    (h3 : ∀ e, e ∈ l ↔ e ∈ R ∧ N0.lo k e ≤ t ∧ t < N0.hi k e) : l = Ord t := by
  have hm : ∀ e, e ∈ l ↔ e ∈ Ord t := fun e => by rw [h3, hc.mem]
  refine List.Perm.eq_of_pairwise (le := KeyLt N0 k) ?_ h2 ((hc.lt t).imp fun h => h.1) ((List.perm_ext_iff_of_nodup h1 (hc.nodup t)).2 hm)
  intro a b ha hb hab hba
  by_contra hne
  rcases hc.total ((hm a).1 ha) hb hne with ⟨_, h⟩ | ⟨_, h⟩
  · unfold KeyLt at hba; rw [hba] at h; simp at h
  · unfold KeyLt at hab; rw [hab] at h; simp at h

theorem NInv.lift (hs : Core k C L R N0 s x) (hp : ∀ h ∈ s.order, Proper s h) (hi : ∀ h ∈ s.order, y ≤ N0.hi k h) :
    NInv k C L R N0 s.net y := by
  obtain ⟨n1, n2, n3, n4, n5, n6, n7, n8, n9, n10, n11⟩ := hs.net
  refine ⟨n1, n2, n3, n4, ?_, n6, n7, n8, n9, n10, n11⟩
  intro e f he hf
  obtain ⟨l1, l2, l3, l4⟩ := n5 e f he hf
  refine ⟨l1, l2, l3, ?_⟩
  have key : ∀ e f, s.net.partner e = some f → (∃ h ∈ s.order, s.edge h = e) → (∃ h ∈ s.order, s.edge h = f) := by
    rintro e f hf ⟨h, hh, rfl⟩
    have := (hp h hh).1
    rw [hf] at this
    cases hm : s.mate h with
    | none => rw [hm] at this; cases this
    | some q =>
      rw [hm] at this
      simp only [Option.map_some, Option.some.injEq] at this
      exact ⟨q, (hs.mateIn h hh q hm).1, this.symm⟩
  have hi' : ∀ e, (∃ h ∈ s.order, s.edge h = e) → y ≤ s.net.hi k e := by
    rintro e ⟨h, hh, rfl⟩
    unfold Net.hi
    rw [(hs.act h hh).2.2.2.2.2]
    exact hi h hh
  by_cases hact : ∃ h ∈ s.order, s.edge h = e
  · rw [min_eq_right (hi' e hact), min_eq_right (hi' f (key e f hf hact))]
  · have h1 := (hs.done e f he hf).resolve_left hact
    have h2 := (hs.done f e l1 (n1.sym _ _ hf)).resolve_left fun hc => hact (key f e (n1.sym _ _ hf) hc)
    rw [min_eq_left h1, min_eq_left h2] at l4
    rw [l4]

theorem Rest.lo (hr : Rest k R N0 s rest) (hs : Core k C L R N0 s x) {e : Nat} (he : e ∈ rest) : s.net.lo k e = N0.lo k e ∧ s.net.hi k e = N0.hi k e := by
  obtain ⟨h1, h2, h3, h4, h5, h6⟩ := hr.new e he
  obtain ⟨f1, f2, f3⟩ := hs.net.frame e h2
  unfold Net.lo Net.hi Net.loPt Net.hiPt Net.isPositive
  rw [f1, f2, h3]
  exact ⟨rfl, rfl⟩

theorem Core.hi_eq (hs : Core k C L R N0 s x) {h : Nat} (hh : h ∈ s.order) : s.net.hi k (s.edge h) = N0.hi k h := by
  unfold Net.hi
  rw [(hs.act h hh).2.2.2.2.2]

theorem Bnd.toPre (b : Bnd k C L R N0 s x rest) (hxy : x ≤ y) (hi : ∀ h ∈ s.order, y < N0.hi k h) (hr : ∀ e ∈ rest, y ≤ N0.lo k e) :
    Pre k C L R N0 s y rest := by
  refine ⟨⟨NInv.lift b.core b.proper (fun h hh => (hi h hh).le), b.core.nodup, ?_, b.core.inj, b.core.mateIn, ?_, b.core.needIn, ?_⟩,
    fun h hh _ => b.proper h hh, b.cur, b.perm, b.heap, b.restR, hr⟩
  · intro h hh
    obtain ⟨a1, a2, a3, a4, a5, a6⟩ := b.core.act h hh
    exact ⟨a1, a2, a3.trans hxy, by rw [b.core.hi_eq hh]; exact hi h hh, a5, a6⟩
  · intro h hh hc
    rw [b.cur h hh] at hc; cases hc
  · intro e f he hf
    exact (b.core.done e f he hf).imp_right fun h => h.trans hxy

theorem CBnd.order (c : CBnd k R N0 Ord s x rest) (b : Bnd k C L R N0 s x rest) (hc : Closed k R N0 Ord) {t : ℚ} (h1 : x ≤ t)
    (h2 : ∀ h ∈ s.order, t < N0.hi k h) (h3 : ∀ e ∈ rest, t < N0.lo k e) : s.order = Ord t := by
  refine hc.eq b.core.nodup c.sorted ?_
  intro e
  constructor
  · intro he
    obtain ⟨e1, e2⟩ := c.ent e he
    exact ⟨e1, e2.trans h1, h2 e he⟩
  · rintro ⟨e1, e2, e3⟩
    rcases c.cover e e1 with h | h | h
    · exact absurd (h3 e h) (not_lt.2 e2)
    · exact h
    · exact absurd e3 (not_lt.2 (h.trans h1))

theorem Whole.lift {Rel : ℚ → Bool → Nat → Nat → Prop} (w : Whole k R N0 Rel s x rest) (b : Bnd k C L R N0 s x rest) (hxy : x < y)
    (hm : ∀ h ∈ s.order, s.mate h ≠ none) (hrel : ∀ h ∈ s.order, ∀ p, s.mate h = some p → ∀ t, x ≤ t → t < y → Rel t (s.key h).pos h p)
    (h3 : ∀ e ∈ rest, y ≤ N0.lo k e) (hn : s'.net = s.net) (he : s'.edge = s.edge) (hsub : ∀ h ∈ s'.order, h ∈ s.order) :
    Whole k R N0 Rel s' y rest := by
  have pn : ∀ h ∈ s.order, s.net.partner (s.edge h) ≠ none := by
    intro h hh
    rw [(b.proper h hh).1]
    simpa using hm h hh
  refine ⟨by rw [hn]; exact w.restIn, ?_, ?_, ?_⟩
  · rw [hn]
    intro e he hlt hl
    by_cases hx : s.net.lo k e < x
    · exact w.full e he hlt hx
    · rcases w.start e he hlt (not_lt.1 hx) with h | ⟨h, hh, rfl⟩
      · rw [(b.restR.lo b.core h).1] at hl
        exact absurd hl (not_lt.2 (h3 e h))
      · exact pn h hh
  · rw [hn, he]
    intro e he hlt hl
    rcases w.start e he hlt (hxy.le.trans hl) with h | ⟨h, hh, rfl⟩
    · exact .inl h
    · exact absurd ((b.core.act h hh).2.2.1.trans_lt hxy) (not_lt.2 hl)
  · obtain ⟨org, o1, o2, o3, o4⟩ := w.org
    rw [hn, he]
    refine ⟨org, fun h hh => o1 h (hsub h hh), o2, o3, ?_⟩
    intro e f he hf t t1 t2 t3
    by_cases ht : t < x
    · exact o4 e f he hf t t1 t2 ht
    · have ht := not_lt.1 ht
      rcases b.core.done e f he hf with ⟨h, hh, rfl⟩ | hd
      · have hf' := (b.proper h hh).1
        cases p1 : s.mate h with
        | none => exact absurd p1 (hm h hh)
        | some p =>
          rw [hf, p1] at hf'
          simp only [Option.map_some, Option.some.injEq] at hf'
          subst hf'
          rw [o1 h hh, o1 p (b.core.mateIn h hh p p1).1, ← (b.core.act h hh).2.2.2.2.1]
          exact hrel h hh p p1 t ht t3
      · exact absurd (t2.trans_le hd) (not_lt.2 ht)

theorem CBnd.lift (c : CBnd k R N0 Ord s x rest) (b : Bnd k C L R N0 s x rest) (hc : Closed k R N0 Ord) (hxy : x < y)
    (h2 : ∀ h ∈ s.order, y ≤ N0.hi k h) (h3 : ∀ e ∈ rest, y ≤ N0.lo k e) (hn : s'.net = s.net) (he : s'.edge = s.edge)
    (hsub : ∀ h ∈ s'.order, h ∈ s.order) : Whole k R N0 (ordRel Ord) s' y rest := by
  refine c.whole.lift b hxy ?_ ?_ h3 hn he hsub
  · intro h hh
    obtain ⟨p, p1, p2⟩ := neighbour_some (b := (s.key h).pos) hh
    rw [c.mate h hh, nb, p1]
    simp
  · intro h hh p hp t t1 t2
    unfold ordRel
    rw [← c.order b hc t1 (fun h hh => t2.trans_le (h2 h hh)) (fun e he => t2.trans_le (h3 e he)), ← hp, c.mate h hh]

theorem CBnd.toPre (c : CBnd k R N0 Ord s x rest) (b : Bnd k C L R N0 s x rest) (hc : Closed k R N0 Ord) (hxy : x < y)
    (h2 : ∀ h ∈ s.order, y ≤ N0.hi k h) (h3 : ∀ e ∈ rest, y ≤ N0.lo k e) : CPre k R N0 Ord s y rest := by
  refine ⟨c.lift b hc hxy h2 h3 rfl rfl fun _ h => h, fun h hh => .inr (c.mate h hh), ?_, c.key, c.sorted, ?_, ?_⟩
  · intro h hh
    exact (b.core.act h hh).2.2.1.trans_lt hxy
  · intro h hh
    exact ⟨(c.ent h hh).1, (c.ent h hh).2.trans hxy.le⟩
  · intro e he
    exact (c.cover e he).imp_right fun h => h.imp_right fun h => h.trans hxy.le

/-- Processing the edges that end. -/
theorem processEnds_spec (hL : Lined k C L) (ho : HeapOk o) (b : Bnd k C L R N0 s x rest) (hC : C loc) (hy : loc.pt k = y) (hxy : x < y)
    (hi : ∀ h ∈ s.order, y ≤ N0.hi k h) (hr : ∀ e ∈ rest, y ≤ N0.lo k e) :
    ∃ s', processEnds o k loc s = some s' ∧ Pre k C L R N0 s' y rest ∧ s'.errors = s.errors ∧ (∀ h ∈ s'.order, y < N0.hi k h) ∧
      (∀ h, h ∈ s'.order ↔ h ∈ s.order ∧ y < N0.hi k h) ∧
      ((∀ h ∈ s.order, s.mate h ≠ none) → (∀ h ∈ s'.order, h ∈ s'.need ∨ s'.mate h ≠ none) ∧
        ∀ Rel, (∀ h ∈ s.order, ∀ p, s.mate h = some p → ∀ t, x ≤ t → t < y → Rel t (s.key h).pos h p) →
          Whole k R N0 Rel s x rest → Whole k R N0 Rel s' y rest) ∧
      (Closed k R N0 Ord → CBnd k R N0 Ord s x rest → CPre k R N0 Ord s' y rest) := by
  obtain ⟨s1, heap, done, e1, e2, e3⟩ := endLoop_spec hL ho b.core b.proper hC hy s.ends.length s s.ends [] rfl
    ⟨⟨s.need, s.mate, rfl⟩, by simpa using b.perm, b.heap, fun h hh => hi h (b.perm.mem_iff.1 hh), by simp, by simp,
      fun h _ => ⟨by rintro ⟨p, hp, _⟩; simp at hp, fun _ => rfl⟩, by simp [b.need], by rintro h _ ⟨p, hp, _⟩; simp at hp⟩
  obtain ⟨st, perm, by_, ge, fin, self, mate, need, needed⟩ := e2
  obtain ⟨need1, mate1, rfl⟩ := st
  unfold processEnds
  rw [e1]
  simp only at self mate need needed ⊢
  rw [if_pos (by simpa using self)]
  have nd : (heap ++ done).Nodup := perm.nodup_iff.2 b.core.nodup
  have hmem : ∀ h, h ∈ s.order.filter (fun h => decide (h ∉ done)) ↔ h ∈ heap := by
    intro h
    rw [List.mem_filter, ← perm.mem_iff, List.mem_append]
    constructor
    · rintro ⟨h1, h2⟩
      exact h1.resolve_right (by simpa using h2)
    · intro h1
      exact ⟨.inl h1, by simpa using fun hd => (List.nodup_append.1 nd).2.2 h h1 h hd rfl⟩
  have hsub : ∀ h ∈ heap, h ∈ s.order := fun h hh => perm.mem_iff.1 (List.mem_append_left _ hh)
  have mateH : ∀ h ∈ heap, ∀ p, mate1 h = some p → s.mate h = some p ∧ p ∈ heap := by
    intro h hh p hp
    have hnd : ¬ ∃ p ∈ done, s.mate h = some p := fun hd => by rw [(mate h hh).1 hd] at hp; cases hp
    have hm : s.mate h = some p := by rw [← (mate h hh).2 hnd]; exact hp
    refine ⟨hm, ?_⟩
    rcases List.mem_append.1 (perm.mem_iff.2 (b.core.mateIn h (hsub h hh) p hm).1) with h1 | h1
    · exact h1
    · exact absurd ⟨p, h1, hm⟩ hnd
  have hperm : (heap).Perm (s.order.filter fun h => decide (h ∉ done)) :=
    (List.perm_ext_iff_of_nodup (List.nodup_append.1 nd).1 (b.core.nodup.filter _)).2 fun h => (hmem h).symm
  refine ⟨_, rfl, ⟨⟨?_, b.core.nodup.filter _, ?_, ?_, ?_, ?_, ?_, ?_⟩, ?_, ?_, ?_, ?_, ⟨b.restR.nodup, b.restR.sorted, ?_⟩, hr⟩, rfl, ?_, ?_, ?_, ?_⟩
  · exact (NInv.lift b.core b.proper hi : NInv k C L R N0 s.net y)
  · intro h hh
    have hh := (hmem h).1 hh
    obtain ⟨a1, a2, a3, a4, a5, a6⟩ := b.core.act h (hsub h hh)
    refine ⟨a1, a2, a3.trans hxy.le, ?_, a5, a6⟩
    change y < s.net.hi k (s.edge h)
    rw [b.core.hi_eq (hsub h hh)]
    exact e3 h hh
  · intro h hh g hg
    exact b.core.inj h (hsub h ((hmem h).1 hh)) g (hsub g ((hmem g).1 hg))
  · intro h hh p hp
    have hh := (hmem h).1 hh
    obtain ⟨m1, m2⟩ := mateH h hh p hp
    exact ⟨(hmem p).2 m2, (b.core.mateIn h (hsub h hh) p m1).2⟩
  · intro h hh hc
    have := b.cur h (hsub h ((hmem h).1 hh))
    change s.cur h = true at hc
    rw [this] at hc; cases hc
  · intro h hh
    obtain ⟨h1, h2⟩ := List.mem_filter.1 hh
    refine (hmem h).2 ?_
    rcases List.mem_append.1 (perm.mem_iff.2 (need h h1)) with h3 | h3
    · exact h3
    · exact absurd (self h h3) (by simpa using h2)
  · intro e f he hf
    rcases b.core.done e f he hf with ⟨h, hh, rfl⟩ | hd
    · by_cases h1 : h ∈ heap
      · exact .inl ⟨h, (hmem h).2 h1, rfl⟩
      · refine .inr (le_of_eq ?_)
        change s.net.hi k (s.edge h) = y
        rw [b.core.hi_eq hh]
        exact fin h ((List.mem_append.1 (perm.mem_iff.2 hh)).resolve_left h1)
    · exact .inr (hd.trans hxy.le)
  · intro h hh hor
    have hh := (hmem h).1 hh
    have hpr := b.proper h (hsub h hh)
    have hnd : ¬ ∃ p ∈ done, s.mate h = some p := by
      intro hd
      rcases hor with h1 | h1
      · refine h1 (List.mem_filter.2 ⟨needed h hh hd, ?_⟩)
        simp [(mate h hh).1 hd]
      · exact h1 ((mate h hh).1 hd)
    refine ⟨?_, ?_⟩
    · change s.net.partner (s.edge h) = (mate1 h).map s.edge
      rw [(mate h hh).2 hnd]
      exact hpr.1
    · intro p hp
      obtain ⟨m1, m2⟩ := mateH h hh p hp
      have := hpr.2 p m1
      change mate1 p = some h
      rw [(mate p m2).2, this]
      rintro ⟨q, q1, q2⟩
      rw [this] at q2; cases q2
      exact (List.nodup_append.1 nd).2.2 h hh h q1 rfl
  · intro h hh
    exact b.cur h (hsub h ((hmem h).1 hh))
  · exact hperm
  · exact by_
  · intro e he
    obtain ⟨h1, h2, h3, h4, h5, h6⟩ := b.restR.new e he
    exact ⟨h1, h2, h3, h4, fun hc => h5 (hsub e ((hmem e).1 hc)), fun h hh => h6 h (hsub h ((hmem h).1 hh))⟩
  · intro h hh
    exact e3 h ((hmem h).1 hh)
  · intro h
    constructor
    · intro hh
      have hh := (hmem h).1 hh
      exact ⟨hsub h hh, e3 h hh⟩
    · rintro ⟨h1, h2⟩
      refine (hmem h).2 ?_
      rcases List.mem_append.1 (perm.mem_iff.2 h1) with h3 | h3
      · exact h3
      · rw [fin h h3] at h2
        exact absurd h2 (lt_irrefl _)
  · intro hm
    refine ⟨?_, fun Rel hrel w => w.lift b hxy hm hrel hr rfl rfl fun h hh => hsub h ((hmem h).1 hh)⟩
    intro h hh
    have hh := (hmem h).1 hh
    by_cases hd : ∃ p ∈ done, s.mate h = some p
    · refine .inl (List.mem_filter.2 ⟨needed h hh hd, ?_⟩)
      simp [(mate h hh).1 hd]
    · refine .inr ?_
      change mate1 h ≠ none
      rw [(mate h hh).2 hd]
      exact hm h (hsub h hh)
  · intro hc c
    refine ⟨c.lift b hc hxy hi hr rfl rfl fun h hh => hsub h ((hmem h).1 hh), ?_, ?_, ?_, c.sorted.sublist List.filter_sublist, ?_, ?_⟩
    · intro h hh
      have hh := (hmem h).1 hh
      by_cases hd : ∃ p ∈ done, s.mate h = some p
      · refine .inl (List.mem_filter.2 ⟨needed h hh hd, ?_⟩)
        simp [(mate h hh).1 hd]
      · refine .inr ?_
        change mate1 h = neighbour _ _ _
        have hm := (mate h hh).2 hd
        obtain ⟨p, p1, p2⟩ := neighbour_some (b := (s.key h).pos) (hsub h hh)
        have hm' : s.mate h = some p := by rw [c.mate h (hsub h hh)]; exact p1
        rw [hm, hm']
        refine (neighbour_filter p1 ?_ ?_).symm
        · simpa using (List.mem_filter.1 ((hmem h).2 hh)).2
        · simpa using fun hpd => hd ⟨p, hpd, hm'⟩
    · intro h hh
      exact (b.core.act h (hsub h ((hmem h).1 hh))).2.2.1.trans_lt hxy
    · intro h hh
      exact c.key h (hsub h ((hmem h).1 hh))
    · intro h hh
      obtain ⟨h1, h2⟩ := c.ent h (hsub h ((hmem h).1 hh))
      exact ⟨h1, h2.trans hxy.le⟩
    · intro e he
      rcases c.cover e he with h | h | h
      · exact .inl h
      · by_cases h1 : e ∈ heap
        · exact .inr (.inl ((hmem e).2 h1))
        · exact .inr (.inr (fin e ((List.mem_append.1 (perm.mem_iff.2 h)).resolve_left h1)).le)
      · exact .inr (.inr (h.trans hxy.le))

end

end Walnut.Conn
