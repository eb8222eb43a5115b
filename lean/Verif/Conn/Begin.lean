/- The edges that begin at a location. -/
import Verif.Conn.Boundary

namespace Walnut.Conn
open Walnut.Geom Walnut.Props

theorem emplace_split {key : Nat → Key} {c : Key} {h : Nat} : ∀ {l l' : List Nat}, emplace key c h l = some (l', true) →
    ∃ a b, l = a ++ b ∧ l' = a ++ h :: b := by
  intro l
  induction l with
  | nil =>
    intro l' he
    simp only [emplace, Option.some.injEq, Prod.mk.injEq, and_true] at he
    exact ⟨[], [], rfl, he.symm⟩
  | cons g l ih =>
    intro l' he
    unfold emplace at he
    split at he
    · cases h1 : emplace key c h l with
      | none => rw [h1] at he; cases he
      | some r =>
        rw [h1] at he
        obtain ⟨r1, r2⟩ := r
        simp only [Option.map_some, Option.some.injEq, Prod.mk.injEq] at he
        obtain ⟨e1, e2⟩ := he
        subst e2
        obtain ⟨a, b, h2, h3⟩ := ih h1
        exact ⟨g :: a, b, by rw [h2]; rfl, by rw [← e1, h3]; rfl⟩
    · simp only [Option.some.injEq, Prod.mk.injEq, and_true] at he
      exact ⟨[], g :: l, rfl, he.symm⟩
    · simp at he
    · cases he

section
variable {k : Fin 3} {C : HP3 → Prop} {L : PL → Prop} {R : List Nat} {N0 : Net} {s s' : St} {x y : ℚ} {loc : HP3}
  {Ord : ℚ → List Nat} {rest : List Nat} {o : HeapFns}

theorem Closed.trans (hc : Closed k R N0 Ord) {t : ℚ} {a b c : Nat} (ha : a ∈ Ord t) (hb : b ∈ Ord t) (hcc : c ∈ Ord t)
    (h1 : KeyLt N0 k a b) (h2 : KeyLt N0 k b c) : KeyLt N0 k a c := by
  have := hc.lt t
  revert ha hb hcc
  generalize Ord t = l at this
  induction l with
  | nil => intro h; simp at h
  | cons d l ih =>
    intro ha hb hcc
    rw [List.pairwise_cons] at this
    unfold KeyLt at h1 h2 ⊢
    rcases List.mem_cons.1 hb with hb | hb
    · rcases List.mem_cons.1 ha with ha | ha
      · rw [ha, ← hb]; exact h2
      · have := (this.1 a ha).2
        rw [← hb, h1] at this
        simp at this
    · rcases List.mem_cons.1 hcc with hcc | hcc
      · have := (this.1 b hb).2
        rw [← hcc, h2] at this
        simp at this
      · rcases List.mem_cons.1 ha with ha | ha
        · rw [ha]; exact (this.1 c hcc).1
        · exact ih this.2 ha hb hcc

theorem emplace_closed (hc : Closed k R N0 Ord) {t : ℚ} {key : Nat → Key} {h : Nat} (hh : h ∈ Ord t) : ∀ {l : List Nat},
    (∀ g ∈ l, g ∈ Ord t ∧ g ≠ h ∧ key g = keyOf N0 k g) → l.Pairwise (KeyLt N0 k) →
    ∃ l', emplace key (keyOf N0 k h) h l = some (l', true) ∧ l'.Pairwise (KeyLt N0 k) ∧ ∀ g, g ∈ l' ↔ g = h ∨ g ∈ l := by
  intro l
  induction l with
  | nil =>
    intro _ _
    exact ⟨[h], rfl, by simp, by simp⟩
  | cons g l ih =>
    intro hg hs
    obtain ⟨g1, g2, g3⟩ := hg g List.mem_cons_self
    rw [List.pairwise_cons] at hs
    unfold emplace
    rw [g3]
    rcases hc.total g1 hh g2 with ⟨h1, h2⟩ | ⟨h1, h2⟩
    · unfold KeyLt at h1
      rw [h1, h2]
      obtain ⟨l', e1, e2, e3⟩ := ih (fun g hg' => hg g (List.mem_cons_of_mem _ hg')) hs.2
      refine ⟨g :: l', by simp [e1], ?_, ?_⟩
      · rw [List.pairwise_cons]
        refine ⟨?_, e2⟩
        intro a ha
        rcases (e3 a).1 ha with rfl | ha
        · exact h1
        · exact hs.1 a ha
      · intro a
        simp only [List.mem_cons, e3]
        tauto
    · have h1' := h1
      unfold KeyLt at h1'
      rw [h1', h2]
      refine ⟨h :: g :: l, rfl, ?_, by simp⟩
      rw [List.pairwise_cons]
      refine ⟨?_, List.pairwise_cons.2 hs⟩
      intro a ha
      rcases List.mem_cons.1 ha with rfl | ha
      · exact h1
      · exact hc.trans hh g1 (hg a (List.mem_cons_of_mem _ ha)).1 h1 (hs.1 a ha)

/-- The invariant of the loop over the edges that begin. -/
structure BegInv (k : Fin 3) (C : HP3 → Prop) (L : PL → Prop) (R : List Nat) (N0 : Net) (heap0 new : List Nat) (s : St) (y : ℚ) (rest : List Nat) : Prop where
  core : Core k C L R N0 s y
  strong : ∀ h ∈ s.order, h ∉ s.need ∨ s.mate h ≠ none → Proper s h
  cur : ∀ h ∈ s.order, s.cur h = true → h ∈ new
  ends : s.ends = heap0 ++ new
  perm : s.ends.Perm s.order
  heap : HeapBy (N0.hi k) heap0
  restR : Rest k R N0 s rest
  ge : ∀ e ∈ rest, y ≤ N0.lo k e

structure BegC (k : Fin 3) (R : List Nat) (N0 : Net) (Ord : ℚ → List Nat) (s : St) (y : ℚ) (rest : List Nat) : Prop where
  whole : Whole k R N0 (ordRel Ord) s y rest
  old : ∀ h ∈ s.order, s.cur h = false → h ∈ s.need ∨ s.mate h = neighbour (s.order.filter fun g => !s.cur g) (s.key h).pos h
  low : ∀ h ∈ s.order, s.cur h = false → s.net.lo k (s.edge h) < y
  new : ∀ h ∈ s.order, s.cur h = true → h ∈ s.need ∧ s.net.partner (s.edge h) = none
  key : ∀ h ∈ s.order, s.key h = keyOf N0 k h
  sorted : s.order.Pairwise (KeyLt N0 k)
  ent : ∀ h ∈ s.order, h ∈ R ∧ N0.lo k h ≤ y
  cover : ∀ e ∈ R, e ∈ rest ∨ e ∈ s.order ∨ N0.hi k e ≤ y

/-- The state after the edge `e` was added at some place. -/
def addEntry (k : Fin 3) (s : St) (e : Nat) (order : List Nat) : St := { s with
  net := { s.net with partner := Function.update s.net.partner e none }
  order := order
  key := Function.update s.key e (keyOf s.net k e)
  edge := Function.update s.edge e e
  mate := Function.update s.mate e none
  cur := Function.update s.cur e true
  ends := s.ends ++ [e]
  need := e :: s.need }

theorem addEntry_net {e : Nat} {order : List Nat} (h : s.net.partner e = none) : (addEntry k s e order).net = s.net := by
  have : Function.update s.net.partner e none = s.net.partner := by
    rw [← h]; exact Function.update_eq_self e _
  unfold addEntry
  simp only [this]

theorem keyOf_same (hs : NInv k C L R N0 s.net x) {e : Nat} (he : e < N0.count) : keyOf s.net k e = keyOf N0 k e := by
  obtain ⟨f1, f2, f3⟩ := hs.frame e he
  unfold keyOf Net.isPositive
  rw [f1, f3, hs.normal]

theorem BegInv.add {heap0 new : List Nat} {e : Nat} {a b : List Nat} (hL : Lined k C L) (i : BegInv k C L R N0 heap0 new s y (e :: rest))
    (hlo : N0.lo k e = y) (hab : s.order = a ++ b) : BegInv k C L R N0 heap0 (new ++ [e]) (addEntry k s e (a ++ e :: b)) y rest := by
  obtain ⟨r1, r2, r3, r4, r5, r6⟩ := i.restR.new e List.mem_cons_self
  have hnet := addEntry_net (k := k) (order := a ++ e :: b) r4
  have hmem : ∀ g, g ∈ a ++ e :: b ↔ g = e ∨ g ∈ s.order := by
    intro g; rw [hab]; simp only [List.mem_append, List.mem_cons]; tauto
  have hperm : (a ++ e :: b).Perm (e :: s.order) := by rw [hab]; exact List.perm_middle
  have hcnt : e < s.net.count := lt_of_lt_of_le r2 i.core.net.cnt
  have hne : ∀ {g}, g ∈ s.order → g ≠ e := by rintro g hg rfl; exact r5 hg
  have hlo' := (i.restR.lo i.core (e := e) List.mem_cons_self)
  have hnd := List.nodup_cons.1 i.restR.nodup
  refine ⟨⟨?_, ?_, ?_, ?_, ?_, ?_, ?_, ?_⟩, ?_, ?_, ?_, ?_, i.heap, ⟨hnd.2, (List.pairwise_cons.1 i.restR.sorted).2, ?_⟩, ?_⟩
  · rw [hnet]; exact i.core.net
  · exact hperm.nodup_iff.2 (List.nodup_cons.2 ⟨r5, i.core.nodup⟩)
  · intro h hh
    rw [hnet]
    change h ∈ a ++ e :: b at hh
    change InE N0 R (Function.update s.edge e e h) ∧ Function.update s.edge e e h < s.net.count ∧
      s.net.lo k (Function.update s.edge e e h) ≤ y ∧ y < s.net.hi k (Function.update s.edge e e h) ∧
      (Function.update s.key e (keyOf s.net k e) h).pos = s.net.isPositive k (Function.update s.edge e e h) ∧
      s.net.hiPt k (Function.update s.edge e e h) = N0.hiPt k h
    rcases (hmem h).1 hh with rfl | hh
    · simp only [Function.update_self]
      refine ⟨.inl r1, hcnt, by rw [hlo'.1, hlo], ?_, rfl, ?_⟩
      · have := i.core.net.len h (.inl r1) hcnt
        rw [hlo'.1, hlo] at this
        exact this
      · obtain ⟨f1, f2, f3⟩ := i.core.net.frame h r2
        unfold Net.hiPt Net.isPositive
        rw [f1, f2, r3]
    · simp only [Function.update_of_ne (hne hh)]
      exact i.core.act h hh
  · intro h hh g hg
    change h ∈ a ++ e :: b at hh
    change g ∈ a ++ e :: b at hg
    change Function.update s.edge e e h = Function.update s.edge e e g → h = g
    rcases (hmem h).1 hh with rfl | hh'
    · rcases (hmem g).1 hg with rfl | hg'
      · exact fun _ => rfl
      · simp only [Function.update_self, Function.update_of_ne (hne hg')]
        exact fun hc => absurd hc.symm (r6 g hg')
    · rcases (hmem g).1 hg with rfl | hg'
      · simp only [Function.update_self, Function.update_of_ne (hne hh')]
        exact fun hc => absurd hc (r6 h hh')
      · simp only [Function.update_of_ne (hne hg'), Function.update_of_ne (hne hh')]
        exact i.core.inj h hh' g hg'
  · intro h hh p hp
    change h ∈ a ++ e :: b at hh
    change Function.update s.mate e none h = some p at hp
    change p ∈ a ++ e :: b ∧ (Function.update s.key e (keyOf s.net k e) h).pos ≠ (Function.update s.key e (keyOf s.net k e) p).pos
    rcases (hmem h).1 hh with rfl | hh
    · simp at hp
    · rw [Function.update_of_ne (hne hh)] at hp
      obtain ⟨m1, m2⟩ := i.core.mateIn h hh p hp
      rw [Function.update_of_ne (hne hh), Function.update_of_ne (hne m1)]
      exact ⟨(hmem p).2 (.inr m1), m2⟩
  · intro h hh hc
    rw [hnet]
    change h ∈ a ++ e :: b at hh
    change Function.update s.cur e true h = true at hc
    change s.net.lo k (Function.update s.edge e e h) = y
    rcases (hmem h).1 hh with rfl | hh
    · rw [Function.update_self, hlo'.1, hlo]
    · rw [Function.update_of_ne (hne hh)] at hc ⊢
      exact i.core.cur h hh hc
  · intro h hh
    change h ∈ e :: s.need at hh
    refine (hmem h).2 ?_
    rcases List.mem_cons.1 hh with rfl | hh
    · exact .inl rfl
    · exact .inr (i.core.needIn h hh)
  · rw [hnet]
    intro f g hf hg
    rcases i.core.done f g hf hg with ⟨h, hh, rfl⟩ | hd
    · exact .inl ⟨h, (hmem h).2 (.inr hh), Function.update_of_ne (hne hh) _ _⟩
    · exact .inr hd
  · intro h hh hor
    change h ∈ a ++ e :: b at hh
    change h ∉ e :: s.need ∨ Function.update s.mate e none h ≠ none at hor
    rcases (hmem h).1 hh with rfl | hh
    · simp at hor
    · rw [Function.update_of_ne (hne hh)] at hor
      have hpr := i.strong h hh (hor.imp_left fun h1 h2 => h1 (List.mem_cons_of_mem _ h2))
      refine ⟨?_, ?_⟩
      · rw [hnet]
        change s.net.partner (Function.update s.edge e e h) = (Function.update s.mate e none h).map (Function.update s.edge e e)
        rw [Function.update_of_ne (hne hh), Function.update_of_ne (hne hh), hpr.1]
        cases hm : s.mate h with
        | none => rfl
        | some p =>
          simp [Function.update_of_ne (hne (i.core.mateIn h hh p hm).1)]
      · change ∀ p, Function.update s.mate e none h = some p → Function.update s.mate e none p = some h
        intro p hp
        rw [Function.update_of_ne (hne hh)] at hp
        rw [Function.update_of_ne (hne (i.core.mateIn h hh p hp).1)]
        exact hpr.2 p hp
  · intro h hh hc
    change h ∈ a ++ e :: b at hh
    change Function.update s.cur e true h = true at hc
    rcases (hmem h).1 hh with rfl | hh
    · simp
    · rw [Function.update_of_ne (hne hh)] at hc
      exact List.mem_append_left _ (i.cur h hh hc)
  · change s.ends ++ [e] = heap0 ++ (new ++ [e])
    rw [i.ends, List.append_assoc]
  · change (s.ends ++ [e]).Perm (a ++ e :: b)
    refine List.Perm.trans ?_ hperm.symm
    exact (List.perm_append_comm).trans (i.perm.cons e)
  · intro g hg
    obtain ⟨g1, g2, g3, g4, g5, g6⟩ := i.restR.new g (List.mem_cons_of_mem _ hg)
    have hge : g ≠ e := by rintro rfl; exact hnd.1 hg
    rw [hnet]
    refine ⟨g1, g2, g3, g4, fun hc => ?_, fun h hh => ?_⟩
    · rcases (hmem g).1 hc with h | h
      · exact hge h
      · exact g5 h
    · change Function.update s.edge e e h ≠ g
      rcases (hmem h).1 hh with rfl | hh
      · rw [Function.update_self]; exact hge.symm
      · rw [Function.update_of_ne (hne hh)]; exact g6 h hh
  · intro g hg
    exact i.ge g (List.mem_cons_of_mem _ hg)

theorem BegC.add {heap0 new : List Nat} {e : Nat} {a b : List Nat} (i : BegInv k C L R N0 heap0 new s y (e :: rest))
    (c : BegC k R N0 Ord s y (e :: rest)) (hlo : N0.lo k e = y) (hab : s.order = a ++ b)
    (hs : (a ++ e :: b).Pairwise (KeyLt N0 k)) : BegC k R N0 Ord (addEntry k s e (a ++ e :: b)) y rest := by
  obtain ⟨r1, r2, r3, r4, r5, r6⟩ := i.restR.new e List.mem_cons_self
  have hnet := addEntry_net (k := k) (order := a ++ e :: b) r4
  have hmem : ∀ g, g ∈ a ++ e :: b ↔ g = e ∨ g ∈ s.order := by
    intro g; rw [hab]; simp only [List.mem_append, List.mem_cons]; tauto
  have hne : ∀ {g}, g ∈ s.order → g ≠ e := by rintro g hg rfl; exact r5 hg
  have hfil : (a ++ e :: b).filter (fun g => !Function.update s.cur e true g) = s.order.filter fun g => !s.cur g := by
    have e1 : ∀ l : List Nat, (∀ g ∈ l, g ∈ s.order) → l.filter (fun g => !Function.update s.cur e true g) = l.filter fun g => !s.cur g := by
      intro l hl
      refine List.filter_congr fun g hg => ?_
      rw [Function.update_of_ne (hne (hl g hg))]
    rw [List.filter_append, List.filter_cons_of_neg (by simp), e1 a (fun g hg => by rw [hab]; exact List.mem_append_left _ hg),
      e1 b (fun g hg => by rw [hab]; exact List.mem_append_right _ hg), ← List.filter_append, ← hab]
  refine ⟨⟨?_, ?_, ?_, ?_⟩, ?_, ?_, ?_, ?_, hs, ?_, ?_⟩
  · rw [hnet]
    intro g hg
    exact c.whole.restIn g (List.mem_cons_of_mem _ hg)
  · rw [hnet]; exact c.whole.full
  · rw [hnet]
    intro f hf hlt hl
    rcases c.whole.start f hf hlt hl with h | ⟨h, hh, rfl⟩
    · rcases List.mem_cons.1 h with rfl | h
      · exact .inr ⟨f, (hmem f).2 (.inl rfl), Function.update_self ..⟩
      · exact .inl h
    · exact .inr ⟨h, (hmem h).2 (.inr hh), Function.update_of_ne (hne hh) _ _⟩
  · obtain ⟨org, o1, o2, o3, o4⟩ := c.whole.org
    rw [hnet]
    refine ⟨org, ?_, fun g hg => o2 g (List.mem_cons_of_mem _ hg), o3, o4⟩
    intro h hh
    change org (Function.update s.edge e e h) = h
    rcases (hmem h).1 hh with rfl | hh
    · rw [Function.update_self]; exact o2 h List.mem_cons_self
    · rw [Function.update_of_ne (hne hh)]; exact o1 h hh
  · intro h hh hcu
    change Function.update s.cur e true h = false at hcu
    change h ∈ e :: s.need ∨ Function.update s.mate e none h = neighbour ((a ++ e :: b).filter (fun g => !Function.update s.cur e true g))
      (Function.update s.key e (keyOf s.net k e) h).pos h
    rcases (hmem h).1 hh with rfl | hh
    · simp at hcu
    · rw [Function.update_of_ne (hne hh)] at hcu
      rw [hfil, Function.update_of_ne (hne hh), Function.update_of_ne (hne hh)]
      exact (c.old h hh hcu).imp_left fun h => List.mem_cons_of_mem _ h
  · intro h hh hcu
    rw [hnet]
    change Function.update s.cur e true h = false at hcu
    change s.net.lo k (Function.update s.edge e e h) < y
    rcases (hmem h).1 hh with rfl | hh
    · simp at hcu
    · rw [Function.update_of_ne (hne hh)] at hcu ⊢
      exact c.low h hh hcu
  · intro h hh hcu
    rw [hnet]
    change Function.update s.cur e true h = true at hcu
    change h ∈ e :: s.need ∧ s.net.partner (Function.update s.edge e e h) = none
    rcases (hmem h).1 hh with rfl | hh
    · rw [Function.update_self]; exact ⟨List.mem_cons_self, r4⟩
    · rw [Function.update_of_ne (hne hh)] at hcu ⊢
      exact (c.new h hh hcu).imp_left fun h => List.mem_cons_of_mem _ h
  · intro h hh
    change Function.update s.key e (keyOf s.net k e) h = _
    rcases (hmem h).1 hh with rfl | hh
    · rw [Function.update_self]; exact keyOf_same i.core.net r2
    · rw [Function.update_of_ne (hne hh)]; exact c.key h hh
  · intro h hh
    rcases (hmem h).1 hh with rfl | hh
    · exact ⟨r1, hlo.le⟩
    · exact c.ent h hh
  · intro f hf
    rcases c.cover f hf with h | h | h
    · rcases List.mem_cons.1 h with rfl | h
      · exact .inr (.inl ((hmem f).2 (.inl rfl)))
      · exact .inl h
    · exact .inr (.inl ((hmem f).2 (.inr h)))
    · exact .inr (.inr h)

theorem BegInv.skip {heap0 new : List Nat} {e : Nat} (i : BegInv k C L R N0 heap0 new s y (e :: rest)) :
    BegInv k C L R N0 heap0 new { s with errors := s.errors + 1 } y rest := by
  obtain ⟨c, st, cu, en, pe, he, re, ge⟩ := i
  exact ⟨⟨c.net, c.nodup, c.act, c.inj, c.mateIn, c.cur, c.needIn, c.done⟩, st, cu, en, pe, he,
    ⟨(List.nodup_cons.1 re.nodup).2, (List.pairwise_cons.1 re.sorted).2, fun f hf => re.new f (List.mem_cons_of_mem _ hf)⟩,
    fun f hf => ge f (List.mem_cons_of_mem _ hf)⟩

theorem BegInv.begin {heap0 new : List Nat} {e : Nat} (hL : Lined k C L) (hC : C loc) (hy : loc.pt k = y)
    (i : BegInv k C L R N0 heap0 new s y (e :: rest)) : ∃ b, s.net.beginLoc k e = some b ∧ (b.eq loc = true ↔ N0.lo k e = y) := by
  obtain ⟨r1, r2, r3, r4, r5, r6⟩ := i.restR.new e List.mem_cons_self
  have hcnt : e < s.net.count := lt_of_lt_of_le r2 i.core.net.cnt
  refine ⟨_, i.core.net.ok.beginLoc hcnt k, ?_⟩
  obtain ⟨o1, o2, o3⟩ := i.core.net.on e (.inl r1) hcnt
  rw [hL.eq_iff o1 (by unfold Net.loPt; split <;> assumption) hC, hy]
  change s.net.lo k e = y ↔ _
  rw [(i.restR.lo i.core List.mem_cons_self).1]

theorem beginLoop_spec (hL : Lined k C L) (hC : C loc) (hy : loc.pt k = y) {heap0 : List Nat} : ∀ (rest : List Nat) (s : St) (new : List Nat),
    BegInv k C L R N0 heap0 new s y rest →
    (∀ s' rest', beginLoop k loc rest s = some (s', rest') → ∃ new' used, rest = used ++ rest' ∧ BegInv k C L R N0 heap0 new' s' y rest' ∧
      (∀ e ∈ rest', y < N0.lo k e) ∧ (∀ e ∈ used, N0.lo k e = y) ∧ ∀ h ∈ s'.order, h ∈ s.order ∨ h ∈ used) ∧
    (Closed k R N0 Ord → BegC k R N0 Ord s y rest → ∃ s' rest', beginLoop k loc rest s = some (s', rest') ∧
      BegC k R N0 Ord s' y rest' ∧ s'.errors = s.errors) := by
  intro rest
  induction rest with
  | nil =>
    intro s new i
    refine ⟨?_, fun _ c => ⟨s, [], rfl, c, rfl⟩⟩
    intro s' rest' h
    unfold beginLoop at h
    cases h
    exact ⟨new, [], rfl, i, by simp, by simp, fun h hh => .inl hh⟩
  | cons e r ih =>
    intro s new i
    obtain ⟨b, b1, b2⟩ := i.begin hL hC hy
    obtain ⟨r1, r2, r3, r4, r5, r6⟩ := i.restR.new e List.mem_cons_self
    unfold beginLoop
    rw [b1]
    simp only
    by_cases hb : b.eq loc = true
    · rw [if_pos hb]
      have hlo := b2.1 hb
      constructor
      · intro s' rest' h
        cases he : emplace s.key (keyOf s.net k e) e s.order with
        | none => simp only [he] at h; cases h
        | some p =>
          obtain ⟨order, ok⟩ := p
          simp only [he] at h
          cases ok with
          | false =>
            simp only at h
            obtain ⟨new', used, u1, u2, u3, u4, u5⟩ := (ih _ new i.skip).1 s' rest' h
            refine ⟨new', e :: used, by rw [u1]; rfl, u2, u3, ?_, ?_⟩
            · intro f hf
              rcases List.mem_cons.1 hf with rfl | hf
              · exact hlo
              · exact u4 f hf
            · intro g hg
              exact (u5 g hg).imp_right fun h => List.mem_cons_of_mem _ h
          | true =>
            simp only at h
            obtain ⟨a, b, h1, h2⟩ := emplace_split he
            subst h2
            obtain ⟨new', used, u1, u2, u3, u4, u5⟩ := (ih _ _ (i.add hL hlo h1)).1 s' rest' h
            refine ⟨new', e :: used, by rw [u1]; rfl, u2, u3, ?_, ?_⟩
            · intro f hf
              rcases List.mem_cons.1 hf with rfl | hf
              · exact hlo
              · exact u4 f hf
            · intro g hg
              rcases u5 g hg with h | h
              · change g ∈ a ++ e :: b at h
                rw [h1]
                simp only [List.mem_append, List.mem_cons] at h ⊢
                tauto
              · exact .inr (List.mem_cons_of_mem _ h)
      · intro hc c
        have hhi : y < N0.hi k e := by
          have hcnt : e < s.net.count := lt_of_lt_of_le r2 i.core.net.cnt
          have := i.core.net.len e (.inl r1) hcnt
          rw [(i.restR.lo i.core List.mem_cons_self).1, (i.restR.lo i.core List.mem_cons_self).2, hlo] at this
          exact this
        obtain ⟨order, e1, e2, e3⟩ := emplace_closed hc (t := y) (key := s.key) (h := e) ((hc.mem y e).2 ⟨r1, hlo.le, hhi⟩) (l := s.order) (by
          intro g hg
          refine ⟨(hc.mem y g).2 ⟨(c.ent g hg).1, (c.ent g hg).2, ?_⟩, fun h => r5 (h ▸ hg), c.key g hg⟩
          rw [← i.core.hi_eq hg]
          exact (i.core.act g hg).2.2.2.1) c.sorted
        rw [← keyOf_same i.core.net r2] at e1
        rw [e1]
        simp only
        obtain ⟨a, b, h1, h2⟩ := emplace_split e1
        subst h2
        exact (ih _ _ (i.add hL hlo h1)).2 hc (c.add i hlo h1 e2)
    · rw [if_neg hb]
      constructor
      · intro s' rest' h
        cases h
        refine ⟨new, [], rfl, i, ?_, by simp, fun h hh => .inl hh⟩
        have h1 : y < N0.lo k e := lt_of_le_of_ne (i.ge e List.mem_cons_self) fun hc => hb (b2.2 hc.symm)
        intro f hf
        rcases List.mem_cons.1 hf with rfl | hf
        · exact h1
        · exact h1.trans_le ((List.pairwise_cons.1 i.restR.sorted).1 f hf)
      · intro _ c
        exact ⟨s, e :: r, rfl, c, rfl⟩

end

end Walnut.Conn
