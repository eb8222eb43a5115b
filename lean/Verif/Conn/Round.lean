/- The loop over the locations. -/
import Verif.Conn.Begin

namespace Walnut.Conn
open Walnut.Geom Walnut.Props

section
variable {k : Fin 3} {C : HP3 → Prop} {L : PL → Prop} {R : List Nat} {N0 : Net} {s s' : St} {x y : ℚ} {loc : HP3}
  {Ord : ℚ → List Nat} {rest : List Nat} {o : HeapFns}

theorem pushLoop_spec (hL : Lined k C L) (ho : HeapOk o) (hs : Core k C L R N0 s y) : ∀ (t heap : List Nat) (s1 : St),
    s1.net = s.net → s1.edge = s.edge → (∀ a ∈ heap ++ t, a ∈ s.order) → HeapBy (N0.hi k) heap →
    ∃ ends cur, pushLoop o k heap t s1 = { s1 with ends := ends, cur := cur } ∧ ends.Perm (heap ++ t) ∧ HeapBy (N0.hi k) ends ∧
      (∀ g ∈ t, cur g = false) ∧ ∀ g, g ∉ t → cur g = s1.cur g := by
  intro t
  induction t with
  | nil =>
    intro heap s1 _ _ _ hh
    exact ⟨heap, s1.cur, rfl, by simp, hh, by simp, fun _ _ => rfl⟩
  | cons h t ih =>
    intro heap s1 h1 h2 h3 h4
    unfold pushLoop
    simp only
    have hless : Conn.endLess k { s1 with cur := Function.update s1.cur h false } = Conn.endLess k s := by
      unfold Conn.endLess
      simp only [h1, h2]
    rw [hless]
    have sub : ∀ a ∈ heap ++ [h], a ∈ s.order := fun a ha => h3 a (by
      simp only [List.mem_append, List.mem_cons, List.not_mem_nil, or_false] at ha ⊢
      tauto)
    obtain ⟨p1, p2⟩ := ho.push (Conn.endLess k s) heap h (hs.byKey hL sub) ((hs.heapBy hL (fun a ha => sub a (List.mem_append_left _ ha))).2 h4)
    have sub' : ∀ a ∈ o.push (Conn.endLess k s) (heap ++ [h]), a ∈ s.order := fun a ha => sub a (p1.mem_iff.1 ha)
    obtain ⟨ends, cur, e1, e2, e3, e4, e5⟩ := ih (o.push (Conn.endLess k s) (heap ++ [h])) { s1 with cur := Function.update s1.cur h false } h1 h2
      (by
        intro a ha
        rcases List.mem_append.1 ha with ha | ha
        · exact sub' a ha
        · exact h3 a (List.mem_append_right _ (List.mem_cons_of_mem _ ha)))
      ((hs.heapBy hL sub').1 p2)
    refine ⟨ends, cur, e1, ?_, e3, ?_, ?_⟩
    · refine e2.trans ((p1.append_right t).trans ?_)
      rw [List.append_assoc]
      rfl
    · intro g hg
      by_cases hgt : g ∈ t
      · exact e4 g hgt
      · have hgh : g = h := (List.mem_cons.1 hg).resolve_right hgt
        rw [e5 g hgt, hgh]
        exact Function.update_self ..
    · intro g hg
      have hgh : g ≠ h := fun hc => hg (by rw [hc]; exact List.mem_cons_self)
      rw [e5 g fun hc => hg (List.mem_cons_of_mem _ hc)]
      exact Function.update_of_ne hgh _ _

theorem BegInv.mid {heap0 new : List Nat} (i : BegInv k C L R N0 heap0 new s y rest) : Mid k C L R N0 s y [] := by
  refine ⟨i.core, fun h hh hn _ => i.strong h hh (.inl hn), fun h hh p _ hm => i.strong h hh (.inr ?_)⟩
  rw [hm]; simp

theorem BegC.order {heap0 new : List Nat} (hc : Closed k R N0 Ord) (i : BegInv k C L R N0 heap0 new s y rest) (c : BegC k R N0 Ord s y rest)
    (gt : ∀ e ∈ rest, y < N0.lo k e) : s.order = Ord y := by
  refine hc.eq i.core.nodup c.sorted ?_
  intro e
  constructor
  · intro he
    refine ⟨(c.ent e he).1, (c.ent e he).2, ?_⟩
    rw [← i.core.hi_eq he]
    exact (i.core.act e he).2.2.2.1
  · rintro ⟨e1, e2, e3⟩
    rcases c.cover e e1 with h | h | h
    · exact absurd (gt e h) (not_lt.2 e2)
    · exact h
    · exact absurd e3 (not_lt.2 h)

theorem BegC.alt {heap0 new : List Nat} (hc : Closed k R N0 Ord) (i : BegInv k C L R N0 heap0 new s y rest) (c : BegC k R N0 Ord s y rest)
    (gt : ∀ e ∈ rest, y < N0.lo k e) : Alt k s y [] := by
  have hord := c.order hc i gt
  have hpos : ∀ h ∈ s.order, (s.key h).pos = N0.isPositive k h := by
    intro h hh
    rw [c.key h hh]; rfl
  refine ⟨?_, ?_, ?_⟩
  · intro h hh p hp
    obtain ⟨_, hpm⟩ := neighbour_mem hp
    rw [hpos h hh, hpos p hpm]
    unfold nb neighbour at hp
    split at hp
    · have := (succIn_reverse_iff i.core.nodup).2 hp
      rw [hord] at this
      exact (hc.alt y p h this).symm
    · rw [hord] at hp
      exact hc.alt y h p hp
  · intro h hh p hp
    obtain ⟨_, hpm⟩ := neighbour_mem hp
    cases h1 : s.cur h with
    | true => exact .inl (.inl (c.new h hh h1).1)
    | false =>
      cases h2 : s.cur p with
      | true => exact .inr (.inl (.inl (c.new p hpm h2).1))
      | false =>
        rcases c.old h hh h1 with h3 | h3
        · exact .inl (.inl h3)
        · refine .inr (.inr ?_)
          rw [h3]
          exact neighbour_filter hp (by simp [h1]) (by simp [h2])
  · intro h hh p _ _
    cases h1 : s.cur h with
    | true => exact ⟨.inl rfl, fun _ => (c.new h hh h1).2⟩
    | false => exact ⟨.inr (c.low h hh h1), fun hc => by cases hc⟩

/-- Seeking partners at a location. -/
theorem settle {heap0 new : List Nat} (hL : Lined k C L) (hC : C loc) (hy : loc.pt k = y) (i : BegInv k C L R N0 heap0 new s y rest)
    (gt : ∀ e ∈ rest, y < N0.lo k e) :
    (∀ s', processNeed loc (needFuel s) s = some s' → Core k C L R N0 s' y ∧ Frame s s' ∧ (∀ h ∈ s'.order, Proper s' h) ∧ s'.need = [] ∧
      Rest k R N0 s' rest ∧ ∀ Ord, Whole k R N0 Ord s y rest → Whole k R N0 Ord s' y rest) ∧
    (Closed k R N0 Ord → BegC k R N0 Ord s y rest →
      ∃ s', processNeed loc (needFuel s) s = some s' ∧ s'.errors = s.errors ∧ ∀ h ∈ s'.order, s'.mate h = nb s' h) := by
  constructor
  · intro s' h
    obtain ⟨p1, p2, p3, p4, p5⟩ := processNeed_safe hL hC hy _ i.mid h
    refine ⟨p1, p2, p3, p4, ⟨i.restR.nodup, i.restR.sorted, ?_⟩, fun Ord w => p5 Ord rest w⟩
    intro e he
    obtain ⟨r1, r2, r3, r4, r5, r6⟩ := i.restR.new e he
    have hcnt : e < s.net.count := lt_of_lt_of_le r2 i.core.net.cnt
    obtain ⟨⟨f1, f2, f3, f4⟩, f5⟩ := p2.rest e hcnt r6
    refine ⟨r1, r2, f3.trans r3, f5 r4, by rw [p2.order]; exact r5, ?_⟩
    intro h hh
    rw [p2.order] at hh
    rcases p2.edge h hh with h1 | h1
    · rw [h1]; exact r6 h hh
    · omega
  · intro hc c
    refine processNeed_alt hL hC hy _ i.mid (c.alt hc i gt) ?_
    have := badCount_le s
    unfold needFuel
    omega

theorem Pre.begInv (p : Pre k C L R N0 s y rest) : BegInv k C L R N0 s.ends [] s y rest :=
  ⟨p.core, p.strong, fun h hh hc => (Bool.false_ne_true ((p.cur h hh).symm.trans hc)).elim, by simp, p.perm, p.heap, p.restR, p.ge⟩

theorem CPre.begC (p : Pre k C L R N0 s y rest) (c : CPre k R N0 Ord s y rest) : BegC k R N0 Ord s y rest := by
  refine ⟨c.whole, ?_, fun h hh _ => c.low h hh, fun h hh hc => (Bool.false_ne_true ((p.cur h hh).symm.trans hc)).elim, c.key, c.sorted, c.ent, c.cover⟩
  intro h hh _
  have : s.order.filter (fun g => !s.cur g) = s.order := List.filter_eq_self.2 fun g hg => by rw [p.cur g hg]; rfl
  rw [this]
  exact c.prog h hh

theorem roundAt_spec (hL : Lined k C L) (ho : HeapOk o) (hC : C loc) (hy : loc.pt k = y) (p : Pre k C L R N0 s y rest) :
    (∀ s' rest', roundAt o k loc s rest = some (s', rest') → Bnd k C L R N0 s' y rest' ∧
      ∃ used, rest = used ++ rest' ∧ (∀ e ∈ used, N0.lo k e = y) ∧ s'.order.length ≤ s.order.length + used.length) ∧
    (Closed k R N0 Ord → CPre k R N0 Ord s y rest → ∃ s' rest', roundAt o k loc s rest = some (s', rest') ∧ s'.errors = s.errors ∧
      CBnd k R N0 Ord s' y rest') := by
  have hlen : ¬ s.ends.length ≠ s.order.length := not_not.2 p.perm.length_eq
  obtain ⟨b1, b2⟩ := beginLoop_spec (Ord := Ord) hL hC hy rest s [] p.begInv
  have main : ∀ s1 rest', beginLoop k loc rest s = some (s1, rest') → ∀ s2, processNeed loc (needFuel s1) s1 = some s2 →
      Bnd k C L R N0 (pushLoop o k (s2.ends.take s.ends.length) (s2.ends.drop s.ends.length) s2) y rest' ∧
      (∃ used, rest = used ++ rest' ∧ (∀ e ∈ used, N0.lo k e = y) ∧ s2.order.length ≤ s.order.length + used.length) ∧
      (∃ ends cur, pushLoop o k (s2.ends.take s.ends.length) (s2.ends.drop s.ends.length) s2 = { s2 with ends := ends, cur := cur }) ∧
      s2.order = s1.order ∧ s2.key = s1.key ∧ ∀ Ord, Whole k R N0 Ord s1 y rest' → Whole k R N0 Ord s2 y rest' := by
    intro s1 rest' h1 s2 h2
    obtain ⟨new, used, u1, u2, u3, u4, u5⟩ := b1 s1 rest' h1
    obtain ⟨c1, c2, c3, c4, c5, c6⟩ := (settle (Ord := Ord) hL hC hy u2 u3).1 s2 h2
    have hends : s2.ends = s.ends ++ new := c2.ends.trans u2.ends
    have e1 : s2.ends.take s.ends.length = s.ends := by rw [hends]; simp
    have e2 : s2.ends.drop s.ends.length = new := by rw [hends]; simp
    rw [e1, e2]
    have hperm : (s.ends ++ new).Perm s2.order := by rw [c2.order, ← u2.ends]; exact u2.perm
    obtain ⟨ends, cur, q1, q2, q3, q4, q5⟩ := pushLoop_spec hL ho c1 new s.ends s2 rfl rfl (fun a ha => hperm.mem_iff.1 ha) p.heap
    rw [q1]
    refine ⟨⟨⟨c1.net, c1.nodup, c1.act, c1.inj, c1.mateIn, ?_, c1.needIn, c1.done⟩, c3, c4, ?_, q2.trans hperm, q3,
      ⟨c5.nodup, c5.sorted, c5.new⟩, u3⟩, ⟨used, u1, u4, ?_⟩, ⟨ends, cur, rfl⟩, c2.order, c2.key, c6⟩
    · intro h hh hcu
      change cur h = true at hcu
      by_cases hn : h ∈ new
      · rw [q4 h hn] at hcu; cases hcu
      · rw [q5 h hn] at hcu
        exact c1.cur h hh hcu
    · intro h hh
      change cur h = false
      by_cases hn : h ∈ new
      · exact q4 h hn
      · rw [q5 h hn, c2.cur]
        cases hcu : s1.cur h with
        | false => rfl
        | true => exact absurd (u2.cur h (by rw [← c2.order]; exact hh) hcu) hn
    · rw [c2.order, ← List.length_append]
      refine (List.Nodup.subperm u2.core.nodup ?_).length_le
      intro h hh
      exact List.mem_append.2 (u5 h hh)
  constructor
  · intro s' rest' h
    unfold roundAt at h
    rw [if_neg hlen] at h
    simp only at h
    cases h1 : beginLoop k loc rest s with
    | none => simp only [h1] at h; cases h
    | some r =>
      obtain ⟨s1, rest1⟩ := r
      simp only [h1] at h
      cases h2 : processNeed loc (needFuel s1) s1 with
      | none => simp only [h2] at h; cases h
      | some s2 =>
        simp only [h2] at h
        obtain ⟨m1, ⟨used, m2, m3, m4⟩, ⟨ends, cur, m5⟩, m6⟩ := main s1 rest1 h1 s2 h2
        simp only [Option.some.injEq, Prod.mk.injEq] at h
        obtain ⟨e1, e2⟩ := h
        subst e2
        refine ⟨e1 ▸ m1, used, m2, m3, ?_⟩
        rw [← e1, m5]
        exact m4
  · intro hc c
    obtain ⟨s1, rest1, h1, h2, h3⟩ := b2 hc (c.begC p)
    obtain ⟨new, used, u1, u2, u3, u4, u5⟩ := b1 s1 rest1 h1
    obtain ⟨s2, g1, g2, g3⟩ := (settle (Ord := Ord) hL hC hy u2 u3).2 hc h2
    obtain ⟨m1, _, ⟨ends, cur, m5⟩, m6, m7, m8⟩ := main s1 rest1 h1 s2 g1
    unfold roundAt
    rw [if_neg hlen]
    simp only
    rw [h1]
    simp only
    rw [g1]
    refine ⟨_, _, rfl, ?_, ?_⟩
    · rw [m5]; exact g2.trans h3
    · rw [m5]
      refine ⟨(m8 (ordRel Ord) h2.whole).congr rfl rfl rfl, g3, ?_, ?_, ?_, ?_⟩
      · intro h hh
        change h ∈ s2.order at hh
        change s2.key h = _
        rw [m6] at hh
        rw [m7]
        exact h2.key h hh
      · change s2.order.Pairwise _
        rw [m6]; exact h2.sorted
      · intro h hh
        change h ∈ s2.order at hh
        rw [m6] at hh
        exact h2.ent h hh
      · change ∀ e ∈ R, e ∈ rest1 ∨ e ∈ s2.order ∨ _
        rw [m6]
        exact h2.cover

theorem nextLocation_spec (hL : Lined k C L) (ho : HeapOk o) {e : Nat} (b : Bnd k C L R N0 s x (e :: rest)) :
    ∃ loc s', nextLocation o k s e = some (loc, s') ∧ C loc ∧ x < loc.pt k ∧ Pre k C L R N0 s' (loc.pt k) (e :: rest) ∧ s'.errors = s.errors ∧
      (N0.lo k e = loc.pt k ∧ s'.order = s.order ∨ s'.order.length < s.order.length) ∧
      (Closed k R N0 Ord → CBnd k R N0 Ord s x (e :: rest) → CPre k R N0 Ord s' (loc.pt k) (e :: rest)) ∧
      ((∀ h ∈ s.order, s.mate h ≠ none) → Whole k R N0 anyRel s x (e :: rest) →
        (∀ g ∈ s'.order, g ∈ s'.need ∨ s'.mate g ≠ none) ∧ Whole k R N0 anyRel s' (loc.pt k) (e :: rest)) := by
  obtain ⟨r1, r2, r3, r4, r5, r6⟩ := b.restR.new e List.mem_cons_self
  have hcnt : e < s.net.count := lt_of_lt_of_le r2 b.core.net.cnt
  obtain ⟨o1, o2, o3⟩ := b.core.net.on e (.inl r1) hcnt
  have hCb : C (s.net.loPt k e) := by unfold Net.loPt; split <;> assumption
  have hlo : (s.net.loPt k e).pt k = N0.lo k e := (b.restR.lo b.core List.mem_cons_self).1
  have hrest : ∀ f ∈ e :: rest, N0.lo k e ≤ N0.lo k f := by
    intro f hf
    rcases List.mem_cons.1 hf with rfl | hf
    · exact le_refl _
    · exact (List.pairwise_cons.1 b.restR.sorted).1 f hf
  have hgt := b.gt e List.mem_cons_self
  unfold nextLocation
  rw [b.core.net.ok.beginLoc hcnt k]
  simp only
  have begin_ : (∀ h ∈ s.order, N0.lo k e < N0.hi k h) → C (s.net.loPt k e) ∧ x < (s.net.loPt k e).pt k ∧
      Pre k C L R N0 s ((s.net.loPt k e).pt k) (e :: rest) ∧ s.errors = s.errors ∧
      (N0.lo k e = (s.net.loPt k e).pt k ∧ s.order = s.order ∨ s.order.length < s.order.length) ∧
      (Closed k R N0 Ord → CBnd k R N0 Ord s x (e :: rest) → CPre k R N0 Ord s ((s.net.loPt k e).pt k) (e :: rest)) ∧
      ((∀ h ∈ s.order, s.mate h ≠ none) → Whole k R N0 anyRel s x (e :: rest) →
        (∀ g ∈ s.order, g ∈ s.need ∨ s.mate g ≠ none) ∧ Whole k R N0 anyRel s ((s.net.loPt k e).pt k) (e :: rest)) := by
    intro hh
    rw [hlo]
    exact ⟨hCb, hgt, b.toPre hgt.le hh hrest, rfl, .inl ⟨rfl, rfl⟩, fun hc c => c.toPre b hc hgt (fun h h' => (hh h h').le) hrest,
      fun hm w => ⟨fun g hg => .inr (hm g hg), w.lift b hgt hm (fun _ _ _ _ _ _ _ => trivial) hrest rfl rfl fun _ h => h⟩⟩
  cases hends : s.ends with
  | nil =>
    have hord : s.order = [] := by
      have := b.perm
      rw [hends] at this
      exact List.nil_perm.1 this
    exact ⟨_, _, rfl, begin_ (by simp [hord])⟩
  | cons h t =>
    simp only
    have hh : h ∈ s.order := b.perm.mem_iff.1 (by rw [hends]; exact List.mem_cons_self)
    have htop : ∀ g ∈ s.order, N0.hi k h ≤ N0.hi k g := by
      intro g hg
      have := b.heap
      rw [hends] at this
      exact this.top g (by rw [← hends]; exact b.perm.mem_iff.2 hg)
    rw [b.core.endLoc hh]
    simp only
    have hless := isLocationLess_iff (k := k) (hL.fin _ hCb) (hL.fin _ (b.core.hiC hh))
    by_cases hc : isLocationLess k (s.net.loPt k e) (N0.hiPt k h) = true
    · rw [if_pos hc]
      have := hless.1 hc
      rw [hlo] at this
      exact ⟨_, _, rfl, begin_ fun g hg => this.trans_le (htop g hg)⟩
    · rw [if_neg hc]
      have hle : N0.hi k h ≤ N0.lo k e := by
        have := not_lt.1 (fun h' => hc (hless.2 h'))
        rw [hlo] at this
        exact this
      have hxy : x < N0.hi k h := by
        rw [← b.core.hi_eq hh]
        exact (b.core.act h hh).2.2.2.1
      obtain ⟨s', p1, p2, p3, p4, p5, p7, p6⟩ := processEnds_spec (Ord := Ord) hL ho b (b.core.hiC hh) rfl hxy htop
        (fun f hf => hle.trans (hrest f hf))
      rw [p1]
      refine ⟨_, _, rfl, b.core.hiC hh, hxy, p2, p3, .inr ?_, p6, fun hm w => ⟨(p7 hm).1, (p7 hm).2 _ (fun _ _ _ _ _ _ _ => trivial) w⟩⟩
      have : (h :: s'.order).Subperm s.order := by
        refine List.Nodup.subperm (List.nodup_cons.2 ⟨fun hc => lt_irrefl _ (p4 h hc), p2.core.nodup⟩) ?_
        intro g hg
        rcases List.mem_cons.1 hg with rfl | hg
        · exact hh
        · exact ((p5 g).1 hg).1
      have := this.length_le
      rw [List.length_cons] at this
      omega

/-- The end of the edges after no more begin. -/
theorem tail_spec (hL : Lined k C L) (ho : HeapOk o) (b : Bnd k C L R N0 s x []) {h : Nat} {t : List Nat} (hends : s.ends = h :: t) :
    ∃ s1, s.net.endLoc k (s.edge h) = some (N0.hiPt k h) ∧ processEnds o k (N0.hiPt k h) s = some s1 ∧ x < N0.hi k h ∧
      s1.order.length < s.order.length ∧ s1.errors = s.errors ∧
      (∀ s2, processNeed (N0.hiPt k h) (needFuel s1) s1 = some s2 → Bnd k C L R N0 s2 (N0.hi k h) [] ∧ s2.order = s1.order) ∧
      (Closed k R N0 Ord → CBnd k R N0 Ord s x [] → ∃ s2, processNeed (N0.hiPt k h) (needFuel s1) s1 = some s2 ∧ s2.errors = s1.errors ∧
        CBnd k R N0 Ord s2 (N0.hi k h) []) ∧
      (∀ s2, processNeed (N0.hiPt k h) (needFuel s1) s1 = some s2 → s1.errors ≤ s2.errors ∧ (s2.errors = s1.errors →
        (∀ h ∈ s.order, s.mate h ≠ none) → Whole k R N0 anyRel s x [] →
        (∀ g ∈ s2.order, s2.mate g ≠ none) ∧ Whole k R N0 anyRel s2 (N0.hi k h) [])) := by
  have hh : h ∈ s.order := b.perm.mem_iff.1 (by rw [hends]; exact List.mem_cons_self)
  have htop : ∀ g ∈ s.order, N0.hi k h ≤ N0.hi k g := by
    intro g hg
    have := b.heap
    rw [hends] at this
    exact this.top g (by rw [← hends]; exact b.perm.mem_iff.2 hg)
  have hxy : x < N0.hi k h := by
    rw [← b.core.hi_eq hh]
    exact (b.core.act h hh).2.2.2.1
  obtain ⟨s1, p1, p2, p3, p4, p5, p7, p6⟩ := processEnds_spec (Ord := Ord) hL ho b (b.core.hiC hh) rfl hxy htop (by simp)
  obtain ⟨q1, q2⟩ := settle (Ord := Ord) hL (b.core.hiC hh) rfl p2.begInv (by simp)
  refine ⟨s1, b.core.endLoc hh, p1, hxy, ?_, p3, ?_, ?_, ?_⟩
  · have : (h :: s1.order).Subperm s.order := by
      refine List.Nodup.subperm (List.nodup_cons.2 ⟨fun hc => lt_irrefl _ (p4 h hc), p2.core.nodup⟩) ?_
      intro g hg
      rcases List.mem_cons.1 hg with rfl | hg
      · exact hh
      · exact ((p5 g).1 hg).1
    have := this.length_le
    rw [List.length_cons] at this
    omega
  · intro s2 h2
    obtain ⟨c1, c2, c3, c4, c5, c6⟩ := q1 s2 h2
    refine ⟨⟨c1, c3, c4, ?_, ?_, ?_, c5, by simp⟩, c2.order⟩
    · intro g hg
      rw [c2.order] at hg
      rw [c2.cur]
      exact p2.cur g hg
    · rw [c2.ends, c2.order]; exact p2.perm
    · rw [c2.ends]; exact p2.heap
  · intro hc c
    have cp := p6 hc c
    obtain ⟨s2, g1, g2, g3⟩ := q2 hc (cp.begC p2)
    obtain ⟨c1, c2, c3, c4, c5, c6⟩ := q1 s2 g1
    refine ⟨s2, g1, g2, ⟨c6 _ cp.whole, g3, ?_, ?_, ?_, ?_⟩⟩
    · intro h hh
      rw [c2.order] at hh
      rw [c2.key]
      exact cp.key h hh
    · rw [c2.order]; exact cp.sorted
    · rw [c2.order]; exact cp.ent
    · rw [c2.order]; exact cp.cover
  · intro s2 h2
    obtain ⟨c1, c2, c3, c4, c5, c6⟩ := q1 s2 h2
    obtain ⟨w1, w2⟩ := processNeed_err hL (b.core.hiC hh) rfl _ p2.begInv.mid h2
    exact ⟨w1, fun he hm w => ⟨w2 he (p7 hm).1, c6 _ ((p7 hm).2 _ (fun _ _ _ _ _ _ _ => trivial) w)⟩⟩

theorem connectLoop_safe (hL : Lined k C L) (ho : HeapOk o) : ∀ (n : Nat) (prev : Option HP3) (s s' : St) (rest : List Nat) (x : ℚ),
    Bnd k C L R N0 s x rest → connectLoop o k n prev s rest = some s' → ∃ x', Bnd k C L R N0 s' x' [] ∧ s'.order = [] := by
  intro n
  induction n with
  | zero => intro prev s s' rest x _ h; unfold connectLoop at h; cases h
  | succ n ih =>
    intro prev s s' rest x b h
    cases rest with
    | cons e range =>
      obtain ⟨loc, s1, n1, n2, n3, n4, n5, n6, n7, n8⟩ := nextLocation_spec (Ord := fun _ => []) hL ho b
      unfold connectLoop at h
      simp only [n1] at h
      split at h
      · cases h
      · cases h1 : roundAt o k loc s1 (e :: range) with
        | none => simp only [h1] at h; cases h
        | some r =>
          obtain ⟨s2, rest2⟩ := r
          simp only [h1] at h
          exact ih _ s2 s' rest2 _ ((roundAt_spec (Ord := fun _ => []) hL ho n2 rfl n4).1 s2 rest2 h1).1 h
    | nil =>
      unfold connectLoop at h
      cases hends : s.ends with
      | nil =>
        simp only [hends] at h
        split at h
        · cases h
          rename_i h1
          exact ⟨x, b, h1.1⟩
        · cases h
      | cons g t =>
        simp only [hends] at h
        obtain ⟨s1, t1, t2, t3, t4, t5, t6, t7, t8⟩ := tail_spec (Ord := fun _ => []) hL ho b hends
        simp only [t1, t2] at h
        cases h1 : processNeed (N0.hiPt k g) (needFuel s1) s1 with
        | none => simp only [h1] at h; cases h
        | some s2 =>
          simp only [h1] at h
          exact ih _ s2 s' [] _ (t6 s2 h1).1 h

theorem connectLoop_closed (hL : Lined k C L) (ho : HeapOk o) (hc : Closed k R N0 Ord) : ∀ (n : Nat) (prev : Option HP3) (s : St)
    (rest : List Nat) (x : ℚ), Bnd k C L R N0 s x rest → CBnd k R N0 Ord s x rest → (∀ p, prev = some p → C p ∧ p.pt k ≤ x) →
    2 * rest.length + s.order.length < n →
    ∃ s' x', connectLoop o k n prev s rest = some s' ∧ s'.errors = s.errors ∧ Bnd k C L R N0 s' x' [] ∧ CBnd k R N0 Ord s' x' [] ∧ s'.order = [] := by
  intro n
  induction n with
  | zero => intro prev s rest x _ _ _ h; omega
  | succ n ih =>
    intro prev s rest x b c hprev hn
    cases rest with
    | cons e range =>
      obtain ⟨loc, s1, n1, n2, n3, n4, n5, n6, n7, n8⟩ := nextLocation_spec (Ord := Ord) hL ho b
      obtain ⟨q1, q2⟩ := roundAt_spec (Ord := Ord) hL ho n2 rfl n4
      obtain ⟨s2, rest2, h1, h2, h3⟩ := q2 hc (n7 hc c)
      obtain ⟨b2, used, u1, u2, u3⟩ := q1 s2 rest2 h1
      unfold connectLoop
      simp only [n1]
      rw [if_neg]
      · simp only [h1]
        obtain ⟨s', x', f1, f2, f3⟩ := ih (some loc) s2 rest2 (loc.pt k) b2 h3 (by rintro p hp; cases hp; exact ⟨n2, le_refl _⟩) (by
          have l1 : (e :: range).length = used.length + rest2.length := by rw [u1, List.length_append]
          rw [List.length_cons] at l1 hn
          rcases n6 with ⟨h4, h5⟩ | h4
          · have : used ≠ [] := by
              rintro rfl
              simp only [List.nil_append] at u1
              subst u1
              exact absurd (b2.gt e List.mem_cons_self) (by rw [h4]; exact lt_irrefl _)
            have := List.length_pos_of_ne_nil this
            rw [h5] at u3
            omega
          · omega)
        exact ⟨s', x', f1, f2.trans (h2.trans n5), f3⟩
      · cases prev with
        | none => simp
        | some p =>
          obtain ⟨p1, p2⟩ := hprev p rfl
          have : ¬ isLocationLess k loc p = true := by
            rw [isLocationLess_iff (hL.fin _ n2) (hL.fin _ p1)]
            linarith
          simp [this]
    | nil =>
      unfold connectLoop
      cases hends : s.ends with
      | nil =>
        have hord : s.order = [] := by
          have := b.perm
          rw [hends] at this
          exact List.nil_perm.1 this
        simp only
        rw [if_pos ⟨hord, b.need⟩]
        exact ⟨s, x, rfl, rfl, b, c, hord⟩
      | cons g t =>
        obtain ⟨s1, t1, t2, t3, t4, t5, t6, t7, t8⟩ := tail_spec (Ord := Ord) hL ho b hends
        obtain ⟨s2, g1, g2, g3⟩ := t7 hc c
        obtain ⟨b2, b3⟩ := t6 s2 g1
        simp only [t1, t2, g1]
        obtain ⟨s', x', f1, f2, f3⟩ := ih prev s2 [] (N0.hi k g) b2 g3 (fun p hp => ⟨(hprev p hp).1, (hprev p hp).2.trans t3.le⟩) (by
          rw [b3]; simp only [List.length_nil] at hn ⊢; omega)
        exact ⟨s', x', f1, f2.trans (g2.trans t5), f3⟩

end

end Walnut.Conn
