/- One iteration of seeking partners. -/
import Verif.Conn.Need

namespace Walnut.Conn
open Walnut.Geom Walnut.Props

section
variable {k : Fin 3} {C : HP3 → Prop} {L : PL → Prop} {R : List Nat} {N0 : Net} {s s' : St} {x : ℚ} {loc : HP3}

/-- The joined edges are entries. -/
theorem Core.join (hs : Core k C L R N0 s x) {h p : Nat} (hh : h ∈ s.order) (hp : p ∈ s.order) (hpos : (s.key h).pos ≠ (s.key p).pos)
    (n1 : s.net.partner (s.edge h) = none) (n2 : s.net.partner (s.edge p) = none) (l1 : s.net.lo k (s.edge h) = x)
    (l2 : s.net.lo k (s.edge p) = x) : Core k C L R N0 { s with net := s.net.join (s.edge h) (s.edge p) } x := by
  obtain ⟨a1, a2, a3, a4, a5, a6⟩ := hs.act h hh
  obtain ⟨b1, b2, b3, b4, b5, b6⟩ := hs.act p hp
  refine ⟨hs.net.join a1 b1 a2 b2 n1 n2 (by rw [← a5, ← b5]; exact hpos) l1 l2, hs.nodup, hs.act, hs.inj, hs.mateIn, hs.cur, hs.needIn, ?_⟩
  intro e f he hf
  change (s.net.join _ _).partner e = some f at hf
  change (∃ g ∈ s.order, s.edge g = e) ∨ s.net.hi k e ≤ x
  rw [join_partner] at hf
  split at hf
  · rename_i h1; exact .inl ⟨p, hp, h1.symm⟩
  · split at hf
    · rename_i h1; exact .inl ⟨h, hh, h1.symm⟩
    · exact hs.done e f he hf

/-- What connecting the entries `h` and `p` does. -/
structure Linked (k : Fin 3) (C : HP3 → Prop) (L : PL → Prop) (R : List Nat) (N0 : Net) (s s' : St) (x : ℚ) (h p : Nat) : Prop where
  core : Core k C L R N0 s' x
  frame : Frame s s'
  mh : s'.mate h = some p
  mp : s'.mate p = some h
  mg : ∀ g, g ≠ h → g ≠ p → s'.mate g = s.mate g
  need : ∀ g ∈ s.need, g ∈ s'.need
  old : ∀ g, s.mate h = some g ∨ s.mate p = some g → g ∈ s'.need
  ph : Proper s' h
  pp : Proper s' p
  pg : ∀ g ∈ s.order, g ≠ h → g ≠ p → s.mate g ≠ some h → s.mate g ≠ some p → Proper s g → Proper s' g
  lo : ∀ g ∈ s.order, g ≠ h → g ≠ p → s'.net.lo k (s'.edge g) = s.net.lo k (s.edge g)
  none : ∀ g ∈ s.order, g ≠ h → g ≠ p → s.net.partner (s.edge g) = none → s'.net.partner (s'.edge g) = none
  errors : s'.errors = s.errors
  less : badCount s' + s'.need.length ≤ badCount s + s.need.length
  whole : ∀ Ord rest, Whole k R N0 Ord s x rest → Whole k R N0 Ord s' x rest

theorem linked {s1 s2 s4 s5 : St} (hL : Lined k C L) (hs : Core k C L R N0 s x) {h p : Nat} (hp : nb s h = some p)
    (hpos : (s.key h).pos ≠ (s.key p).pos) (hm : s.mate h ≠ some p) (hmp : s.mate p ≠ some h) (hC : C loc) (hx : loc.pt k = x)
    (r1 : release s h p = some s1) (r2 : release s1 p h = some s2)
    (r4 : maybeSplit { s2 with mate := Function.update (Function.update s2.mate h (some p)) p (some h) } h loc = some s4)
    (r5 : maybeSplit s4 p loc = some s5) (n1 : s5.net.partner (s5.edge h) = none) (n2 : s5.net.partner (s5.edge p) = none) :
    Linked k C L R N0 s { s5 with net := s5.net.join (s5.edge h) (s5.edge p) } x h p := by
  obtain ⟨hh, hpm⟩ := neighbour_mem hp
  have hhp : h ≠ p := by rintro rfl; exact hpos rfl
  have b1 := badCount_release hs hh hp hm r1
  obtain ⟨need1, mate1, rfl, c1, m1h, m1g, d1⟩ := hs.release hh r1
  have b2 := badCount_release c1 hpm (p := h) (nb_symm hs.nodup hp hpos) (by
    change mate1 p ≠ some h
    rw [m1g p hhp.symm]; exact hmp) r2
  obtain ⟨need2, mate2, rfl, c2, m2h, m2g, d2⟩ := c1.release hpm r2
  generalize hs3 : ({ ({ ({ s with need := need1, mate := mate1 } : St) with need := need2, mate := mate2 } : St) with
    mate := Function.update (Function.update mate2 h (some p)) p (some h) } : St) = s3 at r4
  have hmate3 : s3.mate = Function.update (Function.update mate2 h (some p)) p (some h) := by rw [← hs3]
  have hedge3 : s3.edge = s.edge := by rw [← hs3]
  have hnet3 : s3.net = s.net := by rw [← hs3]
  have hord3 : s3.order = s.order := by rw [← hs3]
  have hkey3 : s3.key = s.key := by rw [← hs3]
  have hneed3 : s3.need = need2 := by rw [← hs3]
  have herr3 : s3.errors = s.errors := by rw [← hs3]
  have c3 : Core k C L R N0 s3 x := by
    rw [← hs3]
    refine ⟨c2.net, c2.nodup, c2.act, c2.inj, ?_, c2.cur, c2.needIn, c2.done⟩
    intro g hg q hq
    by_cases hgp : g = p
    · subst hgp
      simp only [Function.update_self, Option.some.injEq] at hq
      subst hq
      exact ⟨hh, hpos.symm⟩
    · simp only [Function.update_of_ne hgp] at hq
      by_cases hgh : g = h
      · subst hgh
        simp only [Function.update_self, Option.some.injEq] at hq
        subst hq
        exact ⟨hpm, hpos⟩
      · simp only [Function.update_of_ne hgh] at hq
        exact c2.mateIn g hg q hq
  have f3 : Frame s s3 := by
    rw [← hs3]
    exact ⟨rfl, rfl, rfl, rfl, le_refl _, fun _ _ => .inl rfl, fun _ _ _ => ⟨⟨rfl, rfl, rfl, rfl⟩, id⟩, rfl⟩
  have q4 := (c3.maybeSplit hL (hord3 ▸ hh) hC hx).1 s4 r4
  have hord4 : s4.order = s.order := q4.frame.order.trans hord3
  have q5 := (q4.core.maybeSplit hL (hord4 ▸ hpm) hC hx).1 s5 r5
  have hord5 : s5.order = s.order := q5.frame.order.trans hord4
  have hkey5 : s5.key = s.key := q5.frame.key.trans (q4.frame.key.trans hkey3)
  have hmate5 : s5.mate = Function.update (Function.update mate2 h (some p)) p (some h) := q5.mate.trans (q4.mate.trans hmate3)
  have hneed5 : s5.need = need2 := q5.need.trans (q4.need.trans hneed3)
  have herr5 : s5.errors = s.errors := q5.errors.trans (q4.errors.trans herr3)
  have f5 : Frame s s5 := f3.trans (q4.frame.trans q5.frame)
  have lh : s5.net.lo k (s5.edge h) = x := by
    rw [q5.lo' h (hord4 ▸ hh) hhp]; exact q4.lo
  have c6 := q5.core.join (hord5 ▸ hh) (hord5 ▸ hpm) (by rw [hkey5]; exact hpos) n1 n2 lh q5.lo
  have hh5 : h ∈ s5.order := hord5 ▸ hh
  have hp5 : p ∈ s5.order := hord5 ▸ hpm
  have ne5 : ∀ g ∈ s.order, g ≠ h → s5.edge g ≠ s5.edge h := fun g hg hgh hc => hgh (q5.core.inj g (hord5 ▸ hg) h hh5 hc)
  have ne5' : ∀ g ∈ s.order, g ≠ p → s5.edge g ≠ s5.edge p := fun g hg hgh hc => hgh (q5.core.inj g (hord5 ▸ hg) p hp5 hc)
  have jo : ∀ g ∈ s.order, g ≠ h → g ≠ p → (s5.net.join (s5.edge h) (s5.edge p)).partner (s5.edge g) = s5.net.partner (s5.edge g) := by
    intro g hg hgh hgp
    rw [join_partner, if_neg (ne5' g hg hgp), if_neg (ne5 g hg hgh)]
  have mg : ∀ g, g ≠ h → g ≠ p → s5.mate g = s.mate g := by
    intro g hgh hgp
    rw [hmate5, Function.update_of_ne hgp, Function.update_of_ne hgh, m2g g hgp]
    exact m1g g hgh
  have mh : s5.mate h = some p := by rw [hmate5, Function.update_of_ne hhp, Function.update_self]
  have mp : s5.mate p = some h := by rw [hmate5, Function.update_self]
  have need12 : ∀ g ∈ need1, g ∈ need2 := by
    intro g hg
    rw [d2]
    change g ∈ match mate1 p with | none => need1 | some o => o :: need1
    cases mate1 p with
    | none => exact hg
    | some o => exact List.mem_cons_of_mem _ hg
  have need01 : ∀ g ∈ s.need, g ∈ need1 := by
    intro g hg
    rw [d1]
    cases s.mate h with
    | none => exact hg
    | some o => exact List.mem_cons_of_mem _ hg
  refine ⟨c6, ?_, mh, mp, mg, ?_, ?_, ?_, ?_, ?_, ?_, ?_, herr5, ?_, fun Ord rest w => ?_⟩
  · refine ⟨f5.order, f5.key, f5.cur, f5.ends, f5.cnt, f5.edge, ?_, f5.normal⟩
    intro e he hn
    refine ⟨(f5.rest e he hn).1, fun hp0 => ?_⟩
    change (s5.net.join _ _).partner e = none
    have ne : ∀ g ∈ s.order, e ≠ s5.edge g := by
      intro g hg hc
      rcases f5.edge g hg with h1 | h1
      · exact hn g hg (h1.symm.trans hc.symm)
      · omega
    rw [join_partner, if_neg (ne p hpm), if_neg (ne h hh)]
    exact (f5.rest e he hn).2 hp0
  · intro g hg
    change g ∈ s5.need
    rw [hneed5]
    exact need12 g (need01 g hg)
  · rintro g (hg | hg)
    · change g ∈ s5.need
      rw [hneed5]
      refine need12 g ?_
      rw [d1, hg]
      exact List.mem_cons_self
    · change g ∈ s5.need
      rw [hneed5, d2]
      have : mate1 p = some g := by rw [m1g p hhp.symm]; exact hg
      change g ∈ match mate1 p with | none => need1 | some o => o :: need1
      rw [this]
      exact List.mem_cons_self
  · refine ⟨?_, fun q hq => ?_⟩
    · change (s5.net.join _ _).partner (s5.edge h) = (s5.mate h).map s5.edge
      rw [mh, join_partner, if_neg (ne5' h hh hhp), if_pos rfl]
      rfl
    · change s5.mate h = some q at hq
      rw [mh] at hq
      cases hq
      exact mp
  · refine ⟨?_, fun q hq => ?_⟩
    · change (s5.net.join _ _).partner (s5.edge p) = (s5.mate p).map s5.edge
      rw [mp, join_partner, if_pos rfl]
      rfl
    · change s5.mate p = some q at hq
      rw [mp] at hq
      cases hq
      exact mh
  · intro g hg hgh hgp h1 h2 hpr
    have p3 : Proper s3 g := by
      refine ⟨?_, ?_⟩
      · rw [hnet3, hedge3, hpr.1, hmate3, Function.update_of_ne hgp, Function.update_of_ne hgh, m2g g hgp]
        exact congrArg (Option.map s.edge) (m1g g hgh).symm
      · intro q hq
        rw [hmate3, Function.update_of_ne hgp, Function.update_of_ne hgh, m2g g hgp] at hq
        have hq : s.mate g = some q := (m1g g hgh).symm.trans hq
        have hqh : q ≠ h := by rintro rfl; exact h1 hq
        have hqp : q ≠ p := by rintro rfl; exact h2 hq
        rw [hmate3, Function.update_of_ne hqp, Function.update_of_ne hqh, m2g q hqp]
        exact (m1g q hqh).trans (hpr.2 q hq)
    have m3 : s3.mate g = s.mate g := by
      rw [hmate3, Function.update_of_ne hgp, Function.update_of_ne hgh, m2g g hgp]
      exact m1g g hgh
    have p4 := q4.proper g (hord3 ▸ hg) hgh (by rw [m3]; exact h1) p3
    have p5 := q5.proper g (hord4 ▸ hg) hgp (by rw [q4.mate, m3]; exact h2) p4
    refine ⟨?_, p5.2⟩
    change (s5.net.join _ _).partner (s5.edge g) = _
    rw [jo g hg hgh hgp]
    exact p5.1
  · intro g hg hgh hgp
    change s5.net.lo k (s5.edge g) = _
    rw [q5.lo' g (hord4 ▸ hg) hgp, q4.lo' g (hord3 ▸ hg) hgh, hnet3, hedge3]
  · intro g hg hgh hgp hn
    change (s5.net.join _ _).partner (s5.edge g) = none
    rw [jo g hg hgh hgp]
    exact q5.none' g (hord4 ▸ hg) hgp (q4.none' g (hord3 ▸ hg) hgh (by rw [hnet3, hedge3]; exact hn))
  · change badCount { s5 with net := _ } + s5.need.length ≤ _
    rw [hneed5]
    refine le_trans ?_ (b2.trans b1)
    refine Nat.add_le_add (badCount_congr ?_ ?_ ?_) (le_refl _)
    · exact hord5
    · exact hkey5
    intro g hg
    change s5.mate g = mate2 g ∨ s5.mate g = none ∨ s5.mate g = nb s g
    by_cases hgp : g = p
    · subst hgp
      exact .inr (.inr (by rw [mp, nb_symm hs.nodup hp hpos]))
    · by_cases hgh : g = h
      · subst hgh
        exact .inr (.inr (by rw [mh, hp]))
      · exact .inl (by rw [hmate5, Function.update_of_ne hgp, Function.update_of_ne hgh])
  · exact (q5.whole Ord rest (q4.whole Ord rest (w.congr hnet3 hord3 hedge3))).join lh q5.lo

theorem Linked.mid {h p : Nat} (l : Linked k C L R N0 s s' x h p) (hM : Mid k C L R N0 s x [h]) (hp : nb s h = some p)
    (hpos : (s.key h).pos ≠ (s.key p).pos) : Mid k C L R N0 s' x [] := by
  have hnb : ∀ g, nb s' g = nb s g := by intro g; unfold nb; rw [l.frame.order, l.frame.key]
  refine ⟨l.core, ?_, ?_⟩
  · intro g hg hn _
    rw [l.frame.order] at hg
    by_cases hgh : g = h
    · subst hgh; exact l.ph
    · by_cases hgp : g = p
      · subst hgp; exact l.pp
      · have hpr := hM.settled g hg (fun hc => hn (l.need g hc)) (by simpa using hgh)
        refine l.pg g hg hgh hgp ?_ ?_ hpr
        · intro hc; exact hn (l.old g (.inl (hpr.2 h hc)))
        · intro hc; exact hn (l.old g (.inr (hpr.2 p hc)))
  · intro g hg q hq hm
    rw [l.frame.order] at hg
    rw [hnb] at hq
    by_cases hgh : g = h
    · subst hgh; exact l.ph
    · by_cases hgp : g = p
      · subst hgp; exact l.pp
      · rw [l.mg g hgh hgp] at hm
        have hpr := hM.right g hg q hq hm
        have hsy := nb_symm hM.core.nodup hq (hM.core.mateIn g hg q hm).2
        refine l.pg g hg hgh hgp ?_ ?_ hpr
        · intro hc
          rw [hm] at hc
          cases hc
          rw [hp] at hsy
          cases hsy
          exact hgp rfl
        · intro hc
          rw [hm] at hc
          cases hc
          rw [nb_symm hM.core.nodup hp hpos] at hsy
          cases hsy
          exact hgh rfl

theorem Linked.alt {h p : Nat} (l : Linked k C L R N0 s s' x h p) (hM : Mid k C L R N0 s x [h]) (hA : Alt k s x [h]) (hp : nb s h = some p)
    (hpos : (s.key h).pos ≠ (s.key p).pos) : Alt k s' x [] := by
  have hnb : ∀ g, nb s' g = nb s g := by intro g; unfold nb; rw [l.frame.order, l.frame.key]
  have hsy := nb_symm hM.core.nodup hp hpos
  refine ⟨?_, ?_, ?_⟩
  · intro g hg q hq
    rw [l.frame.order] at hg
    rw [hnb] at hq
    rw [l.frame.key]
    exact hA.alt g hg q hq
  · intro g hg q hq
    rw [l.frame.order] at hg
    rw [hnb] at hq
    by_cases hgh : g = h
    · subst hgh
      rw [hp] at hq; cases hq
      exact .inr (.inr l.mh)
    · by_cases hgp : g = p
      · subst hgp
        rw [hsy] at hq; cases hq
        exact .inr (.inr l.mp)
      · have hqh : q ≠ h := by
          rintro rfl
          have := nb_symm hM.core.nodup hq (hA.alt g hg _ hq)
          rw [hp] at this
          cases this
          exact hgp rfl
        rw [l.mg g hgh hgp]
        rcases hA.prog g hg q hq with (h1 | h1) | (h1 | h1) | h1
        · exact .inl (.inl (l.need g h1))
        · exact absurd (List.mem_singleton.1 h1) hgh
        · exact .inr (.inl (.inl (l.need q h1)))
        · exact absurd (List.mem_singleton.1 h1) hqh
        · exact .inr (.inr h1)
  · intro g hg q hq hm
    rw [l.frame.order] at hg
    rw [hnb] at hq
    by_cases hgh : g = h
    · subst hgh
      rw [hp] at hq; cases hq
      exact absurd l.mh hm
    · by_cases hgp : g = p
      · subst hgp
        rw [hsy] at hq; cases hq
        exact absurd l.mp hm
      · rw [l.mg g hgh hgp] at hm
        obtain ⟨u1, u2⟩ := hA.unsplit g hg q hq hm
        rw [l.frame.cur, l.lo g hg hgh hgp]
        exact ⟨u1, fun hc => l.none g hg hgh hgp (u2 hc)⟩

/-- Any iteration that is defined keeps the invariant. -/
theorem repartner_step (hL : Lined k C L) {h : Nat} (hM : Mid k C L R N0 s x [h]) (hh : h ∈ s.order) (hC : C loc) (hx : loc.pt k = x)
    (hr : repartner loc s h = some s') : Step k C L R N0 s s' x h := by
  obtain ⟨p, hp', hpm⟩ := neighbour_some (b := (s.key h).pos) hh
  have hp : nb s h = some p := hp'
  unfold repartner at hr
  rw [hp'] at hr
  simp only at hr
  split at hr
  · rename_i hm
    cases hr
    refine ⟨⟨hM.core, ?_, hM.right⟩, Frame.refl s, le_refl _, fun _ _ w => w, le_refl _, fun _ hE g hg => ?_⟩
    rotate_left
    · rcases hE g hg with h1 | h1 | h1
      · rw [h1, hm]; exact .inr (by simp)
      · exact .inl h1
      · exact .inr h1
    intro g hg hn _
    by_cases hgh : g = h
    · subst hgh; exact hM.right g hg p hp hm
    · exact hM.settled g hg hn (by simpa using hgh)
  · rename_i hm
    cases r1 : release s h p with
    | none => simp only [r1] at hr; cases hr
    | some s1 =>
      simp only [r1] at hr
      have hk1 : s1.key = s.key := by
        obtain ⟨_, _, rfl, _⟩ := hM.core.release hh r1
        rfl
      rw [hk1] at hr
      split at hr
      · rename_i hpos
        have b1 := badCount_release hM.core hh hp hm r1
        obtain ⟨need1, mate1, rfl, c1, m1h, m1g, d1⟩ := hM.core.release hh r1
        cases r2 : maybeSplit { ({ s with need := need1, mate := mate1 } : St) with errors := s.errors + 1 } h loc with
        | none => simp only [r2] at hr; cases hr
        | some s2 =>
          simp only [r2] at hr
          split at hr
          · rename_i hn
            have hr := Option.some.inj hr
            subst hr
            have c1' : Core k C L R N0 { ({ s with need := need1, mate := mate1 } : St) with errors := s.errors + 1 } x :=
              ⟨c1.net, c1.nodup, c1.act, c1.inj, c1.mateIn, c1.cur, c1.needIn, c1.done⟩
            have q := (c1'.maybeSplit hL hh hC hx).1 s2 r2
            have f1 : Frame s { ({ s with need := need1, mate := mate1 } : St) with errors := s.errors + 1 } :=
              ⟨rfl, rfl, rfl, rfl, le_refl _, fun _ _ => .inl rfl, fun _ _ _ => ⟨⟨rfl, rfl, rfl, rfl⟩, id⟩, rfl⟩
            have f2 := f1.trans q.frame
            have hnb : ∀ g, nb s2 g = nb s g := by intro g; unfold nb; rw [f2.order, f2.key]
            have mh : s2.mate h = none := by rw [q.mate]; exact m1h
            have mg : ∀ g, g ≠ h → s2.mate g = s.mate g := fun g hg => by rw [q.mate]; exact m1g g hg
            have ph : Proper s2 h := ⟨by rw [hn, mh]; rfl, fun p hp => by rw [mh] at hp; cases hp⟩
            have pg : ∀ g ∈ s.order, g ≠ h → s.mate g ≠ some h → Proper s g → Proper s2 g := by
              intro g hg hgh hgm hpr
              refine q.proper g hg hgh ?_ ⟨?_, ?_⟩
              · change mate1 g ≠ some h
                rw [m1g g hgh]; exact hgm
              · change s.net.partner (s.edge g) = (mate1 g).map s.edge
                rw [m1g g hgh]; exact hpr.1
              · change ∀ p, mate1 g = some p → mate1 p = some g
                intro q hq
                rw [m1g g hgh] at hq
                have : q ≠ h := by rintro rfl; exact hgm hq
                rw [m1g q this]
                exact hpr.2 q hq
            refine ⟨⟨q.core, ?_, ?_⟩, f2, ?_, fun Ord rest w => q.whole Ord rest (w.congr rfl rfl rfl),
              by rw [q.errors]; exact Nat.le_succ _, fun he => absurd he (by rw [q.errors]; exact Nat.succ_ne_self _)⟩
            · intro g hg hng _
              rw [f2.order] at hg
              rw [q.need] at hng
              by_cases hgh : g = h
              · subst hgh; exact ph
              · have hsub : g ∉ s.need := by
                  intro hc
                  refine hng ?_
                  change g ∈ need1
                  rw [d1]
                  cases s.mate h with
                  | none => exact hc
                  | some o => exact List.mem_cons_of_mem _ hc
                have hpr := hM.settled g hg hsub (by simpa using hgh)
                refine pg g hg hgh ?_ hpr
                intro hc
                refine hng ?_
                change g ∈ need1
                rw [d1, hpr.2 h hc]
                exact List.mem_cons_self
            · intro g hg r hr hmg
              rw [f2.order] at hg
              rw [hnb] at hr
              by_cases hgh : g = h
              · subst hgh; exact ph
              · rw [mg g hgh] at hmg
                refine pg g hg hgh ?_ (hM.right g hg r hr hmg)
                intro hc
                rw [hmg] at hc
                cases hc
                have hmi := (hM.core.mateIn g hg _ hmg).2
                have := nb_symm hM.core.nodup hr hmi
                rw [hp] at this
                cases this
                exact hmi hpos.symm
            · refine le_trans (Nat.add_le_add (badCount_congr ?_ ?_ ?_) (le_of_eq ?_)) b1
              · exact f2.order
              · exact f2.key
              · intro g _; exact .inl (by rw [q.mate])
              · rw [q.need]
          · cases hr
      · rename_i hpos
        cases r2 : release s1 p h with
        | none => simp only [r2] at hr; cases hr
        | some s2 =>
          simp only [r2] at hr
          have hmp : s.mate p ≠ some h := by
            intro hc
            exact hm ((hM.right p hpm h (nb_symm hM.core.nodup hp hpos) hc).2 h hc)
          cases r4 : maybeSplit { s2 with mate := Function.update (Function.update s2.mate h (some p)) p (some h) } h loc with
          | none => simp only [r4] at hr; cases hr
          | some s4 =>
            simp only [r4] at hr
            cases r5 : maybeSplit s4 p loc with
            | none => simp only [r5] at hr; cases hr
            | some s5 =>
              simp only [r5] at hr
              split at hr
              · rename_i hn
                cases hr
                have l := linked hL hM.core hp hpos hm hmp hC hx r1 r2 r4 r5 hn.1 hn.2
                refine ⟨l.mid hM hp hpos, l.frame, l.less, l.whole, l.errors.ge, fun _ hE g hg => ?_⟩
                rw [l.frame.order] at hg
                by_cases hgh : g = h
                · rw [hgh]
                  exact .inr (by rw [l.mh]; simp)
                · by_cases hgp : g = p
                  · rw [hgp]
                    exact .inr (by rw [l.mp]; simp)
                  · rw [l.mg g hgh hgp]
                    rcases hE g hg with h1 | h1 | h1
                    · exact absurd h1 hgh
                    · exact .inl (l.need g h1)
                    · exact .inr h1
              · cases hr

/-- If the edges alternate then an iteration is defined. -/
theorem repartner_alt (hL : Lined k C L) {h : Nat} (hM : Mid k C L R N0 s x [h]) (hA : Alt k s x [h]) (hh : h ∈ s.order) (hC : C loc)
    (hx : loc.pt k = x) : ∃ s', repartner loc s h = some s' ∧ Alt k s' x [] ∧ s'.errors = s.errors := by
  obtain ⟨p, hp', hpm⟩ := neighbour_some (b := (s.key h).pos) hh
  have hp : nb s h = some p := hp'
  have hpos := hA.alt h hh p hp
  have hsy := nb_symm hM.core.nodup hp hpos
  have hhp : h ≠ p := by rintro rfl; exact hpos rfl
  unfold repartner
  rw [hp']
  simp only
  by_cases hm : s.mate h = some p
  · rw [if_pos hm]
    refine ⟨s, rfl, ⟨hA.alt, ?_, hA.unsplit⟩, rfl⟩
    intro g hg q hq
    rcases hA.prog g hg q hq with (h1 | h1) | (h1 | h1) | h1
    · exact .inl (.inl h1)
    · rw [List.mem_singleton.1 h1] at hq ⊢
      rw [hp] at hq; cases hq
      exact .inr (.inr hm)
    · exact .inr (.inl (.inl h1))
    · rw [List.mem_singleton.1 h1] at hq ⊢
      have := nb_symm hM.core.nodup hq (hA.alt g hg h hq)
      rw [hp] at this; cases this
      exact .inr (.inr ((hM.right h hh _ hp hm).2 _ hm))
    · exact .inr (.inr h1)
  · rw [if_neg hm]
    have hmp : s.mate p ≠ some h := by
      intro hc
      exact hm ((hM.right p hpm h hsy hc).2 h hc)
    have r1 : ∃ s1, release s h p = some s1 := by
      unfold release
      cases hmh : s.mate h with
      | none => exact ⟨_, rfl⟩
      | some o =>
        simp only
        rw [if_neg]
        · exact ⟨_, rfl⟩
        · rintro (rfl | rfl)
          · exact (hM.core.mateIn _ hh _ hmh).2 rfl
          · exact hm hmh
    obtain ⟨s1, r1⟩ := r1
    obtain ⟨need1, mate1, hs1, c1, m1h, m1g, d1⟩ := hM.core.release hh r1
    have hk1 : s1.key = s.key := by rw [hs1]
    have ho1 : s1.order = s.order := by rw [hs1]
    have hm1 : s1.mate = mate1 := by rw [hs1]
    have r2 : ∃ s2, release s1 p h = some s2 := by
      unfold release
      cases hmh : s1.mate p with
      | none => exact ⟨_, rfl⟩
      | some o =>
        simp only
        rw [if_neg]
        · exact ⟨_, rfl⟩
        · rintro (rfl | rfl)
          · exact (c1.mateIn _ (by rw [ho1]; exact hpm) _ hmh).2 rfl
          · rw [hm1, m1g p hhp.symm] at hmh
            exact hmp hmh
    obtain ⟨s2, r2⟩ := r2
    obtain ⟨need2, mate2, hs2, c2, m2h, m2g, d2⟩ := c1.release (by rw [ho1]; exact hpm) r2
    rw [r1]
    simp only
    rw [hk1, if_neg hpos, r2]
    simp only
    have hn2 : s2.net = s.net := by rw [hs2, hs1]
    have he2 : s2.edge = s.edge := by rw [hs2, hs1]
    have ho2 : s2.order = s.order := by rw [hs2, hs1]
    have hk2 : s2.key = s.key := by rw [hs2, hs1]
    have hc2 : s2.cur = s.cur := by rw [hs2, hs1]
    generalize hs3 : ({ s2 with mate := Function.update (Function.update s2.mate h (some p)) p (some h) } : St) = s3
    have hn3 : s3.net = s.net := by rw [← hs3]; exact hn2
    have he3 : s3.edge = s.edge := by rw [← hs3]; exact he2
    have ho3 : s3.order = s.order := by rw [← hs3]; exact ho2
    have hc3 : s3.cur = s.cur := by rw [← hs3]; exact hc2
    have c3 : Core k C L R N0 s3 x := by
      rw [← hs3]
      refine ⟨c2.net, c2.nodup, c2.act, c2.inj, ?_, c2.cur, c2.needIn, c2.done⟩
      intro g hg q hq
      by_cases hgp : g = p
      · subst hgp
        simp only [Function.update_self, Option.some.injEq] at hq
        subst hq
        simp only [ho2, hk2]
        exact ⟨hh, hpos.symm⟩
      · simp only [Function.update_of_ne hgp] at hq
        by_cases hgh : g = h
        · subst hgh
          simp only [Function.update_self, Option.some.injEq] at hq
          subst hq
          simp only [ho2, hk2]
          exact ⟨hpm, hpos⟩
        · simp only [Function.update_of_ne hgh] at hq
          exact c2.mateIn g hg q hq
    obtain ⟨u1, u2⟩ := hA.unsplit h hh p hp hm
    obtain ⟨v1, v2⟩ := hA.unsplit p hpm h hsy hmp
    obtain ⟨s4, r4⟩ := (c3.maybeSplit hL (ho3 ▸ hh) hC hx).2 (by rw [hc3, hn3, he3]; exact u1)
    have q4 := (c3.maybeSplit hL (ho3 ▸ hh) hC hx).1 s4 r4
    have ho4 : s4.order = s.order := q4.frame.order.trans ho3
    obtain ⟨s5, r5⟩ := (q4.core.maybeSplit hL (ho4 ▸ hpm) hC hx).2 (by
      rw [q4.frame.cur, hc3, q4.lo' p (ho3 ▸ hpm) hhp.symm, hn3, he3]; exact v1)
    have q5 := (q4.core.maybeSplit hL (ho4 ▸ hpm) hC hx).1 s5 r5
    rw [r4]
    simp only
    rw [r5]
    simp only
    have n1 : s5.net.partner (s5.edge h) = none := by
      refine q5.none' h (ho4 ▸ hh) hhp ?_
      cases hc : s.cur h with
      | false => exact q4.none (by rw [hc3]; exact hc)
      | true => rw [q4.same (by rw [hc3]; exact hc), hn3, he3]; exact u2 hc
    have n2 : s5.net.partner (s5.edge p) = none := by
      cases hc : s.cur p with
      | false => exact q5.none (by rw [q4.frame.cur, hc3]; exact hc)
      | true =>
        rw [q5.same (by rw [q4.frame.cur, hc3]; exact hc)]
        refine q4.none' p (ho3 ▸ hpm) hhp.symm ?_
        rw [hn3, he3]; exact v2 hc
    rw [if_pos ⟨n1, n2⟩]
    subst hs3
    have l := linked hL hM.core hp hpos hm hmp hC hx r1 r2 r4 r5 n1 n2
    exact ⟨_, rfl, l.alt hM hA hp hpos, l.errors⟩

theorem Mid.pop {h : Nat} {need : List Nat} (hM : Mid k C L R N0 s x []) (hn : s.need = h :: need) :
    Mid k C L R N0 { s with need := need } x [h] ∧ h ∈ s.order := by
  have hin : h ∈ s.order := hM.core.needIn h (by rw [hn]; exact List.mem_cons_self)
  refine ⟨⟨⟨hM.core.net, hM.core.nodup, hM.core.act, hM.core.inj, hM.core.mateIn, hM.core.cur, ?_, hM.core.done⟩, ?_, hM.right⟩, hin⟩
  · intro g hg
    exact hM.core.needIn g (by rw [hn]; exact List.mem_cons_of_mem _ hg)
  · intro g hg h1 h2
    refine hM.settled g hg ?_ (by simp)
    rw [hn]
    intro hc
    rcases List.mem_cons.1 hc with rfl | hc
    · exact h2 (List.mem_singleton.2 rfl)
    · exact h1 hc

theorem Alt.pop {h : Nat} {need : List Nat} (hA : Alt k s x []) (hn : s.need = h :: need) : Alt k { s with need := need } x [h] := by
  refine ⟨hA.alt, ?_, hA.unsplit⟩
  have key : ∀ g, g ∈ s.need ∨ g ∈ [] → g ∈ need ∨ g ∈ [h] := by
    rintro g (hg | hg)
    · rw [hn] at hg
      rcases List.mem_cons.1 hg with rfl | hg
      · exact .inr (List.mem_singleton.2 rfl)
      · exact .inl hg
    · cases hg
  intro g hg p hp
  rcases hA.prog g hg p hp with h1 | h1 | h1
  · exact .inl (key g h1)
  · exact .inr (.inl (key p h1))
  · exact .inr (.inr h1)

theorem processNeed_safe (hL : Lined k C L) (hC : C loc) (hx : loc.pt k = x) : ∀ (n : Nat) {s s' : St}, Mid k C L R N0 s x [] →
    processNeed loc n s = some s' → Core k C L R N0 s' x ∧ Frame s s' ∧ (∀ h ∈ s'.order, Proper s' h) ∧ s'.need = [] ∧
    ∀ Ord rest, Whole k R N0 Ord s x rest → Whole k R N0 Ord s' x rest := by
  intro n
  induction n with
  | zero =>
    intro s s' hM hr
    unfold processNeed at hr
    cases hn : s.need with
    | nil =>
      simp only [hn] at hr
      cases hr
      exact ⟨hM.core, Frame.refl _, fun h hh => hM.settled h hh (by simp [hn]) (by simp), hn, fun _ _ w => w⟩
    | cons h need => simp only [hn] at hr; cases hr
  | succ n ih =>
    intro s s' hM hr
    unfold processNeed at hr
    cases hn : s.need with
    | nil =>
      simp only [hn] at hr
      cases hr
      exact ⟨hM.core, Frame.refl _, fun h hh => hM.settled h hh (by simp [hn]) (by simp), hn, fun _ _ w => w⟩
    | cons h need =>
      simp only [hn] at hr
      cases h1 : repartner loc { s with need := need } h with
      | none => simp only [h1] at hr; cases hr
      | some s1 =>
        simp only [h1] at hr
        obtain ⟨hM', hh⟩ := hM.pop hn
        have st := repartner_step hL hM' hh hC hx h1
        obtain ⟨i1, i2, i3, i4, i5⟩ := ih st.mid hr
        have f : Frame s { s with need := need } := ⟨rfl, rfl, rfl, rfl, le_refl _, fun _ _ => .inl rfl, fun _ _ _ => ⟨⟨rfl, rfl, rfl, rfl⟩, id⟩, rfl⟩
        exact ⟨i1, f.trans (st.frame.trans i2), i3, i4, fun Ord rest w => i5 Ord rest (st.whole Ord rest (w.congr rfl rfl rfl))⟩

theorem processNeed_alt (hL : Lined k C L) (hC : C loc) (hx : loc.pt k = x) : ∀ (n : Nat) {s : St}, Mid k C L R N0 s x [] →
    Alt k s x [] → badCount s + s.need.length ≤ n →
    ∃ s', processNeed loc n s = some s' ∧ s'.errors = s.errors ∧ ∀ h ∈ s'.order, s'.mate h = nb s' h := by
  intro n
  have base : ∀ {s : St}, Alt k s x [] → s.need = [] → ∀ h ∈ s.order, s.mate h = nb s h := by
    intro s hA hn h hh
    obtain ⟨p, hp, _⟩ := neighbour_some (b := (s.key h).pos) hh
    rcases hA.prog h hh p hp with (h1 | h1) | (h1 | h1) | h1
    · rw [hn] at h1; cases h1
    · cases h1
    · rw [hn] at h1; cases h1
    · cases h1
    · rw [h1]; exact hp.symm
  induction n with
  | zero =>
    intro s hM hA hl
    have hn : s.need = [] := List.eq_nil_of_length_eq_zero (by omega)
    unfold processNeed
    simp only [hn]
    exact ⟨s, rfl, rfl, base hA hn⟩
  | succ n ih =>
    intro s hM hA hl
    unfold processNeed
    cases hn : s.need with
    | nil =>
      exact ⟨s, rfl, rfl, base hA hn⟩
    | cons h need =>
      simp only
      obtain ⟨hM', hh⟩ := hM.pop hn
      obtain ⟨s1, h1, h2, h3⟩ := repartner_alt hL hM' (hA.pop hn) hh hC hx
      have st := repartner_step hL hM' hh hC hx h1
      have less := st.less
      rw [h1]
      simp only
      obtain ⟨s', e1, e2, e3⟩ := ih st.mid h2 (by
        refine less.trans ?_
        change badCount s + need.length ≤ n
        rw [hn, List.length_cons] at hl
        omega)
      exact ⟨s', e1, e2.trans h3, e3⟩

/-- Without errors every entry has a partner. -/
theorem processNeed_err (hL : Lined k C L) (hC : C loc) (hx : loc.pt k = x) : ∀ (n : Nat) {s s' : St}, Mid k C L R N0 s x [] →
    processNeed loc n s = some s' → s.errors ≤ s'.errors ∧
      (s'.errors = s.errors → (∀ g ∈ s.order, g ∈ s.need ∨ s.mate g ≠ none) → ∀ g ∈ s'.order, s'.mate g ≠ none) := by
  have base : ∀ {s : St}, s.need = [] → (∀ g ∈ s.order, g ∈ s.need ∨ s.mate g ≠ none) → ∀ g ∈ s.order, s.mate g ≠ none := by
    intro s hn hE g hg
    refine (hE g hg).resolve_left ?_
    simp [hn]
  intro n
  induction n with
  | zero =>
    intro s s' hM hr
    unfold processNeed at hr
    cases hn : s.need with
    | nil =>
      simp only [hn] at hr
      cases hr
      exact ⟨le_refl _, fun _ => by simpa only [hn] using base hn⟩
    | cons h need => simp only [hn] at hr; cases hr
  | succ n ih =>
    intro s s' hM hr
    unfold processNeed at hr
    cases hn : s.need with
    | nil =>
      simp only [hn] at hr
      cases hr
      exact ⟨le_refl _, fun _ => by simpa only [hn] using base hn⟩
    | cons h need =>
      simp only [hn] at hr
      cases h1 : repartner loc { s with need := need } h with
      | none => simp only [h1] at hr; cases hr
      | some s1 =>
        simp only [h1] at hr
        obtain ⟨hM', hh⟩ := hM.pop hn
        have st := repartner_step hL hM' hh hC hx h1
        obtain ⟨i1, i2⟩ := ih st.mid hr
        have e1 : s.errors ≤ s1.errors := st.err.1
        refine ⟨e1.trans i1, fun he hE => ?_⟩
        refine i2 (by omega) (st.err.2 (by change s1.errors = s.errors; omega) ?_)
        intro g hg
        rcases hE g hg with h2 | h2
        · rcases List.mem_cons.1 h2 with h2 | h2
          · exact .inl h2
          · exact .inr (.inl h2)
        · exact .inr (.inr h2)

theorem badCount_le (s : St) : badCount s ≤ s.order.length := List.length_filter_le _ _

/-- The number of iterations is enough, whether or not partners are found. -/
theorem processNeed_fuel (hL : Lined k C L) (hC : C loc) (hx : loc.pt k = x) : ∀ (n m : Nat) {s : St}, Mid k C L R N0 s x [] →
    badCount s + s.need.length ≤ n → badCount s + s.need.length ≤ m → processNeed loc n s = processNeed loc m s := by
  intro n
  induction n with
  | zero =>
    intro m s hM hl hm
    have hn : s.need = [] := List.eq_nil_of_length_eq_zero (by omega)
    unfold processNeed
    simp only [hn]
  | succ n ih =>
    intro m s hM hl hm
    unfold processNeed
    cases hn : s.need with
    | nil => rfl
    | cons h need =>
      rw [hn, List.length_cons] at hl hm
      cases m with
      | zero => omega
      | succ m =>
        simp only
        obtain ⟨hM', hh⟩ := hM.pop hn
        cases h1 : repartner loc { s with need := need } h with
        | none => rfl
        | some s1 =>
          simp only
          have st := repartner_step hL hM' hh hC hx h1
          have less := st.less
          change badCount s1 + s1.need.length ≤ badCount s + need.length at less
          exact ih m st.mid (by omega) (by omega)

end

end Walnut.Conn
