/- Runs that report no error connect every edge. -/
import Verif.Conn.Round

namespace Walnut.Conn
open Walnut.Geom Walnut.Props

section
variable {k : Fin 3} {C : HP3 → Prop} {L : PL → Prop} {R : List Nat} {N0 : Net} {s s' : St} {x y : ℚ} {loc : HP3}
  {rest : List Nat} {o : HeapFns} {Rel : ℚ → Bool → Nat → Nat → Prop}

theorem Whole.add {heap0 new : List Nat} {e : Nat} {a b : List Nat} (i : BegInv k C L R N0 heap0 new s y (e :: rest))
    (w : Whole k R N0 Rel s y (e :: rest)) (hab : s.order = a ++ b) : Whole k R N0 Rel (addEntry k s e (a ++ e :: b)) y rest := by
  obtain ⟨r1, r2, r3, r4, r5, r6⟩ := i.restR.new e List.mem_cons_self
  have hnet := addEntry_net (k := k) (order := a ++ e :: b) r4
  have hmem : ∀ g, g ∈ a ++ e :: b ↔ g = e ∨ g ∈ s.order := by
    intro g; rw [hab]; simp only [List.mem_append, List.mem_cons]; tauto
  have hne : ∀ {g}, g ∈ s.order → g ≠ e := by rintro g hg rfl; exact r5 hg
  refine ⟨?_, ?_, ?_, ?_⟩
  · rw [hnet]
    intro g hg
    exact w.restIn g (List.mem_cons_of_mem _ hg)
  · rw [hnet]; exact w.full
  · rw [hnet]
    intro f hf hlt hl
    rcases w.start f hf hlt hl with h | ⟨h, hh, rfl⟩
    · rcases List.mem_cons.1 h with rfl | h
      · exact .inr ⟨f, (hmem f).2 (.inl rfl), Function.update_self ..⟩
      · exact .inl h
    · exact .inr ⟨h, (hmem h).2 (.inr hh), Function.update_of_ne (hne hh) _ _⟩
  · obtain ⟨org, o1, o2, o3, o4⟩ := w.org
    rw [hnet]
    refine ⟨org, ?_, fun g hg => o2 g (List.mem_cons_of_mem _ hg), o3, o4⟩
    intro h hh
    change org (Function.update s.edge e e h) = h
    rcases (hmem h).1 hh with rfl | hh
    · rw [Function.update_self]; exact o2 h List.mem_cons_self
    · rw [Function.update_of_ne (hne hh)]; exact o1 h hh

theorem beginLoop_err (hL : Lined k C L) (hC : C loc) (hy : loc.pt k = y) {heap0 : List Nat} : ∀ (rest : List Nat) (s : St) (new : List Nat),
    BegInv k C L R N0 heap0 new s y rest → ∀ s' rest', beginLoop k loc rest s = some (s', rest') → s.errors ≤ s'.errors ∧
      (s'.errors = s.errors → (∀ g ∈ s.order, g ∈ s.need ∨ s.mate g ≠ none) → Whole k R N0 Rel s y rest →
        (∀ g ∈ s'.order, g ∈ s'.need ∨ s'.mate g ≠ none) ∧ Whole k R N0 Rel s' y rest') := by
  intro rest
  induction rest with
  | nil =>
    intro s new i s' rest' h
    unfold beginLoop at h
    cases h
    exact ⟨le_refl _, fun _ hE w => ⟨hE, w⟩⟩
  | cons e r ih =>
    intro s new i s' rest' h
    obtain ⟨b, b1, b2⟩ := i.begin hL hC hy
    obtain ⟨r1, r2, r3, r4, r5, r6⟩ := i.restR.new e List.mem_cons_self
    unfold beginLoop at h
    rw [b1] at h
    simp only at h
    by_cases hb : b.eq loc = true
    · rw [if_pos hb] at h
      cases he : emplace s.key (keyOf s.net k e) e s.order with
      | none => simp only [he] at h; cases h
      | some p =>
        obtain ⟨order, ok⟩ := p
        simp only [he] at h
        cases ok with
        | false =>
          simp only at h
          obtain ⟨i1, i2⟩ := ih _ new i.skip s' rest' h
          change s.errors + 1 ≤ s'.errors at i1
          exact ⟨by omega, fun hc => by omega⟩
        | true =>
          simp only at h
          obtain ⟨a, b, h1, h2⟩ := emplace_split he
          subst h2
          obtain ⟨i1, i2⟩ := ih _ _ (i.add hL (b2.1 hb) h1) s' rest' h
          refine ⟨i1, fun hc hE w => i2 hc ?_ (w.add i h1)⟩
          intro g hg
          change g ∈ a ++ e :: b at hg
          change g ∈ e :: s.need ∨ Function.update s.mate e none g ≠ none
          by_cases hge : g = e
          · rw [hge]; exact .inl List.mem_cons_self
          · have hgo : g ∈ s.order := by
              rw [h1]
              simp only [List.mem_append, List.mem_cons] at hg ⊢
              tauto
            rw [Function.update_of_ne hge]
            exact (hE g hgo).imp_left fun h => List.mem_cons_of_mem _ h
    · rw [if_neg hb] at h
      cases h
      exact ⟨le_refl _, fun _ hE w => ⟨hE, w⟩⟩

theorem roundAt_err (hL : Lined k C L) (ho : HeapOk o) (hC : C loc) (hy : loc.pt k = y) (p : Pre k C L R N0 s y rest) {rest' : List Nat}
    (h : roundAt o k loc s rest = some (s', rest')) : s.errors ≤ s'.errors ∧
      (s'.errors = s.errors → (∀ g ∈ s.order, g ∈ s.need ∨ s.mate g ≠ none) → Whole k R N0 Rel s y rest →
        (∀ g ∈ s'.order, s'.mate g ≠ none) ∧ Whole k R N0 Rel s' y rest') := by
  unfold roundAt at h
  rw [if_neg (not_not.2 p.perm.length_eq)] at h
  simp only at h
  cases h1 : beginLoop k loc rest s with
  | none => simp only [h1] at h; cases h
  | some r =>
    obtain ⟨s1, rest1⟩ := r
    simp only [h1] at h
    obtain ⟨new, used, u1, u2, u3, u4, u5⟩ := (beginLoop_spec (Ord := fun _ => []) hL hC hy rest s [] p.begInv).1 s1 rest1 h1
    obtain ⟨v1, v2⟩ := beginLoop_err (Rel := Rel) hL hC hy rest s [] p.begInv s1 rest1 h1
    cases h2 : processNeed loc (needFuel s1) s1 with
    | none => simp only [h2] at h; cases h
    | some s2 =>
      simp only [h2] at h
      obtain ⟨w1, w2⟩ := processNeed_err hL hC hy _ u2.mid h2
      obtain ⟨c1, c2, c3, c4, c5, c6⟩ := (settle (Ord := fun _ => []) hL hC hy u2 u3).1 s2 h2
      have hends : s2.ends = s.ends ++ new := c2.ends.trans u2.ends
      have e1 : s2.ends.take s.ends.length = s.ends := by rw [hends]; simp
      have e2 : s2.ends.drop s.ends.length = new := by rw [hends]; simp
      rw [e1, e2] at h
      have hperm : (s.ends ++ new).Perm s2.order := by rw [c2.order, ← u2.ends]; exact u2.perm
      obtain ⟨ends, cur, q1, _⟩ := pushLoop_spec hL ho c1 new s.ends s2 rfl rfl (fun a ha => hperm.mem_iff.1 ha) p.heap
      rw [q1] at h
      simp only [Option.some.injEq, Prod.mk.injEq] at h
      obtain ⟨g1, g2⟩ := h
      subst g1; subst g2
      refine ⟨v1.trans w1, fun hc hE w => ?_⟩
      change s2.errors = s.errors at hc
      obtain ⟨x1, x2⟩ := v2 (by omega) hE w
      exact ⟨w2 (by omega) x1, (c6 Rel x2).congr rfl rfl rfl⟩

theorem connectLoop_err (hL : Lined k C L) (ho : HeapOk o) : ∀ (n : Nat) (prev : Option HP3) (s s' : St) (rest : List Nat) (x : ℚ),
    Bnd k C L R N0 s x rest → connectLoop o k n prev s rest = some s' → s.errors ≤ s'.errors ∧
    (s'.errors = s.errors → (∀ h ∈ s.order, s.mate h ≠ none) → Whole k R N0 anyRel s x rest → ∃ x', Whole k R N0 anyRel s' x' []) := by
  intro n
  induction n with
  | zero => intro prev s s' rest x _ h; unfold connectLoop at h; cases h
  | succ n ih =>
    intro prev s s' rest x b h
    cases rest with
    | cons e range =>
      obtain ⟨loc, s1, n1, n2, n3, n4, n5, n6, n7, n8⟩ := nextLocation_spec (Ord := fun _ => []) hL ho b
      unfold connectLoop at h
      simp only [n1] at h
      split at h
      · cases h
      · cases h1 : roundAt o k loc s1 (e :: range) with
        | none => simp only [h1] at h; cases h
        | some r =>
          obtain ⟨s2, rest2⟩ := r
          simp only [h1] at h
          obtain ⟨r1, r2⟩ := roundAt_err (Rel := anyRel) hL ho n2 rfl n4 h1
          obtain ⟨i1, i2⟩ := ih _ s2 s' rest2 _ ((roundAt_spec (Ord := fun _ => []) hL ho n2 rfl n4).1 s2 rest2 h1).1 h
          refine ⟨by omega, fun hc hm w => ?_⟩
          obtain ⟨x1, x2⟩ := r2 (by omega) (n8 hm w).1 (n8 hm w).2
          exact i2 (by omega) x1 x2
    | nil =>
      unfold connectLoop at h
      cases hends : s.ends with
      | nil =>
        simp only [hends] at h
        split at h
        · cases h
          exact ⟨le_refl _, fun _ _ w => ⟨x, w⟩⟩
        · cases h
      | cons g t =>
        simp only [hends] at h
        obtain ⟨s1, t1, t2, t3, t4, t5, t6, t7, t8⟩ := tail_spec (Ord := fun _ => []) hL ho b hends
        simp only [t1, t2] at h
        cases h1 : processNeed (N0.hiPt k g) (needFuel s1) s1 with
        | none => simp only [h1] at h; cases h
        | some s2 =>
          simp only [h1] at h
          obtain ⟨r1, r2⟩ := t8 s2 h1
          obtain ⟨i1, i2⟩ := ih _ s2 s' [] _ (t6 s2 h1).1 h
          refine ⟨by omega, fun hc hm w => ?_⟩
          obtain ⟨x1, x2⟩ := r2 (by omega) hm w
          exact i2 (by omega) x1 x2

end

end Walnut.Conn
