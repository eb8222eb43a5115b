/- C46: redirectable values. -/
import Verif.Util.Redirect
import Mathlib.Tactic.Common

namespace Walnut.Props
open Walnut.Util

/-- What the user must respect: new objects go to free addresses, live objects are
used, and an object is destroyed only when no other object is redirected to it. -/
def RMayDo (s : RHeap) : ROp → Prop
  | .create a => s a = none
  | .copy a b => s a = none ∧ (s b).isSome
  | .destroy a => (s a).isSome ∧ ∀ (b : Nat) (B : RNode), b ≠ a → s b = some B → B.redirect ≠ a
  | .deref a => (s a).isSome
  | .redirect a b => (s a).isSome ∧ (s b).isSome

/-- Heaps reachable by a program. -/
inductive RReachable : RHeap → Prop where
  | empty : RReachable (fun _ => none)
  | step (s s' : RHeap) (fuel : Nat) (op : ROp) : RReachable s → RMayDo s op →
      rstep s fuel op = some s' → RReachable s'

/-- Specification: the object at `a` accesses the value at `r`. -/
inductive Accesses (s : RHeap) : Nat → Nat → Prop where
  | own (a : Nat) (A : RNode) : s a = some A → A.redirect = a → Accesses s a a
  | via (a r : Nat) (A : RNode) : s a = some A → A.redirect ≠ a → Accesses s A.redirect r → Accesses s a r

/-- The invariant: some rank decreases along redirects, and exactly the primaries
hold a value. -/
structure RInv (s : RHeap) : Prop where
  live : ∀ (a : Nat) (A : RNode), s a = some A → (s A.redirect).isSome
  con : ∀ (a : Nat) (A : RNode), s a = some A → (A.constructed = true ↔ A.redirect = a)
  rank : ∃ f : Nat → Nat, ∀ (a : Nat) (A : RNode), s a = some A → A.redirect ≠ a → f A.redirect < f a

theorem Accesses.det {s : RHeap} {a r r' : Nat} (h : Accesses s a r) (h' : Accesses s a r') : r = r' := by
  induction h with
  | own a A hA hr =>
    cases h' with
    | own _ A' hA' hr' => rfl
    | via _ _ A' hA' hr' _ => rw [hA] at hA'; obtain rfl := Option.some.inj hA'; exact absurd hr hr'
  | via a r A hA hr h ih =>
    cases h' with
    | own _ A' hA' hr' => rw [hA] at hA'; obtain rfl := Option.some.inj hA'; exact absurd hr' hr
    | via _ _ A' hA' hr' h'' => rw [hA] at hA'; obtain rfl := Option.some.inj hA'; exact ih h''

theorem Accesses.root {s : RHeap} {a r : Nat} (h : Accesses s a r) :
    ∃ R, s r = some R ∧ R.redirect = r := by
  induction h with
  | own a A hA hr => exact ⟨A, hA, hr⟩
  | via a r A hA hr h ih => exact ih

theorem RInv.accesses {s : RHeap} (hi : RInv s) : ∀ a, (s a).isSome → ∃ r, Accesses s a r := by
  obtain ⟨h1, -, f, hf⟩ := hi
  suffices H : ∀ n a, f a ≤ n → (s a).isSome → ∃ r, Accesses s a r from fun a => H (f a) a (Nat.le_refl _)
  intro n
  induction n with
  | zero =>
    intro a ha hs
    obtain ⟨A, hA⟩ := Option.isSome_iff_exists.1 hs
    by_cases hr : A.redirect = a
    · exact ⟨a, .own a A hA hr⟩
    · have := hf a A hA hr; omega
  | succ n ih =>
    intro a ha hs
    obtain ⟨A, hA⟩ := Option.isSome_iff_exists.1 hs
    by_cases hr : A.redirect = a
    · exact ⟨a, .own a A hA hr⟩
    · have := hf a A hA hr
      obtain ⟨r, hr'⟩ := ih A.redirect (by omega) (h1 a A hA)
      exact ⟨r, .via a r A hA hr hr'⟩

theorem primaryLoop_accesses {s : RHeap} {a r : Nat} (h : Accesses s a r) :
    ∃ n, ∀ fuel, n ≤ fuel → primaryLoop s fuel a = some r := by
  induction h with
  | own a A hA hr =>
    refine ⟨1, fun fuel hf => ?_⟩
    obtain ⟨k, rfl⟩ := Nat.exists_eq_add_of_le hf
    rw [Nat.add_comm]; simp [primaryLoop, hA, hr]
  | via a r A hA hr h ih =>
    obtain ⟨n, ih⟩ := ih
    refine ⟨n + 1, fun fuel hf => ?_⟩
    obtain ⟨k, rfl⟩ := Nat.exists_eq_add_of_le hf
    rw [show n + 1 + k = (n + k) + 1 by omega]
    simp only [primaryLoop, hA, if_neg (Ne.symm hr)]
    exact ih _ (by omega)

theorem primaryConst_accesses {s : RHeap} {a r : Nat} (h : Accesses s a r) :
    ∃ n, ∀ fuel, n ≤ fuel → primaryConst s fuel a = some r := by
  have : ∃ A, s a = some A ∧ Accesses s A.redirect r := by
    cases h with
    | own _ A hA hr => exact ⟨A, hA, by rw [hr]; exact .own a A hA hr⟩
    | via _ _ A hA hr h => exact ⟨A, hA, h⟩
  obtain ⟨A, hA, h⟩ := this
  obtain ⟨n, hn⟩ := primaryLoop_accesses h
  exact ⟨n, fun fuel hf => by simp only [primaryConst, hA, hn fuel hf]⟩

/-- Redirecting one object past its target keeps the invariant and what every
object accesses. -/
theorem compress_step {s : RHeap} (hi : RInv s) {a : Nat} {A R : RNode} (hA : s a = some A)
    (hR : s A.redirect = some R) (hne : A.redirect ≠ R.redirect) :
    RInv (s.set a (some { A with redirect := R.redirect })) ∧
    ∀ b r, Accesses s b r → Accesses (s.set a (some { A with redirect := R.redirect })) b r := by
  obtain ⟨h1, h2, f, hf⟩ := hi
  have hra : A.redirect ≠ a := by
    intro h
    rw [h] at hR
    rw [hA] at hR
    obtain rfl := Option.some.inj hR
    exact hne rfl
  have g1 := hf a A hA hra
  have g2 := hf _ R hR (Ne.symm hne)
  have hRa : R.redirect ≠ a := by intro h; rw [h] at g2; omega
  refine ⟨⟨?_, ?_, f, ?_⟩, ?_⟩
  · intro x X hX
    simp only [RHeap.set] at hX ⊢
    split at hX
    · simp only [Option.some.injEq] at hX
      subst hX
      simp only [if_neg hRa]
      exact h1 _ R hR
    · split
      · rfl
      · exact h1 x X hX
  · intro x X hX
    simp only [RHeap.set] at hX
    split at hX
    · simp only [Option.some.injEq] at hX
      subst hX
      have := h2 a A hA
      rename_i hx
      subst hx
      simp only [hRa, iff_false]
      rw [this]
      exact hra
    · exact h2 x X hX
  · intro x X hX hn
    simp only [RHeap.set] at hX
    split at hX
    · simp only [Option.some.injEq] at hX
      subst hX
      rename_i hx
      subst hx
      simp only
      omega
    · exact hf x X hX hn
  · intro b r h
    induction h with
    | own b B hB hr =>
      refine .own b B ?_ hr
      simp only [RHeap.set]
      rw [if_neg]
      · exact hB
      · rintro rfl
        rw [hA] at hB
        obtain rfl := Option.some.inj hB
        exact hra hr
    | via b r B hB hr h ih =>
      by_cases hb : b = a
      · subst hb
        rw [hA] at hB
        obtain rfl := Option.some.inj hB
        refine .via b r { A with redirect := R.redirect } (by simp [RHeap.set]) hRa ?_
        cases ih with
        | own _ R' hR' hr' =>
          simp only [RHeap.set, if_neg hra] at hR'
          rw [hR] at hR'
          obtain rfl := Option.some.inj hR'
          exact absurd hr'.symm hne
        | via _ _ R' hR' hr' h'' =>
          simp only [RHeap.set, if_neg hra] at hR'
          rw [hR] at hR'
          obtain rfl := Option.some.inj hR'
          exact h''
      · exact .via b r B (by simp [RHeap.set, hb, hB]) hr ih

/-- `primary()` keeps the invariant, what every object accesses, which objects
exist, and returns what the object accesses. -/
theorem primary_spec {s : RHeap} (hi : RInv s) (fuel a : Nat) (s' : RHeap) (r : Nat)
    (h : primary s fuel a = some (s', r)) :
    RInv s' ∧ Accesses s a r ∧ (∀ b x, Accesses s b x → Accesses s' b x) ∧
    (∀ b, (s' b).isSome = (s b).isSome) ∧ (∃ A, s' a = some A ∧ A.redirect = r) ∧
    (∀ b, b ≠ a → s' b = s b) := by
  induction fuel generalizing s with
  | zero => simp [primary] at h
  | succ fuel ih =>
    simp only [primary] at h
    split at h
    · simp at h
    · rename_i A hA
      split at h
      · simp at h
      · rename_i R hR
        split at h
        · rename_i he
          simp only [Option.some.injEq, Prod.mk.injEq] at h
          obtain ⟨rfl, rfl⟩ := h
          refine ⟨hi, ?_, fun _ _ h => h, fun _ => rfl, ⟨A, hA, rfl⟩, fun _ _ => rfl⟩
          by_cases hra : A.redirect = a
          · rw [hra]; exact .own a A hA hra
          · exact .via a _ A hA hra (.own _ R hR he.symm)
        · rename_i hne
          obtain ⟨c1, c2⟩ := compress_step hi hA hR hne
          obtain ⟨d1, d2, d3, d4, d5, d6⟩ := ih c1 h
          refine ⟨d1, ?_, fun b x hb => d3 b x (c2 b x hb), fun b => ?_, d5, fun b hb => ?_⟩
          · obtain ⟨r', hr'⟩ := hi.accesses a (by simp [hA])
            obtain rfl := (c2 a r' hr').det d2
            exact hr'
          · rw [d4]
            simp only [RHeap.set]
            split
            · subst_vars; simp [hA]
            · rfl
          · rw [d6 b hb]; simp [RHeap.set, hb]

theorem primary_defined (f : Nat → Nat) (n : Nat) : ∀ {s : RHeap}, RInv s →
    (∀ (a : Nat) (A : RNode), s a = some A → A.redirect ≠ a → f A.redirect < f a) →
    ∀ (a : Nat) (A : RNode), s a = some A → f A.redirect ≤ n →
    ∀ fuel, n + 1 ≤ fuel → (primary s fuel a).isSome := by
  induction n with
  | zero =>
    intro s hi hf a A hA hn fuel hfu
    obtain ⟨k, rfl⟩ : ∃ k, fuel = k + 1 := ⟨fuel - 1, by omega⟩
    obtain ⟨R, hR⟩ := Option.isSome_iff_exists.1 (hi.live a A hA)
    simp only [primary, hA, hR]
    by_cases hr : R.redirect = A.redirect
    · simp [hr]
    · have := hf _ R hR hr; omega
  | succ n ih =>
    intro s hi hf a A hA hn fuel hfu
    obtain ⟨k, rfl⟩ : ∃ k, fuel = k + 1 := ⟨fuel - 1, by omega⟩
    obtain ⟨R, hR⟩ := Option.isSome_iff_exists.1 (hi.live a A hA)
    simp only [primary, hA, hR]
    by_cases hr : A.redirect = R.redirect
    · simp [hr]
    · rw [if_neg hr]
      have g2 := hf _ R hR (Ne.symm hr)
      have hra : A.redirect ≠ a := by
        intro h
        rw [h, hA] at hR
        obtain rfl := Option.some.inj hR
        exact hr rfl
      have g1 := hf a A hA hra
      refine ih (compress_step hi hA hR hr).1 ?_ a { A with redirect := R.redirect }
        (by simp [RHeap.set]) (by simp only; omega) k (by omega)
      intro x X hX hn
      simp only [RHeap.set] at hX
      split at hX
      · simp only [Option.some.injEq] at hX
        subst hX
        rename_i hx
        subst hx
        simp only
        omega
      · exact hf x X hX hn

theorem primary_terminates {s : RHeap} (hi : RInv s) (a : Nat) (ha : (s a).isSome) :
    ∃ n, ∀ fuel, n ≤ fuel → (primary s fuel a).isSome := by
  obtain ⟨f, hf⟩ := hi.rank
  obtain ⟨A, hA⟩ := Option.isSome_iff_exists.1 ha
  exact ⟨f A.redirect + 1, primary_defined f _ hi hf a A hA (Nat.le_refl _)⟩

theorem Accesses.live {s : RHeap} {a r : Nat} (h : Accesses s a r) : (s a).isSome := by
  cases h with
  | own _ A hA _ => simp [hA]
  | via _ _ A hA _ _ => simp [hA]

/-- Pointing `a` to a primary that is not on its way. -/
theorem set_redirect {s : RHeap} (hi : RInv s) {a t : Nat} {A T : RNode} (hA : s a = some A)
    (hT : s t = some T) (hTt : T.redirect = t) (hta : t ≠ a) :
    RInv (s.set a (some ⟨t, false⟩)) ∧
    ∀ b x, Accesses s b x → Accesses (s.set a (some ⟨t, false⟩)) b x ∨
      (Accesses (s.set a (some ⟨t, false⟩)) b t ∧ Accesses s a x) := by
  classical
  obtain ⟨h1, h2, f, hf⟩ := id hi
  have ht' : Accesses (s.set a (some ⟨t, false⟩)) t t :=
    .own t T (by simp [RHeap.set, hta, hT]) hTt
  have ha' : Accesses (s.set a (some ⟨t, false⟩)) a t :=
    .via a t ⟨t, false⟩ (by simp [RHeap.set]) hta ht'
  refine ⟨⟨?_, ?_, ?_⟩, ?_⟩
  · intro x X hX
    simp only [RHeap.set] at hX ⊢
    split at hX
    · simp only [Option.some.injEq] at hX
      subst hX
      simp [hta, hT]
    · split
      · rfl
      · exact h1 x X hX
  · intro x X hX
    simp only [RHeap.set] at hX
    split at hX
    · simp only [Option.some.injEq] at hX
      subst hX
      rename_i hx
      subst hx
      simp [hta]
    · exact h2 x X hX
  · -- objects that reach `a` are lifted above `t`
    let Reach : Nat → Prop := fun x => ∃ n, (Nat.repeat (fun y => match s y with
      | some Y => Y.redirect | none => y) n x) = a
    have r0 : Reach a := ⟨0, rfl⟩
    have rstep : ∀ x X, s x = some X → x ≠ a → (Reach x ↔ Reach X.redirect) := by
      intro x X hX hxa
      have comm : ∀ n y, Nat.repeat (fun y => match s y with
          | some Y => Y.redirect | none => y) (n+1) y = Nat.repeat (fun y => match s y with
          | some Y => Y.redirect | none => y) n (match s y with
          | some Y => Y.redirect | none => y) := by
        intro n
        induction n with
        | zero => intro y; rfl
        | succ n ih => intro y; rw [Nat.repeat, ih]; rfl
      constructor
      · rintro ⟨n, hn⟩
        cases n with
        | zero => exact absurd hn hxa
        | succ n => rw [comm] at hn; simp only [hX] at hn; exact ⟨n, hn⟩
      · rintro ⟨n, hn⟩
        exact ⟨n + 1, by rw [comm]; simp only [hX]; exact hn⟩
    have rt : ¬ Reach t := by
      rintro ⟨n, hn⟩
      have : ∀ n, Nat.repeat (fun y => match s y with
          | some Y => Y.redirect | none => y) n t = t := by
        intro n
        induction n with
        | zero => rfl
        | succ n ih => rw [Nat.repeat, ih]; simp [hT, hTt]
      rw [this] at hn
      exact hta hn
    refine ⟨fun x => if Reach x then f x + f t + 1 else f x, ?_⟩
    intro x X hX hn
    simp only [RHeap.set] at hX
    split at hX
    · simp only [Option.some.injEq] at hX
      subst hX
      rename_i hx
      subst hx
      simp only [if_neg rt, if_pos r0]
      omega
    · rename_i hxa
      have := hf x X hX hn
      by_cases hR : Reach x
      · simp only [if_pos hR, if_pos ((rstep x X hX hxa).1 hR)]; omega
      · simp only [if_neg hR, if_neg (fun h => hR ((rstep x X hX hxa).2 h))]; omega
  · intro b x h
    induction h with
    | own b B hB hr =>
      by_cases hb : b = a
      · subst hb
        exact Or.inr ⟨ha', .own b B hB hr⟩
      · exact Or.inl (.own b B (by simp [RHeap.set, hb, hB]) hr)
    | via b r B hB hr h ih =>
      by_cases hb : b = a
      · subst hb
        exact Or.inr ⟨ha', .via b r B hB hr h⟩
      · rcases ih with ih | ⟨ih, ih'⟩
        · exact Or.inl (.via b r B (by simp [RHeap.set, hb, hB]) hr ih)
        · exact Or.inr ⟨.via b t B (by simp [RHeap.set, hb, hB]) hr ih, ih'⟩

/-- The two forms a `Redirect` takes. -/
theorem redirect_form {s s' : RHeap} (hi : RInv s) {fuel a dst : Nat}
    (h : redirect s fuel a dst = some s') :
    ∃ s1 t A, primary s fuel dst = some (s1, t) ∧ s1 a = some A ∧
      ((A.redirect = t ∧ s' = s1) ∨ (A.redirect ≠ t ∧ t ≠ a ∧ s' = s1.set a (some ⟨t, false⟩))) := by
  unfold redirect at h
  split at h
  · simp at h
  · rename_i s1 t hp
    obtain ⟨d1, d2, d3, d4, ⟨T0, d5, d5'⟩, d6⟩ := primary_spec hi _ _ _ _ hp
    split at h
    · simp at h
    · rename_i A hA
      refine ⟨s1, t, A, hp, hA, ?_⟩
      split at h
      · rename_i he
        simp only [Option.some.injEq] at h
        exact Or.inl ⟨he.symm, h.symm⟩
      · rename_i hne
        refine Or.inr ⟨Ne.symm hne, ?_⟩
        have hat : dst ≠ a := by
          rintro rfl
          rw [d5] at hA
          obtain rfl := Option.some.inj hA
          exact hne d5'.symm
        obtain ⟨T, hT, hTt⟩ := (d3 _ _ d2).root
        have hta : t ≠ a := by
          rintro rfl
          rw [hT] at hA
          obtain rfl := Option.some.inj hA
          exact hne hTt.symm
        have hc := d1.con a A hA
        obtain ⟨k, rfl⟩ : ∃ k, fuel = k + 1 := by
          cases fuel with
          | zero => simp [primary] at hp
          | succ k => exact ⟨k, rfl⟩
        split at h
        · simp at h
        · rename_i hnd
          refine ⟨hta, ?_⟩
          by_cases hroot : A.redirect = a
          · simp only [hroot, if_true] at h
            simp only [primary, RHeap.set, if_neg hat, d5, d5', if_neg hta, hT, hTt, if_true,
              Option.some.injEq] at h
            rw [← h]
            funext x
            simp only [RHeap.set]
            split <;> rfl
          · simp only [if_neg hroot] at h
            simp only [primary, d5, d5', hT, hTt, if_true, hA, Option.some.injEq] at h
            have : A.constructed = false := by
              cases hcc : A.constructed
              · rfl
              · exact absurd (hc.1 hcc) hroot
            rw [← h, this]

theorem rinv_step {s s' : RHeap} (hi : RInv s) (fuel : Nat) (op : ROp) (hop : RMayDo s op)
    (h : rstep s fuel op = some s') : RInv s' := by
  cases op with
  | create a =>
    simp only [RMayDo] at hop
    simp only [rstep, hop, Option.isSome_none, Bool.false_eq_true, if_false, Option.some.injEq] at h
    subst h
    obtain ⟨h1, h2, f, hf⟩ := hi
    refine ⟨?_, ?_, f, ?_⟩
    · intro x X hX
      simp only [RHeap.set] at hX ⊢
      split at hX
      · simp only [Option.some.injEq] at hX
        subst hX
        simp
      · split
        · rfl
        · exact h1 x X hX
    · intro x X hX
      simp only [RHeap.set] at hX
      split at hX
      · simp only [Option.some.injEq] at hX
        subst hX
        subst_vars
        simp
      · exact h2 x X hX
    · intro x X hX hn
      simp only [RHeap.set] at hX
      split at hX
      · simp only [Option.some.injEq] at hX
        subst hX
        subst_vars
        simp at hn
      · exact hf x X hX hn
  | copy a b =>
    obtain ⟨ha, hb⟩ := hop
    obtain ⟨B, hB⟩ := Option.isSome_iff_exists.1 hb
    simp only [rstep, ha, hB, Option.some.injEq] at h
    subst h
    obtain ⟨h1, h2, f, hf⟩ := hi
    have na : ∀ (x : Nat) (X : RNode), s x = some X → X.redirect ≠ a := by
      intro x X hX he
      have := h1 x X hX
      rw [he, ha] at this
      simp at this
    refine ⟨?_, ?_, fun x => if x = a then f B.redirect + 1 else f x, ?_⟩
    · intro x X hX
      simp only [RHeap.set] at hX ⊢
      split at hX
      · simp only [Option.some.injEq] at hX
        subst hX
        simp [na b B hB, h1 b B hB]
      · simp [na x X hX, h1 x X hX]
    · intro x X hX
      simp only [RHeap.set] at hX
      split at hX
      · simp only [Option.some.injEq] at hX
        subst hX
        subst_vars
        simp [na b B hB]
      · exact h2 x X hX
    · intro x X hX hn
      simp only [RHeap.set] at hX
      split at hX
      · simp only [Option.some.injEq] at hX
        subst hX
        subst_vars
        simp [na b B hB]
      · simp only [if_neg (na x X hX)]
        rw [if_neg (by assumption)]
        exact hf x X hX hn
  | destroy a =>
    obtain ⟨ha, hb⟩ := hop
    obtain ⟨A, hA⟩ := Option.isSome_iff_exists.1 ha
    simp only [rstep, hA] at h
    split at h <;> simp only [Option.some.injEq, reduceCtorEq] at h
    subst h
    obtain ⟨h1, h2, f, hf⟩ := hi
    refine ⟨?_, ?_, f, ?_⟩
    · intro x X hX
      simp only [RHeap.set] at hX ⊢
      split at hX
      · simp at hX
      · rename_i hxa
        rw [if_neg (hb x X hxa hX)]
        exact h1 x X hX
    · intro x X hX
      simp only [RHeap.set] at hX
      split at hX
      · simp at hX
      · exact h2 x X hX
    · intro x X hX hn
      simp only [RHeap.set] at hX
      split at hX
      · simp at hX
      · exact hf x X hX hn
  | deref a =>
    simp only [rstep, deref, Option.map_eq_some_iff] at h
    obtain ⟨⟨s1, r⟩, h, rfl⟩ := h
    split at h
    · simp at h
    · rename_i s2 r2 hp
      split at h
      · simp at h
      · split at h <;> simp only [Option.some.injEq, reduceCtorEq, Prod.mk.injEq] at h
        obtain ⟨rfl, rfl⟩ := h
        exact (primary_spec hi _ _ _ _ hp).1
  | redirect a b =>
    obtain ⟨s1, t, A, hp, hA, h⟩ := redirect_form hi h
    obtain ⟨d1, d2, d3, -⟩ := primary_spec hi _ _ _ _ hp
    rcases h with ⟨-, rfl⟩ | ⟨-, hta, rfl⟩
    · exact d1
    · obtain ⟨T, hT, hTt⟩ := (d3 _ _ d2).root
      exact (set_redirect d1 hA hT hTt hta).1

theorem rinv_reachable {s : RHeap} (h : RReachable s) : RInv s := by
  induction h with
  | empty => exact ⟨by simp, by simp, fun _ => 0, by simp⟩
  | step s s' fuel op _ hop hs ih => exact rinv_step ih fuel op hop hs

/-- C46: dereferencing terminates on every object of every reachable heap, and
reaches an object that holds a constructed value. -/
theorem C46_terminates (s : RHeap) (h : RReachable s) (a : Nat) (ha : (s a).isSome) :
    ∃ r, Accesses s a r ∧ (∃ R, s r = some R ∧ R.constructed = true) ∧
    ∃ n, ∀ fuel, n ≤ fuel → primaryConst s fuel a = some r ∧
      ∃ s', deref s fuel a = some (s', r) := by
  have hi := rinv_reachable h
  obtain ⟨r, hr⟩ := hi.accesses a ha
  obtain ⟨R, hR, hRr⟩ := hr.root
  refine ⟨r, hr, ⟨R, hR, (hi.con r R hR).2 hRr⟩, ?_⟩
  obtain ⟨n1, hn1⟩ := primaryConst_accesses hr
  obtain ⟨n2, hn2⟩ := primary_terminates hi a ha
  refine ⟨max n1 n2, fun fuel hf => ⟨hn1 fuel (by omega), ?_⟩⟩
  obtain ⟨⟨s', r'⟩, hp⟩ := Option.isSome_iff_exists.1 (hn2 fuel (by omega))
  obtain ⟨d1, d2, d3, -⟩ := primary_spec hi _ _ _ _ hp
  obtain rfl := d2.det hr
  obtain ⟨R', hR', hRr'⟩ := (d3 _ _ hr).root
  refine ⟨s', ?_⟩
  simp [deref, hp, hR', (d1.con r' R' hR').2 hRr']

/-- C46: path compression changes what no object accesses, and exactly the
primaries hold a value. -/
theorem C46_deref_pure (s s' : RHeap) (h : RReachable s) (fuel a r : Nat)
    (hd : deref s fuel a = some (s', r)) :
    Accesses s a r ∧ (∀ b x, Accesses s b x ↔ Accesses s' b x) ∧
    ∀ (b : Nat) (B : RNode), s' b = some B → (B.constructed = true ↔ Accesses s' b b) := by
  have hi := rinv_reachable h
  unfold deref at hd
  split at hd
  · simp at hd
  · rename_i s1 r1 hp
    obtain ⟨d1, d2, d3, d4, -⟩ := primary_spec hi _ _ _ _ hp
    split at hd
    · simp at hd
    · split at hd <;> simp only [Option.some.injEq, reduceCtorEq, Prod.mk.injEq] at hd
      obtain ⟨rfl, rfl⟩ := hd
      refine ⟨d2, fun b x => ⟨d3 b x, fun hb => ?_⟩, fun b B hB => ?_⟩
      · obtain ⟨y, hy⟩ := hi.accesses b (by rw [← d4]; exact hb.live)
        obtain rfl := (d3 b y hy).det hb
        exact hy
      · rw [d1.con b B hB]
        constructor
        · exact fun hr => .own b B hB hr
        · intro hb
          obtain ⟨B', hB', hr⟩ := hb.root
          rw [hB] at hB'
          obtain rfl := Option.some.inj hB'
          exact hr

/-- C46: after `a.Redirect(to)` both access what `to` accessed.  Objects that did
not share a value with `a` are unaffected, the others access the old or the new value,
and if `a` held the value itself they all access the new one. -/
theorem C46_redirect (s s' : RHeap) (h : RReachable s) (fuel a dst v w : Nat)
    (hto : Accesses s dst v) (ha : Accesses s a w) (hr : redirect s fuel a dst = some s') :
    Accesses s' a v ∧ Accesses s' dst v ∧
    (∀ b x, x ≠ w → Accesses s b x → Accesses s' b x) ∧
    (∀ b, Accesses s b w → Accesses s' b w ∨ Accesses s' b v) ∧
    (a = w → ∀ b, Accesses s b w → Accesses s' b v) := by
  have hi := rinv_reachable h
  obtain ⟨s1, t, A, hp, hA, hf⟩ := redirect_form hi hr
  obtain ⟨d1, d2, d3, d4, ⟨T0, d5, d5'⟩, -⟩ := primary_spec hi _ _ _ _ hp
  obtain rfl := d2.det hto
  obtain ⟨T, hT, hTt⟩ := (d3 _ _ d2).root
  have ht : Accesses s1 t t := .own t T hT hTt
  rcases hf with ⟨he, rfl⟩ | ⟨hne, hta, rfl⟩
  · have hat : Accesses s' a t := by
      by_cases haa : A.redirect = a
      · rw [← he, haa]; exact .own a A hA haa
      · exact .via a t A hA haa (by rw [he]; exact ht)
    have hwt : w = t := (d3 a w ha).det hat
    subst hwt
    exact ⟨hat, d3 _ _ hto, fun b x _ hb => d3 b x hb, fun b hb => Or.inl (d3 b w hb),
      fun _ b hb => d3 b w hb⟩
  · obtain ⟨-, g⟩ := set_redirect d1 hA hT hTt hta
    have hat : Accesses (s1.set a (some ⟨t, false⟩)) a t := by
      refine .via a t ⟨t, false⟩ (by simp [RHeap.set]) hta (.own t T (by simp [RHeap.set, hta, hT]) hTt)
    refine ⟨hat, ?_, ?_, ?_, ?_⟩
    · rcases g dst t (d3 _ _ hto) with g | ⟨g, -⟩ <;> exact g
    · intro b x hx hb
      rcases g b x (d3 _ _ hb) with g | ⟨g, g'⟩
      · exact g
      · exact absurd (g'.det (d3 _ _ ha)) hx
    · intro b hb
      rcases g b w (d3 _ _ hb) with g | ⟨g, -⟩
      · exact Or.inl g
      · exact Or.inr g
    · intro haw b hb
      rcases g b w (d3 _ _ hb) with g | ⟨g, -⟩
      · obtain ⟨W, hW, hWr⟩ := g.root
        rw [← haw] at hW hWr
        simp only [RHeap.set, if_true, Option.some.injEq] at hW
        subst hW
        exact absurd hWr hta
      · exact g

/-- C46: every operation the user may do is defined, given enough steps: no pointer
to a destroyed object is followed and no value is destroyed twice. -/
theorem C46_defined (s : RHeap) (h : RReachable s) (op : ROp) (hop : RMayDo s op) :
    ∃ n, ∀ fuel, n ≤ fuel → (rstep s fuel op).isSome := by
  have hi := rinv_reachable h
  cases op with
  | create a => simp only [RMayDo] at hop; exact ⟨0, fun fuel _ => by simp [rstep, hop]⟩
  | copy a b =>
    obtain ⟨ha, hb⟩ := hop
    obtain ⟨B, hB⟩ := Option.isSome_iff_exists.1 hb
    exact ⟨0, fun fuel _ => by simp [rstep, ha, hB]⟩
  | destroy a =>
    obtain ⟨ha, -⟩ := hop
    obtain ⟨A, hA⟩ := Option.isSome_iff_exists.1 ha
    refine ⟨0, fun fuel _ => ?_⟩
    have : ¬ (A.redirect = a ∧ A.constructed = false) := by
      rintro ⟨h1, h2⟩
      rw [(hi.con a A hA).2 h1] at h2
      simp at h2
    simp [rstep, hA, this]
  | deref a =>
    obtain ⟨r, -, -, n, hn⟩ := C46_terminates s h a hop
    refine ⟨n, fun fuel hf => ?_⟩
    obtain ⟨-, s', hs'⟩ := hn fuel hf
    simp [rstep, hs']
  | redirect a b =>
    obtain ⟨ha, hb⟩ := hop
    obtain ⟨n, hn⟩ := primary_terminates hi b hb
    refine ⟨n, fun fuel hf => ?_⟩
    obtain ⟨⟨s1, t⟩, hp⟩ := Option.isSome_iff_exists.1 (hn fuel hf)
    obtain ⟨d1, d2, d3, d4, ⟨T0, d5, d5'⟩, -⟩ := primary_spec hi _ _ _ _ hp
    obtain ⟨T, hT, hTt⟩ := (d3 _ _ d2).root
    have hs1 : (s1 a).isSome := by rw [d4]; exact ha
    obtain ⟨A, hA⟩ := Option.isSome_iff_exists.1 hs1
    obtain ⟨k, rfl⟩ : ∃ k, fuel = k + 1 := by
      cases fuel with
      | zero => simp [primary] at hp
      | succ k => exact ⟨k, rfl⟩
    simp only [rstep, redirect, hp, hA]
    split
    · rfl
    · rename_i hne
      have hc := d1.con a A hA
      have hnd : ¬ (A.redirect = a ∧ A.constructed = false) := by
        rintro ⟨h1, h2⟩
        rw [hc.2 h1] at h2
        simp at h2
      rw [if_neg hnd]
      have hat : b ≠ a := by
        rintro rfl
        rw [d5] at hA
        obtain rfl := Option.some.inj hA
        exact hne d5'.symm
      have hta : t ≠ a := by
        rintro rfl
        rw [hT] at hA
        obtain rfl := Option.some.inj hA
        exact hne hTt.symm
      by_cases hroot : A.redirect = a
      · simp [hroot, primary, RHeap.set, hat, d5, d5', hta, hT, hTt]
      · simp [hroot, primary, d5, d5', hT, hTt, hA]

/-- A run of operations with a fixed step budget. -/
def rrun (fuel : Nat) : RHeap → List ROp → Option RHeap
  | s, [] => some s
  | s, op :: ops => (rstep s fuel op).bind fun s => rrun fuel s ops

/-- A chain 1 → 2 → 3 and what it accesses. -/
example : ((rrun 9 (fun _ => none) [.create 1, .create 2, .create 3, .redirect 1 2, .redirect 2 3]).bind
    fun s => (deref s 9 1).map fun p => (s 1, p.1 1, p.2)) =
    some (some ⟨2, false⟩, some ⟨3, false⟩, 3) := by decide

/-- The stronger reading of C46 is false: whether object 1 follows a later
`Redirect` of object 2 depends on whether it was dereferenced in between. -/
theorem C46_history_false :
    ((rrun 9 (fun _ => none) [.create 1, .create 2, .create 3, .create 4, .redirect 1 2,
      .redirect 2 3, .redirect 2 4]).bind fun s => primaryConst s 9 1) = some 4 ∧
    ((rrun 9 (fun _ => none) [.create 1, .create 2, .create 3, .create 4, .redirect 1 2,
      .redirect 2 3, .deref 1, .redirect 2 4]).bind fun s => primaryConst s 9 1) = some 3 := by decide

end Walnut.Props
