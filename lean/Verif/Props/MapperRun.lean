/-
The entries of the mapper after a number of calls.
-/
import Verif.Props.MapperLemmas

namespace Walnut.Props
open Walnut.Util Walnut.Poly Walnut.Geom Relation

variable {δ : Type} [DecidableEq δ]

/-! ### Equivalences with one more pair -/

theorem eqv_add {R : δ → δ → Prop} {d d' u v : δ} :
    EqvGen (fun u v => R u v ∨ (u = d ∧ v = d')) u v ↔
      EqvGen R u v ∨ (EqvGen R u d ∧ EqvGen R v d') ∨ (EqvGen R u d' ∧ EqvGen R v d) := by
  constructor
  · intro h
    induction h with
    | rel u v h =>
      rcases h with h | ⟨rfl, rfl⟩
      · exact Or.inl (.rel _ _ h)
      · exact Or.inr (Or.inl ⟨.refl _, .refl _⟩)
    | refl u => exact Or.inl (.refl _)
    | symm u v _ ih =>
      rcases ih with h | ⟨h1, h2⟩ | ⟨h1, h2⟩
      · exact Or.inl (.symm _ _ h)
      · exact Or.inr (Or.inr ⟨h2, h1⟩)
      · exact Or.inr (Or.inl ⟨h2, h1⟩)
    | trans u v w _ _ ih1 ih2 =>
      rcases ih1 with h | ⟨h1, h2⟩ | ⟨h1, h2⟩ <;> rcases ih2 with k | ⟨k1, k2⟩ | ⟨k1, k2⟩
      · exact Or.inl (.trans _ _ _ h k)
      · exact Or.inr (Or.inl ⟨.trans _ _ _ h k1, k2⟩)
      · exact Or.inr (Or.inr ⟨.trans _ _ _ h k1, k2⟩)
      · exact Or.inr (Or.inl ⟨h1, .trans _ _ _ (.symm _ _ k) h2⟩)
      · exact Or.inr (Or.inl ⟨h1, k2⟩)
      · exact Or.inl (.trans _ _ _ h1 (.symm _ _ k2))
      · exact Or.inr (Or.inr ⟨h1, .trans _ _ _ (.symm _ _ k) h2⟩)
      · exact Or.inl (.trans _ _ _ h1 (.symm _ _ k2))
      · exact Or.inr (Or.inr ⟨h1, k2⟩)
  · have mono : ∀ {u v}, EqvGen R u v → EqvGen (fun u v => R u v ∨ (u = d ∧ v = d')) u v :=
      fun h => h.mono fun _ _ h => Or.inl h
    have base : EqvGen (fun u v => R u v ∨ (u = d ∧ v = d')) d d' := .rel _ _ (Or.inr ⟨rfl, rfl⟩)
    rintro (h | ⟨h1, h2⟩ | ⟨h1, h2⟩)
    · exact mono h
    · exact .trans _ _ _ (mono h1) (.trans _ _ _ base (.symm _ _ (mono h2)))
    · exact .trans _ _ _ (mono h1) (.trans _ _ _ (.symm _ _ base) (.symm _ _ (mono h2)))

theorem eqv_fresh {R : δ → δ → Prop} {d : δ} (h : ∀ u v, R u v → u ≠ d ∧ v ≠ d) {u v : δ} (he : EqvGen R u v) : u = d ↔ v = d := by
  induction he with
  | rel u v he => exact iff_of_false (h _ _ he).1 (h _ _ he).2
  | refl u => exact Iff.rfl
  | symm u v _ ih => exact ih.symm
  | trans u v w _ _ ih1 ih2 => exact ih1.trans ih2

/-! ### New objects -/

theorem fresh_accesses {s : RHeap} {n : Nat} (hn : s n = none) (B : RNode) {b x : Nat} (h : Accesses s b x) :
    Accesses (s.set n (some B)) b x := by
  induction h with
  | own b C hC hr =>
    refine .own b C ?_ hr
    have : b ≠ n := by rintro rfl; rw [hn] at hC; cases hC
    simp [RHeap.set, this, hC]
  | via b r C hC hr _ ih =>
    have : b ≠ n := by rintro rfl; rw [hn] at hC; cases hC
    exact .via b r C (by simp [RHeap.set, this, hC]) hr ih

/-- What holds for the entries, if `K` are the points that were seen and `R` the pairs of
points that were seen at the same vertex. -/
structure MInv (m : Mapper δ) (K : δ → Prop) (R : δ → δ → Prop) : Prop where
  inv : RInv m.heap
  addr : ∀ e ∈ m.map, e.2 < m.map.length
  inj : ∀ e ∈ m.map, ∀ e' ∈ m.map, e.2 = e'.2 → e = e'
  key : ∀ e ∈ m.map, ∀ e' ∈ m.map, e.1 = e'.1 → e = e'
  all : ∀ a, a < m.map.length → ∃ d, (d, a) ∈ m.map
  live : ∀ a, (m.heap a).isSome ↔ a < m.map.length
  keys : ∀ d, (∃ a, (d, a) ∈ m.map) ↔ K d
  rel : ∀ u v, R u v → K u ∧ K v
  same : ∀ u v a b, (u, a) ∈ m.map → (v, b) ∈ m.map → (SameValue m.heap a b ↔ EqvGen R u v)

theorem MInv.congr {m : Mapper δ} {K K' : δ → Prop} {R R' : δ → δ → Prop} (h : MInv m K R) (hK : ∀ d, K' d ↔ K d)
    (hR : ∀ u v, R' u v ↔ R u v) : MInv m K' R' := by
  obtain rfl : K = K' := by funext d; exact propext (hK d).symm
  obtain rfl : R = R' := by funext u v; exact propext (hR u v).symm
  exact h

theorem MInv.found {m : Mapper δ} {K : δ → Prop} {R : δ → δ → Prop} (h : MInv m K R) {d : δ} {a : Nat} :
    m.find d = some a ↔ (d, a) ∈ m.map := by
  unfold Mapper.find
  rw [Option.map_eq_some_iff]
  constructor
  · rintro ⟨e, he, rfl⟩
    have h1 := List.mem_of_find?_eq_some he
    have h2 : e.1 = d := by simpa using List.find?_some he
    rw [← h2]; exact h1
  · intro hm
    cases hf : m.map.find? fun e => decide (e.1 = d) with
    | none =>
      have := List.find?_eq_none.1 hf _ hm
      simp at this
    | some e =>
      have h1 := List.mem_of_find?_eq_some hf
      have h2 : e.1 = d := by simpa using List.find?_some hf
      exact ⟨e, rfl, by rw [h.key _ h1 _ hm h2]⟩

theorem MInv.missing {m : Mapper δ} {K : δ → Prop} {R : δ → δ → Prop} (h : MInv m K R) {d : δ} (hd : m.find d = none) : ¬ K d := by
  rw [← h.keys]
  rintro ⟨a, ha⟩
  rw [h.found.2 ha] at hd
  cases hd

theorem empty_inv : MInv (Mapper.empty : Mapper δ) (fun _ => False) (fun _ _ => False) where
  inv := ⟨fun _ _ h => (nomatch h), fun _ _ h => (nomatch h), ⟨fun _ => 0, fun _ _ h => (nomatch h)⟩⟩
  addr := fun _ he => (nomatch he)
  inj := fun _ he => (nomatch he)
  key := fun _ he => (nomatch he)
  all := fun a ha => absurd ha (Nat.not_lt_zero a)
  live := fun a => ⟨fun h => absurd h Bool.false_ne_true, fun h => absurd h (Nat.not_lt_zero a)⟩
  keys := fun _ => ⟨fun ⟨_, h⟩ => (nomatch h), fun h => h.elim⟩
  rel := fun _ _ h => h.elim
  same := fun _ _ _ _ h => (nomatch h)

/-- The map with one more entry. -/
theorem MInv.extend {m : Mapper δ} {K : δ → Prop} {R R' : δ → δ → Prop} (h : MInv m K R) {d : δ} (hd : ¬ K d) {B : RNode}
    (hi : RInv (m.heap.set m.map.length (some B)))
    (hrel : ∀ u v, R' u v → (K u ∨ u = d) ∧ (K v ∨ v = d))
    (hold : ∀ u v, K u → K v → (EqvGen R' u v ↔ EqvGen R u v))
    (hnew : ∀ v b, (v, b) ∈ m.map → (SameValue (m.heap.set m.map.length (some B)) m.map.length b ↔ EqvGen R' d v)) :
    MInv ⟨m.heap.set m.map.length (some B), m.map ++ [(d, m.map.length)]⟩ (fun k => K k ∨ k = d) R' := by
  have hn : m.heap m.map.length = none := by
    cases hc : m.heap m.map.length with
    | none => rfl
    | some X => exact absurd ((h.live _).1 (by rw [hc]; rfl)) (by omega)
  have mem : ∀ {e : δ × Nat}, e ∈ m.map ++ [(d, m.map.length)] ↔ e ∈ m.map ∨ e = (d, m.map.length) := by
    intro e; rw [List.mem_append, List.mem_singleton]
  have len : (m.map ++ [(d, m.map.length)]).length = m.map.length + 1 := by rw [List.length_append]; rfl
  have hk : ∀ {e}, e ∈ m.map → K e.1 := fun {e} he => (h.keys _).1 ⟨e.2, he⟩
  refine ⟨hi, ?_, ?_, ?_, ?_, ?_, ?_, hrel, ?_⟩
  · intro e he
    dsimp only at he ⊢
    rw [len]
    rcases mem.1 he with he | rfl
    · have := h.addr _ he; omega
    · dsimp only; omega
  · intro e he e' he' hee
    rcases mem.1 he with he | rfl <;> rcases mem.1 he' with he' | rfl
    · exact h.inj _ he _ he' hee
    · have := h.addr _ he; dsimp only at hee; omega
    · have := h.addr _ he'; dsimp only at hee; omega
    · rfl
  · intro e he e' he' hee
    rcases mem.1 he with he | rfl <;> rcases mem.1 he' with he' | rfl
    · exact h.key _ he _ he' hee
    · exact absurd (by have := hk he; rw [hee] at this; exact this) hd
    · exact absurd (by have := hk he'; rw [← hee] at this; exact this) hd
    · rfl
  · intro a ha
    dsimp only at ha ⊢
    rw [len] at ha
    rcases Nat.lt_succ_iff_lt_or_eq.1 ha with ha | rfl
    · obtain ⟨d', hd'⟩ := h.all a ha
      exact ⟨d', mem.2 (Or.inl hd')⟩
    · exact ⟨d, mem.2 (Or.inr rfl)⟩
  · intro a
    dsimp only
    rw [len]
    simp only [RHeap.set]
    split
    · rename_i hc; subst hc; exact ⟨fun _ => by omega, fun _ => rfl⟩
    · rename_i hc; rw [h.live]; omega
  · intro k
    dsimp only
    constructor
    · rintro ⟨a, ha⟩
      rcases mem.1 ha with ha | ha
      · exact Or.inl (hk ha)
      · exact Or.inr (Prod.mk.inj ha).1
    · rintro (hk | rfl)
      · obtain ⟨a, ha⟩ := (h.keys _).2 hk
        exact ⟨a, mem.2 (Or.inl ha)⟩
      · exact ⟨_, mem.2 (Or.inr rfl)⟩
  · intro u v a b ha hb
    dsimp only at ha hb ⊢
    rcases mem.1 ha with ha1 | ha1 <;> rcases mem.1 hb with hb1 | hb1
    · rw [same_of_preserved h.inv (fun b x hb => fresh_accesses hn B hb) ((h.live _).2 (h.addr _ ha1)) ((h.live _).2 (h.addr _ hb1)),
        h.same _ _ _ _ ha1 hb1, hold _ _ (hk ha1) (hk hb1)]
    · obtain ⟨e1, e2⟩ := Prod.mk.inj hb1
      rw [e1, e2]
      have := hnew _ _ ha1
      exact ⟨fun hs => .symm _ _ (this.1 hs.symm), fun he => (this.2 (.symm _ _ he)).symm⟩
    · obtain ⟨e1, e2⟩ := Prod.mk.inj ha1
      rw [e1, e2]
      exact hnew _ _ hb1
    · obtain ⟨e1, e2⟩ := Prod.mk.inj ha1
      obtain ⟨e3, e4⟩ := Prod.mk.inj hb1
      rw [e1, e2, e3, e4]
      refine iff_of_true ?_ (.refl _)
      obtain ⟨r, hr⟩ := hi.accesses m.map.length (by simp [RHeap.set])
      exact ⟨r, hr, hr⟩

theorem entry_step {m : Mapper δ} {K : δ → Prop} {R : δ → δ → Prop} (h : MInv m K R) (d : δ) :
    ∃ m' a, (∀ fuel, m.entry fuel d = some (m', a)) ∧ MInv m' (fun k => K k ∨ k = d) R ∧ (d, a) ∈ m'.map := by
  unfold Mapper.entry
  cases hf : m.find d with
  | some a =>
    have ha := h.found.1 hf
    refine ⟨m, a, fun _ => rfl, h.congr (fun k => ?_) (fun _ _ => Iff.rfl), ha⟩
    exact ⟨fun hk => hk.elim id fun hk => by subst hk; exact (h.keys _).1 ⟨_, ha⟩, Or.inl⟩
  | none =>
    have hd := h.missing hf
    have hn : m.heap m.map.length = none := by
      cases hc : m.heap m.map.length with
      | none => rfl
      | some X => exact absurd ((h.live _).1 (by rw [hc]; rfl)) (by omega)
    have hs : ∀ fuel, rstep m.heap fuel (.create m.map.length) = some (m.heap.set m.map.length (some ⟨m.map.length, true⟩)) := by
      intro fuel
      simp [rstep, hn]
    refine ⟨⟨m.heap.set m.map.length (some ⟨m.map.length, true⟩), m.map ++ [(d, m.map.length)]⟩, m.map.length, fun fuel => ?_, ?_, by simp⟩
    · unfold Mapper.emplace
      rw [hs]
      rfl
    · have fresh : ∀ u v, R u v → u ≠ d ∧ v ≠ d := fun u v huv =>
        ⟨by rintro rfl; exact hd (h.rel _ _ huv).1, by rintro rfl; exact hd (h.rel _ _ huv).2⟩
      have acc : Accesses (m.heap.set m.map.length (some ⟨m.map.length, true⟩)) m.map.length m.map.length :=
        .own _ ⟨m.map.length, true⟩ (by simp [RHeap.set]) rfl
      refine h.extend hd (rinv_step h.inv 0 (.create m.map.length) hn (hs 0)) (fun u v huv => ⟨Or.inl (h.rel _ _ huv).1, Or.inl (h.rel _ _ huv).2⟩)
        (fun _ _ _ _ => Iff.rfl) ?_
      intro v b hb
      refine iff_of_false ?_ ?_
      · rintro ⟨r, h1, h2⟩
        obtain rfl := acc.det h1
        obtain ⟨x, hx⟩ := h.inv.accesses b ((h.live _).2 (h.addr _ hb))
        obtain rfl := (fresh_accesses hn _ hx).det h2
        obtain ⟨X, hX, -⟩ := hx.root
        rw [hn] at hX; cases hX
      · intro he
        have := (eqv_fresh fresh he).1 rfl
        subst this
        exact hd ((h.keys _).1 ⟨_, hb⟩)

theorem join_step {merger : Nat → RHeap → Nat → Nat → Option RHeap} {m : Mapper δ} {K : δ → Prop} {R : δ → δ → Prop} (h : MInv m K R)
    {d : δ} {a : Nat} (ha : (d, a) ∈ m.map) (d' : δ)
    (hU : ∀ b, (d', b) ∈ m.map → ¬ SameValue m.heap a b → UnitesAt merger m.heap a b) :
    ∃ N m', (∀ fuel, N ≤ fuel → m.join merger fuel d a d' = some m') ∧
      MInv m' (fun k => K k ∨ k = d') (fun u v => R u v ∨ (u = d ∧ v = d')) ∧ (d, a) ∈ m'.map := by
  have hKd : K d := (h.keys _).1 ⟨a, ha⟩
  have la := (h.live _).2 (h.addr _ ha)
  unfold Mapper.join
  by_cases hdd : d' = d
  · subst hdd
    refine ⟨0, m, fun _ _ => if_pos rfl, ⟨h.inv, h.addr, h.inj, h.key, h.all, h.live, ?_, ?_, ?_⟩, ha⟩
    · intro k
      rw [h.keys]
      exact ⟨Or.inl, fun hk => hk.elim id fun hk => by subst hk; exact hKd⟩
    · rintro u v (huv | ⟨rfl, rfl⟩)
      · exact ⟨Or.inl (h.rel _ _ huv).1, Or.inl (h.rel _ _ huv).2⟩
      · exact ⟨Or.inl hKd, Or.inl hKd⟩
    · intro u v a b ha hb
      rw [h.same _ _ _ _ ha hb, eqv_add]
      constructor
      · exact Or.inl
      · rintro (he | ⟨h1, h2⟩ | ⟨h1, h2⟩)
        · exact he
        · exact .trans _ _ _ h1 (.symm _ _ h2)
        · exact .trans _ _ _ h1 (.symm _ _ h2)
  · simp only [if_neg hdd]
    cases hf : m.find d' with
    | none =>
      have hd := h.missing hf
      have hn : m.heap m.map.length = none := by
        cases hc : m.heap m.map.length with
        | none => rfl
        | some X => exact absurd ((h.live _).1 (by rw [hc]; rfl)) (by omega)
      obtain ⟨A, hA⟩ := Option.isSome_iff_exists.1 la
      have hs : ∀ fuel, rstep m.heap fuel (.copy m.map.length a) = some (m.heap.set m.map.length (some ⟨A.redirect, false⟩)) := by
        intro fuel
        simp [rstep, hn, hA]
      have fresh : ∀ u v, R u v → u ≠ d' ∧ v ≠ d' := fun u v huv =>
        ⟨by rintro rfl; exact hd (h.rel _ _ huv).1, by rintro rfl; exact hd (h.rel _ _ huv).2⟩
      refine ⟨0, ⟨m.heap.set m.map.length (some ⟨A.redirect, false⟩), m.map ++ [(d', m.map.length)]⟩, fun fuel _ => ?_, ?_, ?_⟩
      · dsimp only
        unfold Mapper.emplace
        rw [hs]
        rfl
      · have hne : A.redirect ≠ m.map.length := by
          intro hc
          have := (h.live _).1 (h.inv.live a A hA)
          omega
        obtain ⟨r, hr⟩ := h.inv.accesses a la
        have hAr : Accesses m.heap A.redirect r := by
          cases hr with
          | own _ A' hA' hr' =>
            rw [hA] at hA'
            obtain rfl := Option.some.inj hA'
            rw [hr']; exact .own _ A hA hr'
          | via _ _ A' hA' hr' hx =>
            rw [hA] at hA'
            obtain rfl := Option.some.inj hA'
            exact hx
        have acc : Accesses (m.heap.set m.map.length (some ⟨A.redirect, false⟩)) m.map.length r :=
          .via _ r ⟨A.redirect, false⟩ (by simp [RHeap.set]) hne (fresh_accesses hn _ hAr)
        refine h.extend hd (rinv_step h.inv 0 (.copy m.map.length a) ⟨hn, la⟩ (hs 0)) ?_ ?_ ?_
        · rintro u v (huv | ⟨rfl, rfl⟩)
          · exact ⟨Or.inl (h.rel _ _ huv).1, Or.inl (h.rel _ _ huv).2⟩
          · exact ⟨Or.inl hKd, Or.inr rfl⟩
        · intro u v hu hv
          rw [eqv_add]
          constructor
          · rintro (he | ⟨h1, h2⟩ | ⟨h1, h2⟩)
            · exact he
            · exact absurd ((eqv_fresh fresh h2).2 rfl) (by rintro rfl; exact hd hv)
            · exact absurd ((eqv_fresh fresh h1).2 rfl) (by rintro rfl; exact hd hu)
          · exact Or.inl
        · intro v b hb
          have hv : v ≠ d' := by rintro rfl; exact hd ((h.keys _).1 ⟨_, hb⟩)
          rw [eqv_add]
          constructor
          · rintro ⟨x, h1, h2⟩
            obtain rfl := acc.det h1
            obtain ⟨y, hy⟩ := h.inv.accesses b ((h.live _).2 (h.addr _ hb))
            obtain rfl := (fresh_accesses hn _ hy).det h2
            exact Or.inr (Or.inr ⟨.refl _, .symm _ _ ((h.same _ _ _ _ ha hb).1 ⟨y, hr, hy⟩)⟩)
          · rintro (he | ⟨h1, h2⟩ | ⟨h1, h2⟩)
            · exact absurd ((eqv_fresh fresh he).1 rfl) hv
            · exact absurd ((eqv_fresh fresh h2).2 rfl) hv
            · obtain ⟨x, h3, h4⟩ := (h.same _ _ _ _ ha hb).2 (.symm _ _ h2)
              obtain rfl := hr.det h3
              exact ⟨r, acc, fresh_accesses hn _ h4⟩
      · dsimp only
        rw [List.mem_append]; exact Or.inl ha
    | some b =>
      have hb := h.found.1 hf
      have lb := (h.live _).2 (h.addr _ hb)
      have hKd' : K d' := (h.keys _).1 ⟨b, hb⟩
      obtain ⟨r, hr⟩ := h.inv.accesses a la
      obtain ⟨r', hr'⟩ := h.inv.accesses b lb
      obtain ⟨n, hn⟩ := primaryConst_accesses hr
      obtain ⟨n', hn'⟩ := primaryConst_accesses hr'
      have keys' : ∀ k, (K k ∨ k = d') ↔ K k := fun k => ⟨fun hk => hk.elim id fun hk => by subst hk; exact hKd', Or.inl⟩
      have rel' : ∀ u v, (R u v ∨ (u = d ∧ v = d')) → (K u ∨ u = d') ∧ (K v ∨ v = d') := by
        rintro u v (huv | ⟨rfl, rfl⟩)
        · exact ⟨Or.inl (h.rel _ _ huv).1, Or.inl (h.rel _ _ huv).2⟩
        · exact ⟨Or.inl hKd, Or.inr rfl⟩
      by_cases hrr : r' = r
      · subst hrr
        have he : EqvGen R d d' := (h.same _ _ _ _ ha hb).1 ⟨r', hr, hr'⟩
        refine ⟨max n n', m, fun fuel hfu => ?_, ⟨h.inv, h.addr, h.inj, h.key, h.all, h.live, ?_, rel', ?_⟩, ha⟩
        · dsimp only
          rw [hn fuel (by omega), hn' fuel (by omega), Option.bind_some, Option.bind_some, if_pos rfl]
        · intro k; rw [h.keys, keys']
        · intro u v a b ha hb
          rw [h.same _ _ _ _ ha hb, eqv_add]
          constructor
          · exact Or.inl
          · rintro (he' | ⟨h1, h2⟩ | ⟨h1, h2⟩)
            · exact he'
            · exact .trans _ _ _ h1 (.trans _ _ _ he (.symm _ _ h2))
            · exact .trans _ _ _ h1 (.trans _ _ _ (.symm _ _ he) (.symm _ _ h2))
      · have hab : ¬ SameValue m.heap a b := by
          rintro ⟨x, h1, h2⟩
          exact hrr ((hr'.det h2).trans (hr.det h1).symm)
        obtain ⟨N, s', g1, g2, g3, g4⟩ := hU b hb hab
        refine ⟨max (max n n') N, { m with heap := s' }, fun fuel hfu => ?_,
          ⟨g2, h.addr, h.inj, h.key, h.all, fun c => ?_, ?_, rel', ?_⟩, ha⟩
        · dsimp only
          rw [hn fuel (by omega), hn' fuel (by omega), Option.bind_some, Option.bind_some, if_neg hrr, g1 fuel (by omega)]
          rfl
        · dsimp only
          rw [g3]; exact h.live c
        · intro k; dsimp only; rw [h.keys, keys']
        · intro u v c e hc he
          dsimp only at hc he ⊢
          rw [g4, h.same _ _ _ _ hc he, h.same _ _ _ _ hc ha, h.same _ _ _ _ he hb, h.same _ _ _ _ hc hb, h.same _ _ _ _ he ha, eqv_add]

/-- The points of the edges in `l` and of the next edges around their vertices. -/
def SeenPoint (W : World) (D : HP3 → δ) (l : List Nat) (d : δ) : Prop :=
  ∃ x ∈ l, ∃ e, W.edge x = some e ∧ (d = D e.vertex ∨ ∃ y f, W.nextAround x = some (some y) ∧ W.edge y = some f ∧ d = D f.vertex)

/-- The points `u` and `v` are those of an edge in `l` and of the next edge around its vertex. -/
def SeenPair (W : World) (D : HP3 → δ) (l : List Nat) (u v : δ) : Prop :=
  ∃ x ∈ l, ∃ y e f, W.edge x = some e ∧ W.nextAround x = some (some y) ∧ W.edge y = some f ∧ u = D e.vertex ∧ v = D f.vertex

/-- The calls that `Map` makes for `x` are defined. -/
def MapUsable (W : World) (x : Nat) : Prop :=
  ∃ e, W.edge x = some e ∧ (W.nextAround x = some none ∨ ∃ y f, W.nextAround x = some (some y) ∧ W.edge y = some f)

theorem mapEdge_step {merger : Nat → RHeap → Nat → Nat → Option RHeap} {W : World} {D : HP3 → δ} {done : List Nat} {m : Mapper δ}
    (h : MInv m (SeenPoint W D done) (SeenPair W D done)) {x : Nat} (hx : MapUsable W x) (Rt : δ → δ → Prop)
    (hd : ∀ u v, SeenPair W D done u v → Rt u v) (hxt : ∀ u v, SeenPair W D [x] u v → Rt u v)
    (hU : ∀ (m : Mapper δ) K R, MInv m K R → (∀ u v, R u v → Rt u v) → ∀ d a d' b, (d, a) ∈ m.map → (d', b) ∈ m.map → Rt d d' →
      ¬ SameValue m.heap a b → UnitesAt merger m.heap a b) :
    ∃ N m' a, (∀ fuel, N ≤ fuel → m.mapEdge merger W D fuel x = some (m', a)) ∧
      MInv m' (SeenPoint W D (done ++ [x])) (SeenPair W D (done ++ [x])) ∧ ∃ e, W.edge x = some e ∧ (D e.vertex, a) ∈ m'.map := by
  obtain ⟨e, he, hx⟩ := hx
  obtain ⟨m1, a, h1, h2, h3⟩ := entry_step h (D e.vertex)
  rcases hx with hx | ⟨y, f, hy, hf⟩
  · refine ⟨0, m1, a, fun fuel _ => ?_, h2.congr (fun d => ?_) (fun u v => ?_), e, he, h3⟩
    · unfold Mapper.mapEdge
      rw [he, Option.bind_some, h1, Option.bind_some]
      dsimp only
      rw [hx, Option.bind_some]
    · unfold SeenPoint
      constructor
      · rintro ⟨z, hz, g, hg, hd⟩
        rcases List.mem_append.1 hz with hz | hz
        · exact Or.inl ⟨z, hz, g, hg, hd⟩
        · rw [List.mem_singleton] at hz
          subst hz
          rw [he, Option.some.injEq] at hg
          subst hg
          rcases hd with hd | ⟨y, f, hy, -⟩
          · exact Or.inr hd
          · rw [hx] at hy; cases hy
      · rintro (⟨z, hz, g⟩ | hd)
        · exact ⟨z, List.mem_append_left _ hz, g⟩
        · exact ⟨x, List.mem_append_right _ (List.mem_singleton_self x), e, he, Or.inl hd⟩
    · unfold SeenPair
      constructor
      · rintro ⟨z, hz, y, g, f, hg, hy, hr⟩
        rcases List.mem_append.1 hz with hz | hz
        · exact ⟨z, hz, y, g, f, hg, hy, hr⟩
        · rw [List.mem_singleton] at hz
          subst hz
          rw [hx] at hy; cases hy
      · rintro ⟨z, hz, g⟩
        exact ⟨z, List.mem_append_left _ hz, g⟩
  · have hxs : SeenPair W D [x] (D e.vertex) (D f.vertex) := ⟨x, List.mem_singleton_self x, y, e, f, he, hy, hf, rfl, rfl⟩
    obtain ⟨N, m2, k1, k2, k3⟩ := join_step (merger := merger) h2 h3 (D f.vertex)
      (fun b hb hab => hU m1 _ _ h2 hd _ _ _ _ h3 hb (hxt _ _ hxs) hab)
    refine ⟨N, m2, a, fun fuel hfu => ?_, k2.congr (fun d => ?_) (fun u v => ?_), e, he, k3⟩
    · unfold Mapper.mapEdge
      rw [he, Option.bind_some, h1, Option.bind_some]
      dsimp only
      rw [hy, Option.bind_some]
      dsimp only
      rw [hf, Option.bind_some, k1 fuel hfu]
      rfl
    · unfold SeenPoint
      constructor
      · rintro ⟨z, hz, g, hg, hd⟩
        rcases List.mem_append.1 hz with hz | hz
        · exact Or.inl (Or.inl ⟨z, hz, g, hg, hd⟩)
        · rw [List.mem_singleton] at hz
          subst hz
          rw [he, Option.some.injEq] at hg
          subst hg
          rcases hd with hd | ⟨y', f', hy', hf', hd⟩
          · exact Or.inl (Or.inr hd)
          · rw [hy, Option.some.injEq, Option.some.injEq] at hy'
            subst hy'
            rw [hf, Option.some.injEq] at hf'
            subst hf'
            exact Or.inr hd
      · rintro ((⟨z, hz, g⟩ | hd) | hd)
        · exact ⟨z, List.mem_append_left _ hz, g⟩
        · exact ⟨x, List.mem_append_right _ (List.mem_singleton_self x), e, he, Or.inl hd⟩
        · exact ⟨x, List.mem_append_right _ (List.mem_singleton_self x), e, he, Or.inr ⟨y, f, hy, hf, hd⟩⟩
    · unfold SeenPair
      constructor
      · rintro ⟨z, hz, y', g, f', hg, hy', hf', hu, hv⟩
        rcases List.mem_append.1 hz with hz | hz
        · exact Or.inl ⟨z, hz, y', g, f', hg, hy', hf', hu, hv⟩
        · rw [List.mem_singleton] at hz
          subst hz
          rw [he, Option.some.injEq] at hg
          subst hg
          rw [hy, Option.some.injEq, Option.some.injEq] at hy'
          subst hy'
          rw [hf, Option.some.injEq] at hf'
          subst hf'
          exact Or.inr ⟨hu, hv⟩
      · rintro (⟨z, hz, g⟩ | ⟨hu, hv⟩)
        · exact ⟨z, List.mem_append_left _ hz, g⟩
        · exact ⟨x, List.mem_append_right _ (List.mem_singleton_self x), y, e, f, he, hy, hf, hu, hv⟩

theorem mapAll_run {merger : Nat → RHeap → Nat → Nat → Option RHeap} {W : World} {D : HP3 → δ} (Rt : δ → δ → Prop)
    (hU : ∀ (m : Mapper δ) K R, MInv m K R → (∀ u v, R u v → Rt u v) → ∀ d a d' b, (d, a) ∈ m.map → (d', b) ∈ m.map → Rt d d' →
      ¬ SameValue m.heap a b → UnitesAt merger m.heap a b) (l : List Nat) :
    ∀ (done : List Nat) (m : Mapper δ), MInv m (SeenPoint W D done) (SeenPair W D done) → (∀ x ∈ l, MapUsable W x) →
      (∀ u v, SeenPair W D (done ++ l) u v → Rt u v) →
      ∃ N m', (∀ fuel, N ≤ fuel → Mapper.mapAll merger W D fuel m l = some m') ∧
        MInv m' (SeenPoint W D (done ++ l)) (SeenPair W D (done ++ l)) := by
  induction l with
  | nil =>
    intro done m h _ _
    exact ⟨0, m, fun _ _ => rfl, by rw [List.append_nil]; exact h⟩
  | cons x l ih =>
    intro done m h hx hR
    have mono : ∀ {l1 l2 : List Nat}, l1 ⊆ l2 → ∀ u v, SeenPair W D l1 u v → SeenPair W D l2 u v := by
      rintro l1 l2 hl u v ⟨z, hz, g⟩
      exact ⟨z, hl hz, g⟩
    obtain ⟨N, m1, a, h1, h2, -⟩ := mapEdge_step (merger := merger) h (hx x List.mem_cons_self) Rt
      (fun u v huv => hR u v (mono (List.subset_append_left _ _) u v huv))
      (fun u v huv => hR u v (mono (by intro z hz; rw [List.mem_singleton] at hz; subst hz; simp) u v huv)) hU
    rw [← List.singleton_append, ← List.append_assoc] at hR ⊢
    obtain ⟨N', m2, h3, h4⟩ := ih (done ++ [x]) m1 h2 (fun z hz => hx z (List.mem_cons_of_mem _ hz)) hR
    refine ⟨max N N', m2, fun fuel hf => ?_, h4⟩
    rw [List.singleton_append, Mapper.mapAll, h1 fuel (by omega), Option.bind_some]
    exact h3 fuel (by omega)

theorem mapAll_empty {merger : Nat → RHeap → Nat → Nat → Option RHeap} {W : World} {D : HP3 → δ} (l : List Nat) (hl : ∀ x ∈ l, MapUsable W x)
    (hU : ∀ (m : Mapper δ) K R, MInv m K R → (∀ u v, R u v → SeenPair W D l u v) → ∀ d a d' b, (d, a) ∈ m.map → (d', b) ∈ m.map →
      SeenPair W D l d d' → ¬ SameValue m.heap a b → UnitesAt merger m.heap a b) :
    ∃ N m', (∀ fuel, N ≤ fuel → Mapper.mapAll merger W D fuel Mapper.empty l = some m') ∧ MInv m' (SeenPoint W D l) (SeenPair W D l) := by
  refine mapAll_run (SeenPair W D l) hU l [] Mapper.empty (empty_inv.congr (fun d => ?_) (fun u v => ?_)) hl (fun u v h => h)
  · unfold SeenPoint; simp
  · unfold SeenPair; simp

end Walnut.Props
