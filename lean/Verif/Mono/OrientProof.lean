/-
In a monotone polygon whose chains do not cross, all emitted triangles are
counter-clockwise.
-/
import Verif.Mono.TriangulateProof
import Verif.Props.Rational

namespace Walnut.Mono
open Walnut.Geom

/-- Vertices the arithmetic works for: finite with a positive denominator, and the
number of words of each number is a `size_t`. -/
structure Tame (drop : Fin 3) (vs : List HP3) : Prop where
  pos : ∀ v ∈ vs, 0 < v.w
  fits : ∀ a ∈ vs, ∀ b ∈ vs, ∀ c ∈ vs, (wordsOf (a.twistCross drop b c)).length ≤ 2 ^ 63

theorem Tame.mono {drop : Fin 3} {vs ws : List HP3} (h : Tame drop vs) (hs : ∀ v ∈ ws, v ∈ vs) : Tame drop ws :=
  ⟨fun v hv => h.pos v (hs v hv), fun a ha b hb c hc => h.fits a (hs a ha) b (hs b hb) c (hs c hc)⟩

/-- The turn of three vertices. -/
abbrev T (drop : Fin 3) (a b c : HP3) : ℚ := turnAt drop a.pt b.pt c.pt

theorem Tame.twist {drop : Fin 3} {vs : List HP3} (h : Tame drop vs) {a b c : HP3} (ha : a ∈ vs)
    (hb : b ∈ vs) (hc : c ∈ vs) :
    SameSign (a.get2DTwistDir drop b c).toInt (T drop a b c) ∧
    SameSign (a.get2DTwistDirReduced drop b c) (T drop a b c) := by
  have h1 := h.pos a ha
  have h2 := h.pos b hb
  have h3 := h.pos c hc
  have := Props.C22_twist_partial a b c drop (by omega) (by positivity) (h.fits a ha b hb c hc)
  have e : Props.turn drop b.pt a.pt c.pt = T drop a b c := by
    simp [Props.turn, T, turnAt, cross2Q]
  rwa [e] at this

theorem Tame.comp {drop mono : Fin 3} {vs : List HP3} (h : Tame drop vs) {a b : HP3} (ha : a ∈ vs)
    (hb : b ∈ vs) : a.compareComponent mono b < 0 ↔ a.pt mono < b.pt mono := by
  have h1 := h.pos a ha
  have h2 := h.pos b hb
  exact (Props.C16_compare_component a b mono (by omega) (by omega)).1

theorem turnAt_swap (drop : Fin 3) (p q r : Q3) : turnAt drop q p r = -turnAt drop p q r := by
  simp only [turnAt]; ring

theorem ne_drop {drop mono : Fin 3} (h : mono ≠ drop) : mono = drop + 1 ∨ mono = drop + 2 := by
  revert h; revert drop mono; decide

/-- A chain that turns away, seen from a vertex further on. -/
theorem fan_step {drop mono : Fin 3} (hm : mono ≠ drop) {p q r v : Q3} {σ : ℚ} (h1 : p mono ≤ q mono)
    (h2 : q mono ≤ r mono) (h3 : r mono ≤ v mono) (hr : 0 < σ * turnAt drop p q r)
    (hv : σ * turnAt drop p q v ≤ 0) : σ * turnAt drop q r v ≤ 0 := by
  have key : (q mono - p mono) * turnAt drop q r v =
      (r mono - q mono) * turnAt drop p q v - (v mono - q mono) * turnAt drop p q r := by
    rcases ne_drop hm with h | h <;> subst h <;> simp only [turnAt] <;> ring
  have flat : q mono = p mono → ∃ y, turnAt drop p q r = y * (r mono - p mono) ∧
      turnAt drop p q v = y * (v mono - p mono) := by
    intro he
    rcases ne_drop hm with h | h <;> subst h
    · exact ⟨-(q (drop + 2) - p (drop + 2)), by simp only [turnAt, he]; ring, by simp only [turnAt, he]; ring⟩
    · exact ⟨(q (drop + 1) - p (drop + 1)), by simp only [turnAt, he]; ring, by simp only [turnAt, he]; ring⟩
  rcases eq_or_lt_of_le h1 with he | hlt
  · exfalso
    obtain ⟨y, e1, e2⟩ := flat he.symm
    rw [e1] at hr
    rw [e2] at hv
    have hr' : 0 < σ * y * (r mono - p mono) := by rw [mul_assoc]; exact hr
    have hv' : σ * y * (v mono - p mono) ≤ 0 := by rw [mul_assoc]; exact hv
    have hrp : 0 ≤ r mono - p mono := by linarith
    have hrp' : 0 < r mono - p mono := by
      rcases eq_or_lt_of_le hrp with h | h
      · rw [← h] at hr'; simp at hr'
      · exact h
    have hs : 0 < σ * y := by
      by_contra hc
      have := mul_nonpos_of_nonpos_of_nonneg (not_lt.1 hc) hrp
      linarith
    have : 0 < σ * y * (v mono - p mono) := mul_pos hs (by linarith)
    linarith
  · have hp : 0 < q mono - p mono := by linarith
    have h5 : (q mono - p mono) * (σ * turnAt drop q r v) ≤ 0 := by
      have e : (q mono - p mono) * (σ * turnAt drop q r v) =
          (r mono - q mono) * (σ * turnAt drop p q v) - (v mono - q mono) * (σ * turnAt drop p q r) := by
        linear_combination σ * key
      rw [e]
      have a1 := mul_nonpos_of_nonneg_of_nonpos (show 0 ≤ r mono - q mono by linarith) hv
      have a2 := mul_nonneg (show 0 ≤ v mono - q mono by linarith) hr.le
      linarith
    by_contra hc
    have := mul_pos hp (not_le.1 hc)
    linarith

/-- The triangle is counter-clockwise or flat. -/
def Tri.Ccw (drop : Fin 3) (t : Tri) : Prop := T drop t.p2 t.p1 t.p3 ≤ 0

/-- The state of the loop of `Build` in a polygon with the chains `upper`, `lower`:
the stack is `stk` and below it `s0`. -/
structure Inv (drop mono : Fin 3) (upper lower : List HP3) (z : HP3) (stk : List HP3) (s0 : HP3) (top : Bool)
    (ts bs : List HP3) : Prop where
  asc : (stk ++ [s0]).Pairwise fun a b => b.pt mono ≤ a.pt mono
  le : ∀ a ∈ stk ++ [s0], ∀ b ∈ ts ++ bs, a.pt mono ≤ b.pt mono
  last : bs.getLast? = some z
  up : ∃ u, (if top then stk.head? = some u else u = s0) ∧ u :: ts ++ [z] <:+ upper
  low : ∃ u, (if top then u = s0 else stk.head? = some u) ∧ u :: bs <:+ lower
  mem : ∀ a ∈ stk, a ∈ if top then upper else lower
  mem0 : s0 ∈ upper ∨ s0 ∈ lower
  reflex : ∀ r q p, [r, q, p] <:+: stk ++ [s0] → 0 < if top then T drop p q r else T drop q p r

/-- What is fixed in a polygon. -/
structure Input (drop mono : Fin 3) (upper lower : List HP3) : Prop where
  ne : mono ≠ drop
  tame : Tame drop (upper ++ lower)
  upAsc : upper.Pairwise fun a b => a.pt mono ≤ b.pt mono
  lowAsc : lower.Pairwise fun a b => a.pt mono ≤ b.pt mono
  below : ∀ u v, [u, v] <:+: upper → ∀ w ∈ lower, u.pt mono ≤ w.pt mono → w.pt mono ≤ v.pt mono →
    T drop w u v ≤ 0
  above : ∀ u v, [u, v] <:+: lower → ∀ w ∈ upper, u.pt mono ≤ w.pt mono → w.pt mono ≤ v.pt mono →
    0 ≤ T drop w u v

/-- The fan of triangles of `SwitchChains` below a lower or above an upper edge. -/
theorem switch_ccw {drop mono : Fin 3} (hm : mono ≠ drop) (top : Bool) (v : HP3) :
    ∀ (l : List HP3) (p q : HP3),
      (l.reverse ++ [q, p]).Pairwise (fun a b => b.pt mono ≤ a.pt mono) →
      (∀ a ∈ l.reverse ++ [q, p], a.pt mono ≤ v.pt mono) →
      (∀ r q' p', [r, q', p'] <:+: l.reverse ++ [q, p] → 0 < if top then T drop p' q' r else T drop q' p' r) →
      (if top then T drop p q v ≤ 0 else T drop q p v ≤ 0) →
      ∀ t ∈ switchTris top v (p :: q :: l), t.Ccw drop := by
  intro l
  induction l with
  | nil =>
    intro p q _ _ _ hf t ht
    cases top <;> simp [switchTris] at ht hf <;> subst ht <;> exact hf
  | cons r l ih =>
    intro p q hasc hle href hf t ht
    rw [switchTris] at ht
    rcases List.mem_cons.1 ht with h | h
    · cases top <;> simp at h hf <;> subst h <;> exact hf
    · have hsub : l.reverse ++ [r, q] <+: (r :: l).reverse ++ [q, p] := ⟨[p], by simp⟩
      have h1 := href r q p ⟨l.reverse, [], by simp⟩
      have hasc' : (l.reverse ++ [r, q, p]).Pairwise (fun a b => b.pt mono ≤ a.pt mono) := by
        simpa using hasc
      have h3 : ([r, q, p] : List HP3).Pairwise (fun a b => b.pt mono ≤ a.pt mono) :=
        (List.pairwise_append.1 hasc').2.1
      simp at h3
      have hrv := hle r (by simp)
      refine ih q r (hasc.sublist hsub.sublist) (fun a ha => hle a (hsub.subset ha))
        (fun x y w hw => href x y w (hw.trans hsub.isInfix)) ?_ t h
      cases top
      · simp only [Bool.false_eq_true, if_false] at h1 hf ⊢
        have := fan_step hm (σ := -1) (p := p.pt) (q := q.pt) (r := r.pt) (v := v.pt) h3.2 h3.1.1 hrv
          (by have := turnAt_swap drop p.pt q.pt r.pt; linarith)
          (by have := turnAt_swap drop p.pt q.pt v.pt; linarith)
        have h6 := turnAt_swap drop q.pt r.pt v.pt
        show turnAt drop r.pt q.pt v.pt ≤ 0
        linarith
      · simp only [if_true] at h1 hf ⊢
        have := fan_step hm (σ := 1) (p := p.pt) (q := q.pt) (r := r.pt) (v := v.pt) h3.2 h3.1.1 hrv
          (by linarith) (by linarith)
        show turnAt drop q.pt r.pt v.pt ≤ 0
        linarith

/-- The loop of `ProcessVertex`. -/
theorem pop_spec {drop : Fin 3} {vs : List HP3} (ht : Tame drop vs) (isTop : Bool) (v : HP3) (hv : v ∈ vs) :
    ∀ (stk : List HP3) (s0 : HP3), (∀ a ∈ stk ++ [s0], a ∈ vs) →
      ∃ stk', stk' <:+ stk ∧ (popConvex drop isTop v (stk ++ [s0])).2 = stk' ++ [s0] ∧
        (∀ t ∈ (popConvex drop isTop v (stk ++ [s0])).1, t.Ccw drop) ∧
        ∀ a b, [a, b] <+: stk' ++ [s0] → 0 < if isTop then T drop b a v else T drop a b v := by
  intro stk
  induction stk with
  | nil =>
    intro s0 _
    refine ⟨[], List.suffix_rfl, rfl, by simp [popConvex], ?_⟩
    intro a b h
    have := h.length_le; simp at this
  | cons x r ih =>
    intro s0 hmem
    have hmem' : ∀ a ∈ r ++ [s0], a ∈ vs := fun a ha => hmem a (by simp at ha ⊢; tauto)
    obtain ⟨y, r', hr⟩ : ∃ y r', r ++ [s0] = y :: r' := by
      cases r with
      | nil => exact ⟨s0, [], rfl⟩
      | cons y r' => exact ⟨y, r' ++ [s0], rfl⟩
    have hy : y ∈ vs := hmem' y (by rw [hr]; simp)
    have hx : x ∈ vs := hmem x (by simp)
    obtain ⟨stk', hs, he, hc, hb⟩ := ih s0 hmem'
    rw [List.cons_append, hr, popConvex, ← hr]
    cases isTop
    · simp only [Bool.false_eq_true, if_false]
      have hsg := (ht.twist hx hy hv).1
      split
      · rename_i hle
        refine ⟨stk', hs.trans (List.suffix_cons _ _), he, ?_, fun a b h => hb a b h⟩
        intro t ht
        rcases List.mem_cons.1 ht with h | h
        · subst h
          exact not_lt.1 fun hc => absurd (hsg.2.2.2 hc) (by omega)
        · exact hc t h
      · rename_i hle
        refine ⟨x :: r, List.suffix_rfl, by simp [hr], by simp, ?_⟩
        intro a b h
        rw [List.cons_append, hr] at h
        obtain ⟨e1, h⟩ := List.cons_prefix_cons.1 h
        obtain ⟨e2, h⟩ := List.cons_prefix_cons.1 h
        rw [e1, e2]
        exact hsg.2.2.1 (by omega)
    · simp only [if_true]
      have hsg := (ht.twist hy hx hv).1
      split
      · rename_i hle
        refine ⟨stk', hs.trans (List.suffix_cons _ _), he, ?_, fun a b h => hb a b h⟩
        intro t ht
        rcases List.mem_cons.1 ht with h | h
        · subst h
          exact not_lt.1 fun hc => absurd (hsg.2.2.2 hc) (by omega)
        · exact hc t h
      · rename_i hle
        refine ⟨x :: r, List.suffix_rfl, by simp [hr], by simp, ?_⟩
        intro a b h
        rw [List.cons_append, hr] at h
        obtain ⟨e1, h⟩ := List.cons_prefix_cons.1 h
        obtain ⟨e2, h⟩ := List.cons_prefix_cons.1 h
        rw [e1, e2]
        exact hsg.2.2.1 (by omega)

theorem Input.fan {drop mono : Fin 3} {upper lower : List HP3} (hI : Input drop mono upper lower)
    {z : HP3} {stk : List HP3} {s0 : HP3} {top : Bool} {ts bs : List HP3}
    (h : Inv drop mono upper lower z stk s0 top ts bs) (hne : stk ≠ []) {v : HP3}
    (hv : v ∈ ts ++ bs) (hedge : if top then [s0, v] <:+: lower else [s0, v] <:+: upper) :
    ∀ t ∈ switchTris top v (stk ++ [s0]).reverse, t.Ccw drop := by
  obtain ⟨q, l, hql⟩ : ∃ q l, stk.reverse = q :: l := by
    cases hs : stk.reverse with
    | nil => exact absurd (by simpa using hs) hne
    | cons q l => exact ⟨q, l, rfl⟩
  have e : stk = l.reverse ++ [q] := by
    have := congrArg List.reverse hql; simpa using this
  have e2 : stk ++ [s0] = l.reverse ++ [q, s0] := by rw [e]; simp
  have e3 : (stk ++ [s0]).reverse = s0 :: q :: l := by simp [hql]
  rw [e3]
  have hq : q ∈ stk := by rw [e]; simp
  have hasc := h.asc
  rw [e2] at hasc
  have h2 : ([q, s0] : List HP3).Pairwise (fun a b => b.pt mono ≤ a.pt mono) :=
    (List.pairwise_append.1 hasc).2.1
  simp at h2
  have hle : ∀ a ∈ l.reverse ++ [q, s0], a.pt mono ≤ v.pt mono := by
    intro a ha; rw [← e2] at ha; exact h.le a ha v hv
  refine switch_ccw hI.ne top v l s0 q hasc hle ?_ ?_
  · intro r q' p' hi
    rw [← e2] at hi
    exact h.reflex r q' p' hi
  · have hqv := hle q (by simp)
    have hmem := h.mem q hq
    cases top
    · simp only [Bool.false_eq_true, if_false] at hedge hmem ⊢
      exact hI.below s0 v hedge q hmem h2 hqv
    · simp only [if_true] at hedge hmem ⊢
      have := hI.above s0 v hedge q hmem h2 hqv
      have h3 := turnAt_swap drop s0.pt q.pt v.pt
      show turnAt drop s0.pt q.pt v.pt ≤ 0
      change 0 ≤ turnAt drop q.pt s0.pt v.pt at this
      linarith

theorem Inv.subset {drop mono : Fin 3} {upper lower : List HP3}
    {z : HP3} {stk : List HP3} {s0 : HP3} {top : Bool} {ts bs : List HP3}
    (h : Inv drop mono upper lower z stk s0 top ts bs) :
    (∀ a ∈ stk ++ [s0], a ∈ upper ++ lower) ∧ (∀ a ∈ ts, a ∈ upper) ∧ (∀ a ∈ bs, a ∈ lower) := by
  obtain ⟨u, _, hu⟩ := h.up
  obtain ⟨w, _, hw⟩ := h.low
  refine ⟨?_, fun a ha => hu.subset (by simp [ha]), fun a ha => hw.subset (by simp [ha])⟩
  intro a ha
  rcases List.mem_append.1 ha with h1 | h1
  · have := h.mem a h1
    cases top <;> simp at this <;> simp [this]
  · simp at h1; subst h1
    simpa using h.mem0

theorem process_inv {drop mono : Fin 3} {upper lower : List HP3} (hI : Input drop mono upper lower)
    {z : HP3} {stk : List HP3} {s0 : HP3} {top : Bool} {ts bs : List HP3} {v : HP3} {isTop : Bool}
    (h : Inv drop mono upper lower z stk s0 top (if isTop then v :: ts else ts) (if isTop then bs else v :: bs))
    (hne : stk ≠ []) (hbs : bs ≠ []) (hmin : ∀ b ∈ ts ++ bs, v.pt mono ≤ b.pt mono) :
    ∃ out stk' s0', processVertex drop isTop v ⟨stk ++ [s0], top⟩ = some (out, ⟨stk' ++ [s0'], isTop⟩) ∧
      stk' ≠ [] ∧ Inv drop mono upper lower z stk' s0' isTop ts bs ∧ ∀ t ∈ out, t.Ccw drop := by
  have hlast : bs.getLast? = some z := by
    have := h.last
    cases isTop
    · simp only [Bool.false_eq_true, if_false] at this
      cases bs with
      | nil => exact absurd rfl hbs
      | cons c bs => simpa using this
    · simpa using this
  obtain ⟨hsub, hts, hbsub⟩ := h.subset
  have hvin : v ∈ (if isTop then v :: ts else ts) ++ (if isTop then bs else v :: bs) := by
    cases isTop <;> simp
  have hlev : ∀ a ∈ stk ++ [s0], a.pt mono ≤ v.pt mono := fun a ha => h.le a ha v hvin
  have hvm : v ∈ upper ++ lower := by
    cases isTop
    · have := hbsub v (by simp); simp [this]
    · have := hts v (by simp); simp [this]
  have hle' : ∀ a ∈ stk ++ [s0], ∀ b ∈ ts ++ bs, a.pt mono ≤ b.pt mono := by
    intro a ha b hb
    refine h.le a ha b ?_
    cases isTop <;> simp at hb ⊢ <;> tauto
  have hvmem : v ∈ if isTop then upper else lower := by
    cases isTop
    · exact hbsub v (by simp)
    · exact hts v (by simp)
  by_cases hsame : isTop = top
  · -- same chain
    subst hsame
    obtain ⟨stk', hs, he, hc, hb⟩ := pop_spec hI.tame isTop v hvm stk s0 hsub
    have hs' : stk' ++ [s0] <:+ stk ++ [s0] := by
      obtain ⟨x, hx⟩ := hs; exact ⟨x, by rw [← hx]; simp⟩
    refine ⟨_, v :: stk', s0, ?_, by simp, ?_, hc⟩
    · unfold processVertex
      have : 1 ≤ stk.length := List.length_pos_iff.2 hne
      rw [if_neg (by simp; omega), if_neg (by simp)]
      simp [he]
    · refine ⟨?_, ?_, hlast, ?_, ?_, ?_, h.mem0, ?_⟩
      · rw [List.cons_append, List.pairwise_cons]
        exact ⟨fun a ha => hlev a (hs'.subset ha), h.asc.sublist hs'.sublist⟩
      · intro a ha x hx
        rw [List.cons_append] at ha
        rcases List.mem_cons.1 ha with h1 | h1
        · rw [h1]; exact hmin x hx
        · exact hle' a (hs'.subset h1) x hx
      · obtain ⟨u, hu1, hu2⟩ := h.up
        cases isTop
        · simp only [Bool.false_eq_true, if_false] at hu1 hu2 ⊢
          exact ⟨u, hu1, hu2⟩
        · simp only [if_true] at hu1 hu2 ⊢
          exact ⟨v, by simp, (List.suffix_cons u _).trans hu2⟩
      · obtain ⟨u, hu1, hu2⟩ := h.low
        cases isTop
        · simp only [Bool.false_eq_true, if_false] at hu1 hu2 ⊢
          exact ⟨v, by simp, (List.suffix_cons u _).trans hu2⟩
        · simp only [if_true] at hu1 hu2 ⊢
          exact ⟨u, hu1, hu2⟩
      · intro a ha
        rcases List.mem_cons.1 ha with h1 | h1
        · subst h1; exact hvmem
        · exact h.mem a (hs.subset h1)
      · intro r q p hi
        rw [List.cons_append] at hi
        rcases List.infix_cons_iff.1 hi with h1 | h1
        · obtain ⟨e1, h1⟩ := List.cons_prefix_cons.1 h1
          rw [e1]
          exact hb q p h1
        · exact h.reflex r q p (h1.trans hs'.isInfix)
  · -- the other chain
    have htop : top = !isTop := by cases isTop <;> cases top <;> simp at hsame ⊢
    subst htop
    obtain ⟨back, r, hbr⟩ : ∃ back r, stk = back :: r := by
      cases stk with
      | nil => exact absurd rfl hne
      | cons b r => exact ⟨b, r, rfl⟩
    refine ⟨switchTris (!isTop) v (stk ++ [s0]).reverse, [v], back, ?_, by simp, ?_, ?_⟩
    · unfold processVertex
      have : 1 ≤ stk.length := List.length_pos_iff.2 hne
      rw [if_neg (by simp; omega), if_pos (by simp)]
      simp [switchChains, hbr]
    · have hbm : back ∈ stk := by rw [hbr]; simp
      refine ⟨?_, ?_, hlast, ?_, ?_, ?_, ?_, ?_⟩
      · simp; exact hlev back (by simp [hbm])
      · intro a ha b hb
        simp only [List.cons_append, List.nil_append, List.mem_cons, List.not_mem_nil, or_false] at ha
        rcases ha with h1 | h1
        · subst h1; exact hmin b hb
        · subst h1; exact hle' a (by simp [hbm]) b hb
      · obtain ⟨u, hu1, hu2⟩ := h.up
        cases isTop
        · simp only [Bool.not_false, if_true, Bool.false_eq_true, if_false, hbr, List.head?_cons, Option.some.injEq] at hu1 hu2 ⊢
          exact ⟨u, hu1.symm, hu2⟩
        · simp only [Bool.not_true, Bool.false_eq_true, if_false, if_true] at hu1 hu2 ⊢
          exact ⟨v, rfl, (List.suffix_cons u _).trans hu2⟩
      · obtain ⟨u, hu1, hu2⟩ := h.low
        cases isTop
        · simp only [Bool.not_false, if_true, Bool.false_eq_true, if_false] at hu1 hu2 ⊢
          exact ⟨v, rfl, (List.suffix_cons u _).trans hu2⟩
        · simp only [Bool.not_true, Bool.false_eq_true, if_false, if_true, hbr, List.head?_cons, Option.some.injEq] at hu1 hu2 ⊢
          exact ⟨u, hu1.symm, hu2⟩
      · intro a ha
        simp at ha; subst ha; exact hvmem
      · have := hsub back (by simp [hbm]); simpa using this
      · intro r q p hi
        have := hi.length_le; simp at this
    · refine hI.fan h hne hvin ?_
      obtain ⟨u, hu1, hu2⟩ := h.up
      obtain ⟨w, hw1, hw2⟩ := h.low
      cases isTop
      · simp only [Bool.not_false, if_true, Bool.false_eq_true, if_false] at hw1 hw2 ⊢
        subst hw1
        exact (show [w, v] <+: w :: v :: bs from ⟨bs, rfl⟩).isInfix.trans hw2.isInfix
      · simp only [Bool.not_true, Bool.false_eq_true, if_false, if_true] at hu1 hu2 ⊢
        subst hu1
        exact (show [u, v] <+: u :: (v :: ts) ++ [z] from ⟨ts ++ [z], by simp⟩).isInfix.trans hu2.isInfix

theorem finish_ccw {drop mono : Fin 3} {upper lower : List HP3} (hI : Input drop mono upper lower) {z : HP3} :
    ∀ (bs : List HP3) (stk : List HP3) (s0 : HP3) (top : Bool), stk ≠ [] →
      Inv drop mono upper lower z stk s0 top [] bs → ∀ out st,
      finishBottom drop bs ⟨stk ++ [s0], top⟩ = some (out, st) → ∀ t ∈ out, t.Ccw drop := by
  intro bs
  induction bs with
  | nil => intro stk s0 top _ h; have := h.last; simp at this
  | cons v rest ih =>
    intro stk s0 top hne h out st ho
    cases rest with
    | nil =>
      have hz : v = z := by have := h.last; simpa using this
      subst hz
      obtain ⟨back, r, hbr⟩ : ∃ back r, stk = back :: r := by
        cases stk with
        | nil => exact absurd rfl hne
        | cons b r => exact ⟨b, r, rfl⟩
      simp only [finishBottom, switchChains, hbr, List.cons_append] at ho
      simp at ho
      obtain ⟨rfl, rfl⟩ := ho
      have := hI.fan h hne (v := v) (by simp) (by
        obtain ⟨u, hu1, hu2⟩ := h.up
        obtain ⟨w, hw1, hw2⟩ := h.low
        cases top
        · simp only [Bool.false_eq_true, if_false] at hu1 hu2 ⊢
          subst hu1; exact hu2.isInfix
        · simp only [if_true] at hw1 hw2 ⊢
          subst hw1; exact hw2.isInfix)
      rw [hbr] at this
      simpa using this
    | cons w rest =>
      have hlow : (v :: w :: rest).Pairwise fun a b => a.pt mono ≤ b.pt mono := by
        obtain ⟨u, _, hu⟩ := h.low
        exact hI.lowAsc.sublist ((List.suffix_cons u _).trans hu).sublist
      obtain ⟨o1, stk', s0', hp, hne', hinv, hc⟩ := process_inv hI (v := v) (isTop := false) (ts := [])
        (bs := w :: rest) (by simpa using h) hne (by simp) (by
          intro b hb; exact (List.pairwise_cons.1 hlow).1 b (by simpa using hb))
      simp only [finishBottom, hp, bind, Option.bind] at ho
      cases hq : finishBottom drop (w :: rest) ⟨stk' ++ [s0'], false⟩ with
      | none => simp [hq] at ho
      | some q =>
        obtain ⟨o2, st2⟩ := q
        simp only [hq, pure, Option.some.injEq, Prod.mk.injEq] at ho
        obtain ⟨rfl, rfl⟩ := ho
        intro t ht
        rcases List.mem_append.1 ht with h1 | h1
        · exact hc t h1
        · exact ih stk' s0' false hne' hinv o2 st2 hq t h1

theorem main_ccw {drop mono : Fin 3} {upper lower : List HP3} (hI : Input drop mono upper lower) {z : HP3} :
    ∀ (n : Nat) (ts bs : List HP3) (stk : List HP3) (s0 : HP3) (top : Bool), ts.length + bs.length = n → stk ≠ [] →
      Inv drop mono upper lower z stk s0 top ts bs → ∀ out st,
      mainLoop drop mono ts bs ⟨stk ++ [s0], top⟩ = some (out, st) → ∀ t ∈ out, t.Ccw drop := by
  intro n
  induction n with
  | zero =>
    intro ts bs stk s0 top hn _ h
    have h2 : bs = [] := List.length_eq_zero_iff.1 (by omega)
    subst h2; have := h.last; simp at this
  | succ n ih =>
    intro ts bs stk s0 top hn hne h out st ho
    cases ts with
    | nil => rw [mainLoop] at ho; exact finish_ccw hI bs stk s0 top hne h out st ho
    | cons t ts =>
      cases bs with
      | nil => have := h.last; simp at this
      | cons b bs =>
        obtain ⟨hsub, hts, hbsub⟩ := h.subset
        have hcmp := hI.tame.comp (mono := mono) (a := b) (b := t)
          (by have := hbsub b (by simp); simp [this]) (by have := hts t (by simp); simp [this])
        have hlow : (b :: bs).Pairwise fun a b => a.pt mono ≤ b.pt mono := by
          obtain ⟨u, _, hu⟩ := h.low
          exact hI.lowAsc.sublist ((List.suffix_cons u _).trans hu).sublist
        have hup : (t :: ts ++ [z]).Pairwise fun a b => a.pt mono ≤ b.pt mono := by
          obtain ⟨u, _, hu⟩ := h.up
          exact hI.upAsc.sublist ((List.suffix_cons u _).trans hu).sublist
        rw [List.cons_append, List.pairwise_cons] at hup
        rw [List.pairwise_cons] at hlow
        rw [mainLoop] at ho
        split at ho
        · rename_i hlt
          rw [hcmp] at hlt
          have hbs : bs ≠ [] := by
            rintro rfl
            have hz : b = z := by have := h.last; simpa using this
            subst hz
            have := hup.1 b (by simp)
            linarith
          obtain ⟨o1, stk', s0', hp, hne', hinv, hc⟩ := process_inv hI (v := b) (isTop := false) (ts := t :: ts)
            (bs := bs) (by simpa using h) hne hbs (by
              intro x hx
              simp only [List.cons_append, List.mem_cons, List.mem_append] at hx
              rcases hx with h1 | h1 | h1
              · subst h1; exact hlt.le
              · exact hlt.le.trans (hup.1 x (by simp [h1]))
              · exact hlow.1 x h1)
          simp only [hp, bind, Option.bind] at ho
          cases hq : mainLoop drop mono (t :: ts) bs ⟨stk' ++ [s0'], false⟩ with
          | none => simp [hq] at ho
          | some q =>
            obtain ⟨o2, st2⟩ := q
            simp only [hq, pure, Option.some.injEq, Prod.mk.injEq] at ho
            obtain ⟨rfl, rfl⟩ := ho
            intro x hx
            rcases List.mem_append.1 hx with h1 | h1
            · exact hc x h1
            · exact ih (t :: ts) bs stk' s0' false (by simp at hn ⊢; omega) hne' hinv o2 st2 hq x h1
        · rename_i hlt
          rw [hcmp] at hlt
          obtain ⟨o1, stk', s0', hp, hne', hinv, hc⟩ := process_inv hI (v := t) (isTop := true) (ts := ts)
            (bs := b :: bs) (by simpa using h) hne (by simp) (by
              intro x hx
              simp only [List.mem_append, List.mem_cons] at hx
              rcases hx with h1 | h1 | h1
              · exact hup.1 x (by simp [h1])
              · subst h1; exact not_lt.1 hlt
              · exact (not_lt.1 hlt).trans (hlow.1 x h1))
          simp only [hp, bind, Option.bind] at ho
          cases hq : mainLoop drop mono ts (b :: bs) ⟨stk' ++ [s0'], true⟩ with
          | none => simp [hq] at ho
          | some q =>
            obtain ⟨o2, st2⟩ := q
            simp only [hq, pure, Option.some.injEq, Prod.mk.injEq] at ho
            obtain ⟨rfl, rfl⟩ := ho
            intro x hx
            rcases List.mem_append.1 hx with h1 | h1
            · exact hc x h1
            · exact ih ts (b :: bs) stk' s0' true (by simp at hn ⊢; omega) hne' hinv o2 st2 hq x h1

theorem triangulate_ccw {drop mono : Fin 3} {t0 z : HP3} {top bottom : List HP3} {out : List Tri} {st0 st : List HP3}
    (hI : Input drop mono (t0 :: top ++ [z]) (t0 :: bottom)) (hz : bottom.getLast? = some z)
    (h : triangulate drop mono st0 (t0 :: top) bottom = some (out, st)) : ∀ t ∈ out, t.Ccw drop := by
  unfold triangulate at h
  split at h
  · exact absurd h (by simp)
  have hup := hI.upAsc
  have hlow := hI.lowAsc
  rw [List.cons_append, List.pairwise_cons] at hup
  rw [List.pairwise_cons] at hlow
  cases bottom with
  | nil => simp at hz
  | cons b bs =>
    have hlow2 := List.pairwise_cons.1 hlow.2
    cases top with
    | nil =>
      simp only at h
      have hbs : bs ≠ [] := by rintro rfl; simp [mainLoop, finishBottom] at h
      have hz' : bs.getLast? = some z := by
        cases bs with
        | nil => exact absurd rfl hbs
        | cons c bs => simpa using hz
      refine main_ccw hI (z := z) _ [] bs [b] t0 false rfl (by simp) ?_ out st (by simpa using h)
      refine ⟨?_, ?_, hz', ?_, ?_, ?_, ?_, ?_⟩
      · simp; exact hlow.1 b (by simp)
      · intro a ha x hx
        simp at ha hx
        rcases ha with h1 | h1
        · subst h1; exact hlow2.1 x hx
        · subst h1; exact hlow.1 x (by simp [hx])
      · exact ⟨t0, by simp, by simp⟩
      · exact ⟨b, by simp, List.suffix_cons _ _⟩
      · intro a ha; simp at ha; subst ha; simp
      · left; simp
      · intro r q p hi; have := hi.length_le; simp at this
    | cons t ts =>
      simp only at h
      have hcmp := hI.tame.comp (mono := mono) (a := b) (b := t) (by simp) (by simp)
      have hup2 : (t :: (ts ++ [z])).Pairwise fun a b => a.pt mono ≤ b.pt mono := by simpa using hup.2
      rw [List.pairwise_cons] at hup2
      split at h
      · rename_i hlt
        rw [hcmp] at hlt
        have hbs : bs ≠ [] := by
          rintro rfl
          have hz' : b = z := by simpa using hz
          subst hz'
          have := hup2.1 b (by simp)
          linarith
        have hz' : bs.getLast? = some z := by
          cases bs with
          | nil => exact absurd rfl hbs
          | cons c bs => simpa using hz
        refine main_ccw hI (z := z) _ (t :: ts) bs [b] t0 false rfl (by simp) ?_ out st (by simpa using h)
        refine ⟨?_, ?_, hz', ?_, ?_, ?_, ?_, ?_⟩
        · simp; exact hlow.1 b (by simp)
        · intro a ha x hx
          simp only [List.cons_append, List.nil_append, List.mem_cons, List.not_mem_nil, or_false] at ha
          simp only [List.cons_append, List.mem_cons, List.mem_append] at hx
          rcases ha with h1 | h1
          · subst h1
            rcases hx with h2 | h2 | h2
            · subst h2; exact hlt.le
            · exact hlt.le.trans (hup2.1 x (by simp [h2]))
            · exact hlow2.1 x h2
          · subst h1
            rcases hx with h2 | h2 | h2
            · subst h2; exact hup.1 _ (by simp)
            · exact hup.1 x (by simp [h2])
            · exact hlow.1 x (by simp [h2])
        · exact ⟨t0, by simp, by simp⟩
        · exact ⟨b, by simp, List.suffix_cons _ _⟩
        · intro a ha; simp at ha; subst ha; simp
        · left; simp
        · intro r q p hi; have := hi.length_le; simp at this
      · rename_i hlt
        rw [hcmp] at hlt
        refine main_ccw hI (z := z) _ ts (b :: bs) [t] t0 true rfl (by simp) ?_ out st (by simpa using h)
        refine ⟨?_, ?_, hz, ?_, ?_, ?_, ?_, ?_⟩
        · simp; exact hup.1 t (by simp)
        · intro a ha x hx
          simp only [List.cons_append, List.nil_append, List.mem_cons, List.not_mem_nil, or_false] at ha
          simp only [List.mem_cons, List.mem_append] at hx
          rcases ha with h1 | h1
          · subst h1
            rcases hx with h2 | h2 | h2
            · exact hup2.1 x (by simp [h2])
            · subst h2; exact not_lt.1 hlt
            · exact (not_lt.1 hlt).trans (hlow2.1 x h2)
          · subst h1
            rcases hx with h2 | h2 | h2
            · exact hup.1 x (by simp [h2])
            · subst h2; exact hlow.1 _ (by simp)
            · exact hlow.1 x (by simp [h2])
        · exact ⟨t, by simp, by simp⟩
        · exact ⟨t0, by simp, List.suffix_rfl⟩
        · intro a ha; simp at ha; subst ha; simp
        · left; simp
        · intro r q p hi; have := hi.length_le; simp at this

end Walnut.Mono
