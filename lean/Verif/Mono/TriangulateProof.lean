/-
The triangles emitted by the triangulator tile the polygon.
-/
import Verif.Mono.Sums

namespace Walnut.Mono
open Walnut.Geom

/-- The polygon that is left: the vertices to come of the top chain, the stack, and
the vertices to come of the bottom chain. -/
def remaining (s : TriState) (ts bs : List HP3) : List HP3 :=
  ts.reverse ++ (if s.top then s.stack else s.stack.reverse) ++ bs

/-- Triangles `out` are cut off the polygon `l`, `l'` is left. -/
structure Cuts (out : List Tri) (l l' : List HP3) : Prop where
  sum : ∀ g : HP3 → HP3 → ℚ, (∀ a b, g a b = -g b a) → cSum g l = triSum g out + cSum g l'
  count : l.length = out.length + l'.length
  sub : ∀ x ∈ l', x ∈ l
  verts : ∀ t ∈ out, t.p1 ∈ l ∧ t.p2 ∈ l ∧ t.p3 ∈ l
  pw : ∀ R : HP3 → HP3 → Prop, (∀ a b, R a b → R b a) → l.Pairwise R →
    l'.Pairwise R ∧ ∀ t ∈ out, R t.p1 t.p2 ∧ R t.p2 t.p3 ∧ R t.p3 t.p1

theorem Cuts.trans {o1 o2 : List Tri} {a b c : List HP3} (h1 : Cuts o1 a b) (h2 : Cuts o2 b c) :
    Cuts (o1 ++ o2) a c := by
  refine ⟨fun g hg => ?_, ?_, fun x hx => h1.sub x (h2.sub x hx), ?_, ?_⟩
  · rw [h1.sum g hg, h2.sum g hg, triSum_append]; ring
  · rw [h1.count, h2.count, List.length_append]; omega
  · intro t ht
    rcases List.mem_append.1 ht with h | h
    · exact h1.verts t h
    · exact ⟨h1.sub _ (h2.verts t h).1, h1.sub _ (h2.verts t h).2.1, h1.sub _ (h2.verts t h).2.2⟩
  · intro R hR hl
    obtain ⟨p1, p2⟩ := h1.pw R hR hl
    obtain ⟨p3, p4⟩ := h2.pw R hR p1
    refine ⟨p3, fun t ht => ?_⟩
    rcases List.mem_append.1 ht with h | h
    · exact p2 t h
    · exact p4 t h

theorem Cuts.refl (l : List HP3) : Cuts [] l l :=
  ⟨fun g _ => by simp, by simp, fun _ h => h, by simp, fun _ _ h => ⟨h, by simp⟩⟩

theorem self_zero {g : HP3 → HP3 → ℚ} (hg : ∀ a b, g a b = -g b a) (a : HP3) : g a a = 0 := by
  have := hg a a; linarith

theorem perm3a (a b v : HP3) : [a, b, v].Perm [v, a, b] := List.perm_append_comm (l₁ := [a, b]) (l₂ := [v])

/-- An ear is cut off. -/
theorem Cuts.ear (t : Tri) (a b c : HP3) (A B : List HP3)
    (ht : ∀ g : HP3 → HP3 → ℚ, t.sum g = g a b + g b c + g c a)
    (hv : [t.p1, t.p2, t.p3].Perm [a, b, c]) :
    Cuts [t] (A ++ [a, b, c] ++ B) (A ++ [a, c] ++ B) := by
  have hv' : ∀ x ∈ [t.p1, t.p2, t.p3], x ∈ [a, b, c] := fun x hx => hv.subset hx
  have hm : ∀ x, x ∈ [a, b, c] → x ∈ A ++ [a, b, c] ++ B := by
    intro x hx; exact List.mem_append_left _ (List.mem_append_right _ hx)
  refine ⟨fun g hg => ?_, ?_, ?_, ?_, ?_⟩
  · refine cSum_replace g (x := a) (y := c) ?_ rfl rfl rfl rfl A B
    simp only [pSum, triSum_cons, triSum_nil, ht g, hg c a]
    ring
  · simp; omega
  · intro x hx
    simp at hx ⊢
    grind
  · intro x hx
    simp only [List.mem_singleton] at hx
    subst hx
    exact ⟨hm _ (hv' _ (by simp)), hm _ (hv' _ (by simp)), hm _ (hv' _ (by simp))⟩
  · intro R hR hl
    have hs : List.Sublist (A ++ [a, c] ++ B) (A ++ [a, b, c] ++ B) :=
      ((List.Sublist.refl A).append (((List.Sublist.refl [c]).cons b).cons_cons a)).append (List.Sublist.refl B)
    refine ⟨hl.sublist hs, ?_⟩
    intro x hx
    simp only [List.mem_singleton] at hx
    subst hx
    have h3 : [a, b, c].Pairwise R := (List.pairwise_append.1 (List.pairwise_append.1 hl).1).2.1
    have h4 := (hv.pairwise_iff (fun {x y} h => hR x y h)).2 h3
    simp at h4
    exact ⟨h4.1.1, h4.2, hR _ _ h4.1.2⟩

theorem cuts_pop (drop : Fin 3) (v : HP3) (A B : List HP3) :
    ∀ l, Cuts (popConvex drop true v l).1 (A ++ v :: l ++ B) (A ++ v :: (popConvex drop true v l).2 ++ B) ∧
      Cuts (popConvex drop false v l).1 (A ++ l.reverse ++ v :: B)
        (A ++ (popConvex drop false v l).2.reverse ++ v :: B) ∧
      ∀ t, l ≠ [] → (popConvex drop t v l).2 ≠ [] := by
  intro l
  induction l with
  | nil => exact ⟨Cuts.refl _, Cuts.refl _, fun _ h => absurd rfl h⟩
  | cons a r ih =>
    cases r with
    | nil => exact ⟨Cuts.refl _, Cuts.refl _, fun _ _ => by simp [popConvex]⟩
    | cons b r =>
      refine ⟨?_, ?_, ?_⟩
      · rw [popConvex]
        simp only [if_true]
        split
        · have h1 := Cuts.ear ⟨true, a, b, v⟩ v a b A (r ++ B) (fun g => by simp [Tri.sum]; ring) ((List.Perm.refl _).trans (perm3a a b v))
          have h2 := ih.1
          have := h1.trans (c := A ++ v :: (popConvex drop true v (b :: r)).2 ++ B) (by simpa using h2)
          simpa using this
        · exact Cuts.refl _
      · rw [popConvex]
        simp only [Bool.false_eq_true, if_false]
        split
        · have h1 := Cuts.ear ⟨false, b, a, v⟩ b a v (A ++ r.reverse) B (fun g => by simp [Tri.sum]) (List.Perm.refl _)
          have h2 := ih.2.1
          have := h1.trans (c := A ++ (popConvex drop false v (b :: r)).2.reverse ++ v :: B) (by simpa using h2)
          simpa using this
        · exact Cuts.refl _
      · intro t _
        have h := ih.2.2 t (by simp)
        rw [popConvex]
        cases t <;> simp only [Bool.false_eq_true, if_false, if_true] <;> split
        · exact h
        · simp
        · exact h
        · simp

theorem cuts_switch (v : HP3) :
    ∀ (l : List HP3) (z : HP3), l.getLast? = some z → ∀ A B : List HP3,
      Cuts (switchTris false v l) (A ++ v :: l ++ B) (A ++ [v, z] ++ B) ∧
      Cuts (switchTris true v l) (A ++ l.reverse ++ v :: B) (A ++ z :: v :: B) := by
  intro l
  induction l with
  | nil => intro z h; simp at h
  | cons a r ih =>
    intro z hz A B
    cases r with
    | nil =>
      simp at hz; subst hz
      simp only [switchTris]
      exact ⟨by simpa using Cuts.refl _, by simpa using Cuts.refl _⟩
    | cons b r =>
      have hz' : (b :: r).getLast? = some z := by simpa using hz
      constructor
      · have h1 := Cuts.ear ⟨true, a, b, v⟩ v a b A (r ++ B) (fun g => by simp [Tri.sum]; ring) ((List.Perm.refl _).trans (perm3a a b v))
        have h2 := (ih z hz' A B).1
        have := h1.trans (c := A ++ [v, z] ++ B) (by simpa using h2)
        simpa [switchTris] using this
      · have h1 := Cuts.ear ⟨false, b, a, v⟩ b a v (A ++ r.reverse) B (fun g => by simp [Tri.sum]) (List.Perm.refl _)
        have h2 := (ih z hz' A B).2
        have := h1.trans (c := A ++ z :: v :: B) (by simpa using h2)
        simpa [switchTris] using this

theorem process_cuts {drop : Fin 3} {isTop : Bool} {v : HP3} {s s' : TriState} {out : List Tri}
    (h : processVertex drop isTop v s = some (out, s')) (ts bs : List HP3) :
    2 ≤ s'.stack.length ∧ Cuts out (remaining s (if isTop then v :: ts else ts) (if isTop then bs else v :: bs))
      (remaining s' ts bs) := by
  unfold processVertex at h
  split at h
  · exact absurd h (by simp)
  rename_i hl
  obtain ⟨st, tp⟩ := s
  simp only at hl h
  split at h
  · rename_i hne
    cases st with
    | nil => simp at hl
    | cons back r =>
      simp only [switchChains] at h
      simp only [bind, Option.bind, pure, Option.some.injEq, Prod.mk.injEq] at h
      obtain ⟨rfl, rfl⟩ := h
      refine ⟨by simp, ?_⟩
      have hlast : (back :: r).reverse.getLast? = some back := by simp
      have := fun A B => cuts_switch v _ _ hlast A B
      cases isTop <;> cases tp <;> simp at hne
      · have := (this ts.reverse bs).2
        simpa [remaining] using this
      · have := (this ts.reverse bs).1
        simpa [remaining] using this
  · rename_i hne
    simp only [Option.some.injEq, Prod.mk.injEq] at h
    obtain ⟨rfl, rfl⟩ := h
    have hst : st ≠ [] := by rintro rfl; simp at hl
    have hp := cuts_pop drop v
    have h3 := (hp [] [] st).2.2 isTop hst
    refine ⟨?_, ?_⟩
    · have := List.length_pos_iff.2 h3; simp; omega
    · simp at hne; subst hne
      cases isTop
      · simpa [remaining] using (hp ts.reverse bs st).2.1
      · simpa [remaining] using (hp ts.reverse bs st).1

/-- All of the polygon is cut off. -/
structure Tiles (out : List Tri) (l : List HP3) : Prop where
  sum : ∀ g : HP3 → HP3 → ℚ, (∀ a b, g a b = -g b a) → cSum g l = triSum g out
  count : l.length = out.length + 2
  verts : ∀ t ∈ out, t.p1 ∈ l ∧ t.p2 ∈ l ∧ t.p3 ∈ l
  pw : ∀ R : HP3 → HP3 → Prop, (∀ a b, R a b → R b a) → l.Pairwise R →
    ∀ t ∈ out, R t.p1 t.p2 ∧ R t.p2 t.p3 ∧ R t.p3 t.p1

theorem Cuts.tiles {o1 o2 : List Tri} {a b : List HP3} (h1 : Cuts o1 a b) (h2 : Tiles o2 b) :
    Tiles (o1 ++ o2) a := by
  refine ⟨fun g hg => ?_, ?_, ?_, ?_⟩
  · rw [h1.sum g hg, h2.sum g hg, triSum_append]
  · rw [h1.count, h2.count, List.length_append]; omega
  · intro t ht
    rcases List.mem_append.1 ht with h | h
    · exact h1.verts t h
    · exact ⟨h1.sub _ (h2.verts t h).1, h1.sub _ (h2.verts t h).2.1, h1.sub _ (h2.verts t h).2.2⟩
  · intro R hR hl t ht
    obtain ⟨p1, p2⟩ := h1.pw R hR hl
    rcases List.mem_append.1 ht with h | h
    · exact p2 t h
    · exact h2.pw R hR p1 t h

theorem Cuts.rotate {o : List Tri} {l l' : List HP3} {v : HP3} (h : Cuts o (v :: l) l') : Cuts o (l ++ [v]) l' := by
  refine ⟨fun g hg => ?_, ?_, ?_, ?_, ?_⟩
  · rw [cSum_rotate, h.sum g hg]
  · rw [← h.count]; simp
  · intro x hx; have := h.sub x hx; simpa [or_comm] using this
  · intro t ht; have := h.verts t ht; simpa [or_comm] using this
  · intro R hR hl
    exact h.pw R hR (((List.perm_append_comm (l₁ := l) (l₂ := [v])).pairwise_iff (fun {x y} h => hR x y h)).1 hl)

theorem tiles_two (a b : HP3) : Tiles [] [a, b] :=
  ⟨fun g hg => by simp [cSum, pSum, hg a b], by simp, by simp, by simp⟩

theorem finish_tiles {drop : Fin 3} : ∀ (bs : List HP3) (s : TriState) (out : List Tri) (st : List HP3),
    finishBottom drop bs s = some (out, st) → st = [] ∧ Tiles out (remaining s [] bs) := by
  intro bs
  induction bs with
  | nil => intro s out st h; simp [finishBottom] at h
  | cons v rest ih =>
    intro s out st h
    cases rest with
    | nil =>
      simp only [finishBottom, switchChains] at h
      obtain ⟨stk, tp⟩ := s
      cases stk with
      | nil => simp at h
      | cons back r =>
        simp at h
        obtain ⟨rfl, rfl⟩ := h
        refine ⟨rfl, ?_⟩
        have hlast : (back :: r).reverse.getLast? = some back := by simp
        have := fun A B => cuts_switch v _ _ hlast A B
        have key : ∀ o : List Tri, ∀ l l' : List HP3, Cuts o l l' → Tiles [] l' → Tiles o l := by
          intro o l l' h1 h2; simpa using h1.tiles h2
        cases tp
        · have h1 := (this [] []).1
          simp only [List.nil_append, List.append_nil] at h1
          have h2 := key _ _ _ h1.rotate (tiles_two v back)
          simpa [remaining] using h2
        · have h1 := (this [] []).2
          have h2 := key _ _ _ h1 (tiles_two back v)
          simpa [remaining] using h2
    | cons w rest =>
      simp only [finishBottom, bind, Option.bind] at h
      cases hp : processVertex drop false v s with
      | none => simp [hp] at h
      | some r =>
        obtain ⟨o1, s1⟩ := r
        simp only [hp] at h
        cases hq : finishBottom drop (w :: rest) s1 with
        | none => simp [hq] at h
        | some q =>
          obtain ⟨o2, st2⟩ := q
          simp only [hq, pure, Option.some.injEq, Prod.mk.injEq] at h
          obtain ⟨rfl, rfl⟩ := h
          obtain ⟨e, ht⟩ := ih s1 o2 st2 hq
          have hc := (process_cuts hp [] (w :: rest)).2
          exact ⟨e, by simpa using hc.tiles ht⟩

theorem main_tiles {drop mono : Fin 3} : ∀ (n : Nat) (ts bs : List HP3) (s : TriState) (out : List Tri)
    (st : List HP3), ts.length + bs.length = n → mainLoop drop mono ts bs s = some (out, st) →
    st = [] ∧ Tiles out (remaining s ts bs) := by
  intro n
  induction n with
  | zero =>
    intro ts bs s out st hn h
    have h1 : ts = [] := List.length_eq_zero_iff.1 (by omega)
    have h2 : bs = [] := List.length_eq_zero_iff.1 (by omega)
    subst h1; subst h2
    simp [mainLoop, finishBottom] at h
  | succ n ih =>
    intro ts bs s out st hn h
    cases ts with
    | nil => rw [mainLoop] at h; exact finish_tiles _ _ _ _ h
    | cons t ts =>
      cases bs with
      | nil => simp [mainLoop] at h
      | cons b bs =>
        rw [mainLoop] at h
        split at h
        · cases hp : processVertex drop false b s with
          | none => simp [hp] at h
          | some r =>
            obtain ⟨o1, s1⟩ := r
            simp only [hp, bind, Option.bind] at h
            cases hq : mainLoop drop mono (t :: ts) bs s1 with
            | none => simp [hq] at h
            | some q =>
              obtain ⟨o2, st2⟩ := q
              simp only [hq, pure, Option.some.injEq, Prod.mk.injEq] at h
              obtain ⟨rfl, rfl⟩ := h
              obtain ⟨e, ht⟩ := ih _ _ s1 o2 st2 (by simp at hn ⊢; omega) hq
              exact ⟨e, by simpa using ((process_cuts hp (t :: ts) bs).2).tiles ht⟩
        · cases hp : processVertex drop true t s with
          | none => simp [hp] at h
          | some r =>
            obtain ⟨o1, s1⟩ := r
            simp only [hp, bind, Option.bind] at h
            cases hq : mainLoop drop mono ts (b :: bs) s1 with
            | none => simp [hq] at h
            | some q =>
              obtain ⟨o2, st2⟩ := q
              simp only [hq, pure, Option.some.injEq, Prod.mk.injEq] at h
              obtain ⟨rfl, rfl⟩ := h
              obtain ⟨e, ht⟩ := ih _ _ s1 o2 st2 (by simp at hn ⊢; omega) hq
              exact ⟨e, by simpa using ((process_cuts hp ts (b :: bs)).2).tiles ht⟩

theorem triangulate_tiles {drop mono : Fin 3} {st0 top bottom : List HP3} {out : List Tri} {st : List HP3}
    (h : triangulate drop mono st0 top bottom = some (out, st)) :
    st = [] ∧ Tiles out (top.reverse ++ bottom) := by
  unfold triangulate at h
  split at h
  · exact absurd h (by simp)
  · split at h
    · exact absurd h (by simp)
    · exact absurd h (by simp)
    · obtain ⟨e, ht⟩ := main_tiles _ _ _ _ _ _ rfl h
      exact ⟨e, by simpa [remaining] using ht⟩
    · split at h
      · obtain ⟨e, ht⟩ := main_tiles _ _ _ _ _ _ rfl h
        exact ⟨e, by simpa [remaining] using ht⟩
      · obtain ⟨e, ht⟩ := main_tiles _ _ _ _ _ _ rfl h
        exact ⟨e, by simpa [remaining] using ht⟩

/-! ### definedness -/

theorem process_defined (drop : Fin 3) (isTop : Bool) (v : HP3) (s : TriState) (h : 2 ≤ s.stack.length) :
    ∃ r, processVertex drop isTop v s = some r := by
  unfold processVertex
  rw [if_neg (by omega)]
  split
  · obtain ⟨st, tp⟩ := s
    cases st with
    | nil => simp at h
    | cons a r => exact ⟨_, rfl⟩
  · exact ⟨_, rfl⟩

theorem finish_defined (drop : Fin 3) : ∀ (bs : List HP3) (s : TriState), bs ≠ [] → 2 ≤ s.stack.length →
    ∃ r, finishBottom drop bs s = some r := by
  intro bs
  induction bs with
  | nil => intro s h; exact absurd rfl h
  | cons v rest ih =>
    intro s _ hs
    cases rest with
    | nil =>
      obtain ⟨st, tp⟩ := s
      cases st with
      | nil => simp at hs
      | cons a r => exact ⟨_, rfl⟩
    | cons w rest =>
      obtain ⟨r, hr⟩ := process_defined drop false v s hs
      have h2 := (process_cuts (s' := r.2) (out := r.1) hr [] (w :: rest)).1
      obtain ⟨q, hq⟩ := ih r.2 (by simp) h2
      exact ⟨_, by simp only [finishBottom, hr, bind, Option.bind, hq]; rfl⟩

theorem main_defined (drop mono : Fin 3) : ∀ (n : Nat) (ts bs : List HP3) (s : TriState) (z : HP3),
    ts.length + bs.length = n → bs.getLast? = some z → (∀ t ∈ ts, ¬ z.compareComponent mono t < 0) →
    2 ≤ s.stack.length → ∃ r, mainLoop drop mono ts bs s = some r := by
  intro n
  induction n with
  | zero =>
    intro ts bs s z hn hz
    have h2 : bs = [] := List.length_eq_zero_iff.1 (by omega)
    subst h2; simp at hz
  | succ n ih =>
    intro ts bs s z hn hz ht hs
    cases ts with
    | nil =>
      rw [mainLoop]; exact finish_defined drop bs s (by rintro rfl; simp at hz) hs
    | cons t ts =>
      cases bs with
      | nil => simp at hz
      | cons b bs =>
        rw [mainLoop]
        split
        · rename_i hc
          obtain ⟨r, hr⟩ := process_defined drop false b s hs
          have h2 := (process_cuts (s' := r.2) (out := r.1) hr [] []).1
          have hz' : bs.getLast? = some z := by
            cases bs with
            | nil =>
              simp at hz; subst hz
              exact absurd hc (ht t (by simp))
            | cons c bs => simpa using hz
          obtain ⟨q, hq⟩ := ih (t :: ts) bs r.2 z (by simp at hn ⊢; omega) hz' ht h2
          exact ⟨_, by simp only [hr, bind, Option.bind, hq]; rfl⟩
        · obtain ⟨r, hr⟩ := process_defined drop true t s hs
          have h2 := (process_cuts (s' := r.2) (out := r.1) hr [] []).1
          obtain ⟨q, hq⟩ := ih ts (b :: bs) r.2 z (by simp at hn ⊢; omega) hz
            (fun x hx => ht x (List.mem_cons_of_mem _ hx)) h2
          exact ⟨_, by simp only [hr, bind, Option.bind, hq]; rfl⟩

theorem triangulate_defined (drop mono : Fin 3) (top bottom : List HP3) (z : HP3) (htop : top ≠ [])
    (hz : bottom.getLast? = some z) (h3 : 3 ≤ top.length + bottom.length)
    (hmax : ∀ t ∈ top, ¬ z.compareComponent mono t < 0) :
    ∃ out, triangulate drop mono [] top bottom = some (out, []) := by
  have : ∃ r, triangulate drop mono [] top bottom = some r := by
    unfold triangulate
    rw [if_neg (by simp)]
    cases top with
    | nil => exact absurd rfl htop
    | cons t0 top =>
      cases bottom with
      | nil => simp at hz
      | cons b bs =>
        cases top with
        | nil =>
          simp only
          have hb : bs ≠ [] := by rintro rfl; simp at h3
          refine main_defined drop mono _ [] bs _ z rfl ?_ (by simp) (by simp)
          cases bs with
          | nil => exact absurd rfl hb
          | cons c bs => simpa using hz
        | cons t ts =>
          simp only
          split
          · rename_i hc
            have hz' : bs.getLast? = some z := by
              cases bs with
              | nil => simp at hz; subst hz; exact absurd hc (hmax t (by simp))
              | cons c bs => simpa using hz
            exact main_defined drop mono _ (t :: ts) bs _ z rfl hz'
              (fun x hx => hmax x (List.mem_cons_of_mem _ hx)) (by simp)
          · exact main_defined drop mono _ ts (b :: bs) _ z rfl hz
              (fun x hx => hmax x (by simp [hx])) (by simp)
  obtain ⟨⟨out, st⟩, h⟩ := this
  exact ⟨out, by rw [h, (triangulate_tiles h).1]⟩

end Walnut.Mono
