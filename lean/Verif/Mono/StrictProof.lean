/-
In a polygon whose chains strictly ascend, the third vertex of an emitted triangle is
beyond the other vertices.
-/
import Verif.Mono.OrientProof

namespace Walnut.Mono
open Walnut.Geom

/-- The third vertex is not before the other two, and strictly beyond the vertex of
its own chain. -/
structure Tri.Beyond (mono : Fin 3) (t : Tri) : Prop where
  le1 : t.p1.pt mono ≤ t.p3.pt mono
  le2 : t.p2.pt mono ≤ t.p3.pt mono
  lt1 : t.isTop = true → t.p1.pt mono < t.p3.pt mono
  lt2 : t.isTop = false → t.p2.pt mono < t.p3.pt mono

/-- The state of the loop of `Build`. -/
structure InvS (mono : Fin 3) (vs : List HP3) (z : HP3) (stk : List HP3) (s0 : HP3) (top : Bool)
    (ts bs : List HP3) : Prop where
  mem : ∀ a ∈ ts ++ bs, a ∈ vs
  last : bs.getLast? = some z
  asc : stk.Pairwise fun a b => b.pt mono < a.pt mono
  tsAsc : (ts ++ [z]).Pairwise fun a b => a.pt mono < b.pt mono
  bsAsc : bs.Pairwise fun a b => a.pt mono < b.pt mono
  le : ∀ a ∈ stk ++ [s0], ∀ b ∈ ts ++ bs, a.pt mono ≤ b.pt mono
  stkTs : ∀ a ∈ stk, ∀ t ∈ ts ++ [z], a.pt mono < t.pt mono
  stkBs : top = false → ∀ a ∈ stk, ∀ b ∈ bs, a.pt mono < b.pt mono
  s0Ts : top = false → ∀ t ∈ ts ++ [z], s0.pt mono < t.pt mono
  s0Bs : top = true → ∀ b ∈ bs, s0.pt mono < b.pt mono

theorem switch_beyond {mono : Fin 3} (v : HP3) : ∀ (l : List HP3) (top : Bool),
    (∀ a ∈ l, a.pt mono ≤ v.pt mono) →
    (if top then ∀ a ∈ l.dropLast, a.pt mono < v.pt mono else ∀ a ∈ l, a.pt mono < v.pt mono) →
    ∀ t ∈ switchTris top v l, t.Beyond mono := by
  intro l
  induction l with
  | nil => intro top _ _ t ht; simp [switchTris] at ht
  | cons a r ih =>
    intro top hle hlt t ht
    cases r with
    | nil => simp [switchTris] at ht
    | cons b r =>
      rw [switchTris] at ht
      rcases List.mem_cons.1 ht with h | h
      · cases top
        · simp at h hlt; subst h
          exact ⟨hle a (by simp), hle b (by simp), fun _ => hlt.1, fun h => by simp at h⟩
        · simp at h hlt; subst h
          exact ⟨hle b (by simp), hle a (by simp), fun h => by simp at h, fun _ => hlt.1⟩
      · refine ih top (fun x hx => hle x (List.mem_cons_of_mem _ hx)) ?_ t h
        cases top
        · simp only [Bool.false_eq_true, if_false] at hlt ⊢
          exact fun x hx => hlt x (List.mem_cons_of_mem _ hx)
        · simp only [if_true] at hlt ⊢
          exact fun x hx => hlt x (by simp only [List.dropLast_cons₂]; exact List.mem_cons_of_mem _ hx)

theorem pop_beyond {drop mono : Fin 3} (isTop : Bool) (v : HP3) :
    ∀ (stk : List HP3) (s0 : HP3), (∀ a ∈ stk ++ [s0], a.pt mono ≤ v.pt mono) →
      (∀ a ∈ stk, a.pt mono < v.pt mono) →
      ∃ stk', stk' <:+ stk ∧ (popConvex drop isTop v (stk ++ [s0])).2 = stk' ++ [s0] ∧
        ∀ t ∈ (popConvex drop isTop v (stk ++ [s0])).1, t.Beyond mono := by
  intro stk
  induction stk with
  | nil => intro s0 _ _; exact ⟨[], List.suffix_rfl, rfl, by simp [popConvex]⟩
  | cons x r ih =>
    intro s0 hle hlt
    obtain ⟨stk', hs, he, hc⟩ := ih s0 (fun a ha => hle a (List.mem_cons_of_mem _ ha))
      (fun a ha => hlt a (List.mem_cons_of_mem _ ha))
    obtain ⟨y, r', hr⟩ : ∃ y r', r ++ [s0] = y :: r' := by
      cases r with
      | nil => exact ⟨s0, [], rfl⟩
      | cons y r' => exact ⟨y, r' ++ [s0], rfl⟩
    have hy := hle y (by rw [List.cons_append, hr]; simp)
    have hx := hlt x (by simp)
    rw [List.cons_append, hr, popConvex, ← hr]
    cases isTop
    · simp only [Bool.false_eq_true, if_false]
      split
      · refine ⟨stk', hs.trans (List.suffix_cons _ _), he, ?_⟩
        intro t ht
        rcases List.mem_cons.1 ht with h | h
        · subst h; exact ⟨hy, hx.le, fun h => by simp at h, fun _ => hx⟩
        · exact hc t h
      · exact ⟨x :: r, List.suffix_rfl, by simp [hr], by simp⟩
    · simp only [if_true]
      split
      · refine ⟨stk', hs.trans (List.suffix_cons _ _), he, ?_⟩
        intro t ht
        rcases List.mem_cons.1 ht with h | h
        · subst h; exact ⟨hx.le, hy, fun _ => hx, fun h => by simp at h⟩
        · exact hc t h
      · exact ⟨x :: r, List.suffix_rfl, by simp [hr], by simp⟩

theorem mem_getLast {l : List HP3} {z : HP3} (h : l.getLast? = some z) : z ∈ l := List.mem_of_getLast? h

theorem InvS.fan {mono : Fin 3} {vs : List HP3} {z : HP3} {stk : List HP3} {s0 : HP3} {top : Bool} {ts bs : List HP3}
    (h : InvS mono vs z stk s0 top ts bs) {v : HP3} (hv : if top then v ∈ bs else v ∈ ts ++ [z]) :
    ∀ t ∈ switchTris top v (stk ++ [s0]).reverse, t.Beyond mono := by
  have hz := mem_getLast h.last
  have hvin : v ∈ ts ++ bs := by
    cases top
    · simp at hv ⊢; rcases hv with h1 | h1
      · exact Or.inl h1
      · subst h1; exact Or.inr hz
    · simp at hv ⊢; exact Or.inr hv
  refine switch_beyond v _ top (fun a ha => h.le a (by simpa [or_comm] using ha) v hvin) ?_
  cases top
  · simp only [Bool.false_eq_true, if_false] at hv ⊢
    intro a ha
    simp only [List.reverse_append, List.reverse_cons, List.reverse_nil, List.nil_append, List.cons_append,
      List.mem_cons, List.mem_reverse] at ha
    rcases ha with h1 | h1
    · rw [h1]; exact h.s0Ts rfl v hv
    · exact h.stkTs a h1 v hv
  · simp only [if_true] at hv ⊢
    intro a ha
    cases stk with
    | nil => simp at ha
    | cons back r =>
      have : ((back :: r) ++ [s0]).reverse.dropLast = s0 :: r.reverse := by
        have e : ((back :: r) ++ [s0]).reverse = (s0 :: r.reverse) ++ [back] := by simp
        rw [e, List.dropLast_concat]
      rw [this] at ha
      rcases List.mem_cons.1 ha with h1 | h1
      · rw [h1]; exact h.s0Bs rfl v hv
      · have h2 := (List.pairwise_cons.1 h.asc).1 a (by simpa using h1)
        have h3 := h.le back (by simp) v (by simp [hv])
        linarith

theorem process_strict {drop mono : Fin 3} {vs : List HP3}
    {z : HP3} {stk : List HP3} {s0 : HP3} {top : Bool} {ts bs : List HP3} {v : HP3} {isTop : Bool}
    (h : InvS mono vs z stk s0 top (if isTop then v :: ts else ts) (if isTop then bs else v :: bs))
    (hne : stk ≠ []) (hbs : bs ≠ []) (hmin : ∀ b ∈ ts ++ bs, v.pt mono ≤ b.pt mono)
    (hstrict : isTop = false → ∀ b ∈ ts, v.pt mono < b.pt mono) :
    ∃ out stk' s0', processVertex drop isTop v ⟨stk ++ [s0], top⟩ = some (out, ⟨stk' ++ [s0'], isTop⟩) ∧
      stk' ≠ [] ∧ InvS mono vs z stk' s0' isTop ts bs ∧ ∀ t ∈ out, t.Beyond mono := by
  have hlast : bs.getLast? = some z := by
    have := h.last
    cases isTop
    · simp only [Bool.false_eq_true, if_false] at this
      cases bs with
      | nil => exact absurd rfl hbs
      | cons c bs => simpa using this
    · simpa using this
  have hzb := mem_getLast hlast
  have hvin : v ∈ (if isTop then v :: ts else ts) ++ (if isTop then bs else v :: bs) := by
    cases isTop <;> simp
  have hlev : ∀ a ∈ stk ++ [s0], a.pt mono ≤ v.pt mono := fun a ha => h.le a ha v hvin
  have hle' : ∀ a ∈ stk ++ [s0], ∀ b ∈ ts ++ bs, a.pt mono ≤ b.pt mono := by
    intro a ha b hb
    refine h.le a ha b ?_
    cases isTop <;> simp at hb ⊢ <;> tauto
  have hmem' : ∀ a ∈ ts ++ bs, a ∈ vs := by
    intro a ha
    refine h.mem a ?_
    cases isTop <;> simp at ha ⊢ <;> tauto
  have htsz : (ts ++ [z]).Pairwise fun a b => a.pt mono < b.pt mono := by
    have := h.tsAsc
    cases isTop
    · simpa using this
    · simp only [if_true, List.cons_append] at this; exact (List.pairwise_cons.1 this).2
  have hbsa : bs.Pairwise fun a b => a.pt mono < b.pt mono := by
    have := h.bsAsc
    cases isTop
    · simp only [Bool.false_eq_true, if_false] at this; exact (List.pairwise_cons.1 this).2
    · simpa using this
  have hvTs : ∀ t ∈ ts ++ [z], v.pt mono < t.pt mono := by
    cases isTop
    · intro t ht
      rcases List.mem_append.1 ht with h1 | h1
      · exact hstrict rfl t h1
      · simp at h1; subst h1
        have := h.bsAsc
        simp only [Bool.false_eq_true, if_false] at this
        exact (List.pairwise_cons.1 this).1 t hzb
    · have := h.tsAsc
      simp only [if_true, List.cons_append] at this
      exact (List.pairwise_cons.1 this).1
  have hvBs : isTop = false → ∀ b ∈ bs, v.pt mono < b.pt mono := by
    rintro rfl
    have := h.bsAsc
    simp only [Bool.false_eq_true, if_false] at this
    exact (List.pairwise_cons.1 this).1
  have hstkTs : ∀ a ∈ stk, ∀ t ∈ ts ++ [z], a.pt mono < t.pt mono := by
    intro a ha t ht
    refine h.stkTs a ha t ?_
    cases isTop <;> simp at ht ⊢ <;> tauto
  by_cases hsame : isTop = top
  · subst hsame
    have hstkv : ∀ a ∈ stk, a.pt mono < v.pt mono := by
      cases isTop
      · exact fun a ha => h.stkBs rfl a ha v (by simp)
      · exact fun a ha => h.stkTs a ha v (by simp)
    obtain ⟨stk', hs, he, hc⟩ := pop_beyond (drop := drop) isTop v stk s0 hlev hstkv
    have hs' : stk' ++ [s0] <:+ stk ++ [s0] := by
      obtain ⟨x, hx⟩ := hs; exact ⟨x, by rw [← hx]; simp⟩
    refine ⟨_, v :: stk', s0, ?_, by simp, ?_, hc⟩
    · unfold processVertex
      have : 1 ≤ stk.length := List.length_pos_iff.2 hne
      rw [if_neg (by simp; omega), if_neg (by simp)]
      simp [he]
    · refine ⟨hmem', hlast, ?_, htsz, hbsa, ?_, ?_, ?_, ?_, ?_⟩
      · rw [List.pairwise_cons]
        exact ⟨fun a ha => hstkv a (hs.subset ha), h.asc.sublist hs.sublist⟩
      · intro a ha x hx
        rw [List.cons_append] at ha
        rcases List.mem_cons.1 ha with h1 | h1
        · rw [h1]; exact hmin x hx
        · exact hle' a (hs'.subset h1) x hx
      · intro a ha t ht
        rcases List.mem_cons.1 ha with h1 | h1
        · rw [h1]; exact hvTs t ht
        · exact hstkTs a (hs.subset h1) t ht
      · intro hf a ha b hb
        rcases List.mem_cons.1 ha with h1 | h1
        · rw [h1]; exact hvBs hf b hb
        · subst hf; exact h.stkBs rfl a (hs.subset h1) b (by simp [hb])
      · intro hf t ht
        subst hf; exact h.s0Ts rfl t (by simpa using ht)
      · intro hf b hb
        subst hf; exact h.s0Bs rfl b (by simpa using hb)
  · have htop : top = !isTop := by cases isTop <;> cases top <;> simp at hsame ⊢
    subst htop
    obtain ⟨back, r, hbr⟩ : ∃ back r, stk = back :: r := by
      cases stk with
      | nil => exact absurd rfl hne
      | cons b r => exact ⟨b, r, rfl⟩
    have hbm : back ∈ stk := by rw [hbr]; simp
    refine ⟨switchTris (!isTop) v (stk ++ [s0]).reverse, [v], back, ?_, by simp, ?_, ?_⟩
    · unfold processVertex
      have : 1 ≤ stk.length := List.length_pos_iff.2 hne
      rw [if_neg (by simp; omega), if_pos (by simp)]
      simp [switchChains, hbr]
    · refine ⟨hmem', hlast, by simp, htsz, hbsa, ?_, ?_, ?_, ?_, ?_⟩
      · intro a ha b hb
        simp only [List.cons_append, List.nil_append, List.mem_cons, List.not_mem_nil, or_false] at ha
        rcases ha with h1 | h1
        · rw [h1]; exact hmin b hb
        · rw [h1]; exact hle' back (by simp [hbm]) b hb
      · intro a ha t ht
        simp at ha; rw [ha]; exact hvTs t ht
      · intro hf a ha b hb
        simp at ha; rw [ha]; exact hvBs hf b hb
      · intro _ t ht; exact hstkTs back hbm t ht
      · intro hf b hb
        subst hf
        exact h.stkBs rfl back hbm b (by simpa using hb)
    · refine h.fan ?_
      cases isTop <;> simp

theorem finish_strict {drop mono : Fin 3} {vs : List HP3} {z : HP3} :
    ∀ (bs : List HP3) (stk : List HP3) (s0 : HP3) (top : Bool), stk ≠ [] →
      InvS mono vs z stk s0 top [] bs → ∀ out st,
      finishBottom drop bs ⟨stk ++ [s0], top⟩ = some (out, st) → ∀ t ∈ out, t.Beyond mono := by
  intro bs
  induction bs with
  | nil => intro stk s0 top _ h; have := h.last; simp at this
  | cons v rest ih =>
    intro stk s0 top hne h out st ho
    cases rest with
    | nil =>
      have hz : v = z := by have := h.last; simpa using this
      subst hz
      obtain ⟨back, r, hbr⟩ : ∃ back r, stk = back :: r := by
        cases stk with
        | nil => exact absurd rfl hne
        | cons b r => exact ⟨b, r, rfl⟩
      simp only [finishBottom, switchChains, hbr, List.cons_append] at ho
      simp at ho
      obtain ⟨rfl, rfl⟩ := ho
      have := h.fan (v := v) (by cases top <;> simp)
      rw [hbr] at this
      simpa using this
    | cons w rest =>
      obtain ⟨o1, stk', s0', hp, hne', hinv, hc⟩ := process_strict (drop := drop) (v := v) (isTop := false) (ts := [])
        (bs := w :: rest) (by simpa using h) hne (by simp) (by
          intro b hb; exact ((List.pairwise_cons.1 h.bsAsc).1 b (by simpa using hb)).le) (by simp)
      simp only [finishBottom, hp, bind, Option.bind] at ho
      cases hq : finishBottom drop (w :: rest) ⟨stk' ++ [s0'], false⟩ with
      | none => simp [hq] at ho
      | some q =>
        obtain ⟨o2, st2⟩ := q
        simp only [hq, pure, Option.some.injEq, Prod.mk.injEq] at ho
        obtain ⟨rfl, rfl⟩ := ho
        intro t ht
        rcases List.mem_append.1 ht with h1 | h1
        · exact hc t h1
        · exact ih stk' s0' false hne' hinv o2 st2 hq t h1

theorem main_strict {drop mono : Fin 3} {vs : List HP3} (hT : Tame drop vs) {z : HP3} :
    ∀ (n : Nat) (ts bs : List HP3) (stk : List HP3) (s0 : HP3) (top : Bool), ts.length + bs.length = n → stk ≠ [] →
      InvS mono vs z stk s0 top ts bs → ∀ out st,
      mainLoop drop mono ts bs ⟨stk ++ [s0], top⟩ = some (out, st) → ∀ t ∈ out, t.Beyond mono := by
  intro n
  induction n with
  | zero =>
    intro ts bs stk s0 top hn _ h
    have h2 : bs = [] := List.length_eq_zero_iff.1 (by omega)
    subst h2; have := h.last; simp at this
  | succ n ih =>
    intro ts bs stk s0 top hn hne h out st ho
    cases ts with
    | nil => rw [mainLoop] at ho; exact finish_strict bs stk s0 top hne h out st ho
    | cons t ts =>
      cases bs with
      | nil => have := h.last; simp at this
      | cons b bs =>
        have hcmp := hT.comp (mono := mono) (a := b) (b := t) (h.mem b (by simp)) (h.mem t (by simp))
        have hlow := List.pairwise_cons.1 h.bsAsc
        have hup := h.tsAsc
        rw [List.cons_append, List.pairwise_cons] at hup
        rw [mainLoop] at ho
        split at ho
        · rename_i hlt
          rw [hcmp] at hlt
          have hbs : bs ≠ [] := by
            rintro rfl
            have hz : b = z := by have := h.last; simpa using this
            subst hz
            have := hup.1 b (by simp)
            linarith
          obtain ⟨o1, stk', s0', hp, hne', hinv, hc⟩ := process_strict (drop := drop) (v := b) (isTop := false) (ts := t :: ts)
            (bs := bs) (by simpa using h) hne hbs (by
              intro x hx
              simp only [List.cons_append, List.mem_cons, List.mem_append] at hx
              rcases hx with h1 | h1 | h1
              · subst h1; exact hlt.le
              · exact hlt.le.trans (hup.1 x (by simp [h1])).le
              · exact (hlow.1 x h1).le) (by
              intro _ x hx
              rcases List.mem_cons.1 hx with h1 | h1
              · subst h1; exact hlt
              · exact hlt.trans (hup.1 x (by simp [h1])))
          simp only [hp, bind, Option.bind] at ho
          cases hq : mainLoop drop mono (t :: ts) bs ⟨stk' ++ [s0'], false⟩ with
          | none => simp [hq] at ho
          | some q =>
            obtain ⟨o2, st2⟩ := q
            simp only [hq, pure, Option.some.injEq, Prod.mk.injEq] at ho
            obtain ⟨rfl, rfl⟩ := ho
            intro x hx
            rcases List.mem_append.1 hx with h1 | h1
            · exact hc x h1
            · exact ih (t :: ts) bs stk' s0' false (by simp at hn ⊢; omega) hne' hinv o2 st2 hq x h1
        · rename_i hlt
          rw [hcmp] at hlt
          obtain ⟨o1, stk', s0', hp, hne', hinv, hc⟩ := process_strict (drop := drop) (v := t) (isTop := true) (ts := ts)
            (bs := b :: bs) (by simpa using h) hne (by simp) (by
              intro x hx
              simp only [List.mem_append, List.mem_cons] at hx
              rcases hx with h1 | h1 | h1
              · exact (hup.1 x (by simp [h1])).le
              · subst h1; exact not_lt.1 hlt
              · exact (not_lt.1 hlt).trans (hlow.1 x h1).le) (by simp)
          simp only [hp, bind, Option.bind] at ho
          cases hq : mainLoop drop mono ts (b :: bs) ⟨stk' ++ [s0'], true⟩ with
          | none => simp [hq] at ho
          | some q =>
            obtain ⟨o2, st2⟩ := q
            simp only [hq, pure, Option.some.injEq, Prod.mk.injEq] at ho
            obtain ⟨rfl, rfl⟩ := ho
            intro x hx
            rcases List.mem_append.1 hx with h1 | h1
            · exact hc x h1
            · exact ih ts (b :: bs) stk' s0' true (by simp at hn ⊢; omega) hne' hinv o2 st2 hq x h1

theorem triangulate_strict {drop mono : Fin 3} {t0 z : HP3} {top bottom : List HP3} {out : List Tri} {st0 st : List HP3}
    (hT : Tame drop (t0 :: top ++ bottom))
    (hup : (t0 :: top ++ [z]).Pairwise fun a b => a.pt mono < b.pt mono)
    (hlow : (t0 :: bottom).Pairwise fun a b => a.pt mono < b.pt mono) (hz : bottom.getLast? = some z)
    (h : triangulate drop mono st0 (t0 :: top) bottom = some (out, st)) : ∀ t ∈ out, t.Beyond mono := by
  unfold triangulate at h
  split at h
  · exact absurd h (by simp)
  rw [List.cons_append, List.pairwise_cons] at hup
  rw [List.pairwise_cons] at hlow
  cases bottom with
  | nil => simp at hz
  | cons b bs =>
    have hlow2 := List.pairwise_cons.1 hlow.2
    cases top with
    | nil =>
      simp only at h
      have hbs : bs ≠ [] := by rintro rfl; simp [mainLoop, finishBottom] at h
      have hz' : bs.getLast? = some z := by
        cases bs with
        | nil => exact absurd rfl hbs
        | cons c bs => simpa using hz
      refine main_strict hT (z := z) _ [] bs [b] t0 false rfl (by simp) ?_ out st (by simpa using h)
      refine ⟨?_, hz', by simp, by simp, hlow2.2, ?_, ?_, ?_, ?_, by simp⟩
      · intro a ha; simp at ha; simp [ha]
      · intro a ha x hx
        simp at ha hx
        rcases ha with h1 | h1
        · rw [h1]; exact (hlow2.1 x hx).le
        · rw [h1]; exact (hlow.1 x (by simp [hx])).le
      · intro a ha t ht
        simp at ha ht; rw [ha, ht]; exact hlow2.1 z (mem_getLast hz')
      · intro _ a ha x hx
        simp at ha; rw [ha]; exact hlow2.1 x hx
      · intro _ t ht
        simp at ht; rw [ht]; exact hup.1 z (by simp)
    | cons t ts =>
      simp only at h
      have hcmp := hT.comp (mono := mono) (a := b) (b := t) (by simp) (by simp)
      have hup2 : (t :: (ts ++ [z])).Pairwise fun a b => a.pt mono < b.pt mono := by simpa using hup.2
      rw [List.pairwise_cons] at hup2
      split at h
      · rename_i hlt
        rw [hcmp] at hlt
        have hbs : bs ≠ [] := by
          rintro rfl
          have hz' : b = z := by simpa using hz
          subst hz'
          have := hup2.1 b (by simp)
          linarith
        have hz' : bs.getLast? = some z := by
          cases bs with
          | nil => exact absurd rfl hbs
          | cons c bs => simpa using hz
        refine main_strict hT (z := z) _ (t :: ts) bs [b] t0 false rfl (by simp) ?_ out st (by simpa using h)
        refine ⟨?_, hz', by simp, by simpa using hup.2, hlow2.2, ?_, ?_, ?_, ?_, by simp⟩
        · intro a ha; simp at ha ⊢; tauto
        · intro a ha x hx
          simp only [List.cons_append, List.nil_append, List.mem_cons, List.not_mem_nil, or_false] at ha
          simp only [List.cons_append, List.mem_cons, List.mem_append] at hx
          rcases ha with h1 | h1
          · rw [h1]
            rcases hx with h2 | h2 | h2
            · rw [h2]; exact hlt.le
            · exact hlt.le.trans (hup2.1 x (by simp [h2])).le
            · exact (hlow2.1 x h2).le
          · rw [h1]
            rcases hx with h2 | h2 | h2
            · rw [h2]; exact (hup.1 _ (by simp)).le
            · exact (hup.1 x (by simp [h2])).le
            · exact (hlow.1 x (by simp [h2])).le
        · intro a ha x hx
          simp only [List.mem_cons, List.not_mem_nil, or_false] at ha
          rw [ha]
          rw [List.cons_append] at hx
          rcases List.mem_cons.1 hx with h2 | h2
          · rw [h2]; exact hlt
          · exact hlt.trans (hup2.1 x h2)
        · intro _ a ha x hx
          simp at ha; rw [ha]; exact hlow2.1 x hx
        · intro _ x hx
          exact hup.1 x (by simpa using hx)
      · rename_i hlt
        rw [hcmp] at hlt
        refine main_strict hT (z := z) _ ts (b :: bs) [t] t0 true rfl (by simp) ?_ out st (by simpa using h)
        refine ⟨?_, hz, by simp, hup2.2, hlow.2, ?_, ?_, by simp, by simp, ?_⟩
        · intro a ha; simp at ha ⊢; tauto
        · intro a ha x hx
          simp only [List.cons_append, List.nil_append, List.mem_cons, List.not_mem_nil, or_false] at ha
          simp only [List.mem_cons, List.mem_append] at hx
          rcases ha with h1 | h1
          · rw [h1]
            rcases hx with h2 | h2 | h2
            · exact (hup2.1 x (by simp [h2])).le
            · rw [h2]; exact not_lt.1 hlt
            · exact (not_lt.1 hlt).trans (hlow2.1 x h2).le
          · rw [h1]
            rcases hx with h2 | h2 | h2
            · exact (hup.1 x (by simp [h2])).le
            · rw [h2]; exact (hlow.1 _ (by simp)).le
            · exact (hlow.1 x (by simp [h2])).le
        · intro a ha x hx
          simp at ha; rw [ha]; exact hup2.1 x hx
        · intro _ x hx; exact hlow.1 x hx

end Walnut.Mono
