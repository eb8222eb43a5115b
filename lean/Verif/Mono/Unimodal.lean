/-
A closed polyline that goes down in one dimension, then up, and never turns against its orientation is convex.
-/
import Verif.Mono.ConvexProof

namespace Walnut.Mono
open Walnut.Geom

theorem Turns.infix {α : Type} {P : α → α → α → Prop} {l l' : List α} (h : Turns P l) (hi : l' <:+: l) : Turns P l' :=
  (turns_iff l').1 fun a b c habc => (turns_iff l).2 h a b c (habc.trans hi)

theorem Turns.imp {α : Type} {P Q : α → α → α → Prop} {l : List α} (h : Turns P l) (hi : ∀ a b c, P a b c → Q a b c) : Turns Q l :=
  (turns_iff l).1 fun a b c habc => hi _ _ _ ((turns_iff l).2 h a b c habc)

theorem Cyc.double {α : Type} {P : α → α → α → Prop} : ∀ {l : List α}, Cyc P l → Turns P (l ++ l)
  | [], _ => trivial
  | [_], _ => trivial
  | a :: b :: r, h => (turns_append (a :: b :: r) a b r).2 ⟨h, Turns.infix h ⟨[], (a :: b :: r).take 2, by simp⟩⟩

/-- The turn from `a` through `b` to `c`, times `s`. -/
def Left (drop : Fin 3) (s : ℚ) (a b c : HP3) : Prop := 0 ≤ s * turnAt drop a.pt b.pt c.pt

theorem left_far {drop mono : Fin 3} (hm : mono ≠ drop) {s d : ℚ} {a b c e : HP3} (h1 : Left drop s a b c) (h2 : Left drop s b c e)
    (hab : d * a.pt mono < d * b.pt mono) (hbc : d * b.pt mono < d * c.pt mono) (hce : d * c.pt mono < d * e.pt mono) :
    Left drop s a b e ∧ Left drop s a c e := by
  unfold Left at *
  have e1 : (d * c.pt mono - d * b.pt mono) * (s * turnAt drop a.pt b.pt e.pt) =
      (d * e.pt mono - d * b.pt mono) * (s * turnAt drop a.pt b.pt c.pt) + (d * b.pt mono - d * a.pt mono) * (s * turnAt drop b.pt c.pt e.pt) := by
    fin_cases drop <;> fin_cases mono <;> simp_all [turnAt] <;> ring
  have e2 : (d * c.pt mono - d * b.pt mono) * (s * turnAt drop a.pt c.pt e.pt) =
      (d * c.pt mono - d * a.pt mono) * (s * turnAt drop b.pt c.pt e.pt) + (d * e.pt mono - d * c.pt mono) * (s * turnAt drop a.pt b.pt c.pt) := by
    fin_cases drop <;> fin_cases mono <;> simp_all [turnAt] <;> ring
  have hp : 0 < d * c.pt mono - d * b.pt mono := by linarith
  constructor
  · refine nonneg_of_mul_nonneg_right (a := d * c.pt mono - d * b.pt mono) ?_ hp
    rw [e1]
    exact add_nonneg (mul_nonneg (by linarith) h1) (mul_nonneg (by linarith) h2)
  · refine nonneg_of_mul_nonneg_right (a := d * c.pt mono - d * b.pt mono) ?_ hp
    rw [e2]
    exact add_nonneg (mul_nonneg (by linarith) h2) (mul_nonneg (by linarith) h1)

/-- In a chain that goes one way and only turns left, any three vertices turn left. -/
theorem chain_left {drop mono : Fin 3} (hm : mono ≠ drop) {s d : ℚ} : ∀ {l : List HP3}, l.Pairwise (fun a b => d * a.pt mono < d * b.pt mono) →
    Turns (Left drop s) l → ∀ a b c, [a, b, c].Sublist l → Left drop s a b c := by
  intro l
  induction l with
  | nil => intro _ _ a b c h; simp at h
  | cons x l ih =>
    intro hp ht a b c h
    have hp' := List.pairwise_cons.1 hp
    have ht' : Turns (Left drop s) l := Turns.infix ht (List.suffix_cons _ _).isInfix
    rcases List.sublist_cons_iff.1 h with h | ⟨r, hr, h⟩
    · exact ih hp'.2 ht' a b c h
    · simp only [List.cons.injEq] at hr
      obtain ⟨rfl, rfl⟩ := hr
      match l, hp, hp', ht, ht', h, ih with
      | [], _, _, _, _, h, _ => simp at h
      | [y], _, _, _, _, h, _ => have := h.length_le; simp at this
      | y :: z :: l, hp, hp', ht, ht', h, ih =>
        have hxy : d * a.pt mono < d * y.pt mono := hp'.1 y (by simp)
        have p2 := List.pairwise_cons.1 hp'.2
        have first : ∀ e ∈ z :: l, Left drop s a y e := by
          intro e he
          rcases List.mem_cons.1 he with rfl | he
          · exact ht.1
          · have h3 : Left drop s y z e := ih hp'.2 ht' y z e
              (List.Sublist.cons_cons _ (List.Sublist.cons_cons _ (List.singleton_sublist.2 he)))
            exact (left_far hm ht.1 h3 hxy (p2.1 z (by simp)) ((List.pairwise_cons.1 p2.2).1 e he)).1
        rcases List.sublist_cons_iff.1 h with h | ⟨r, hr, h⟩
        · have h3 : Left drop s y b c := ih hp'.2 ht' y b c (List.Sublist.cons_cons _ h)
          have hb : b ∈ z :: l := h.subset (by simp)
          have hbc := (List.pairwise_iff_forall_sublist.1 p2.2) h
          exact (left_far hm (first b hb) h3 hxy (p2.1 b hb) hbc).2
        · simp only [List.cons.injEq] at hr
          obtain ⟨rfl, rfl⟩ := hr
          exact first c (List.singleton_sublist.1 h)

theorem left_self {drop : Fin 3} {s : ℚ} {a b : HP3} : Left drop s a b a ∧ Left drop s a b b := by
  constructor <;> simp only [Left, turnAt] <;> ring_nf <;> exact le_rfl

theorem left_rot {drop : Fin 3} {s : ℚ} {a b c : HP3} (h : Left drop s a b c) : Left drop s b c a := by
  have : turnAt drop b.pt c.pt a.pt = turnAt drop a.pt b.pt c.pt := by simp only [turnAt]; ring
  unfold Left; rw [this]; exact h

/-- Two chains between the same ends, one there and one back: all vertices are on the left of each edge of the first chain. -/
theorem chains_left {drop mono : Fin 3} (hm : mono ≠ drop) {s d : ℚ} {U V : List HP3} {m M : HP3}
    (hU : (m :: U ++ [M]).Pairwise (fun a b => d * a.pt mono < d * b.pt mono)) (tU : Turns (Left drop s) (m :: U ++ [M]))
    (hV : (M :: V ++ [m]).Pairwise (fun a b => -d * a.pt mono < -d * b.pt mono)) (tV : Turns (Left drop s) (M :: V ++ [m]))
    {a b : HP3} (h : [a, b] <:+: m :: U ++ [M]) : ∀ v ∈ (m :: U ++ [M]) ++ (M :: V ++ [m]), Left drop s a b v := by
  have same : ∀ v ∈ m :: U ++ [M], Left drop s a b v := by
    intro v hv
    obtain ⟨p, q, e⟩ := h
    rw [← e] at hv
    have key := chain_left hm hU tU
    rw [← e] at key
    simp only [List.mem_append, List.mem_cons, List.not_mem_nil, or_false] at hv
    rcases hv with (hv | rfl | rfl) | hv
    · refine left_rot (key v a b ?_)
      exact List.Sublist.trans (List.Sublist.append (List.singleton_sublist.2 hv) (List.Sublist.refl [a, b])) (List.sublist_append_left _ _)
    · exact left_self.1
    · exact left_self.2
    · refine key a b v ?_
      rw [List.append_assoc]
      refine List.Sublist.trans ?_ (List.sublist_append_right _ _)
      exact List.Sublist.append (List.Sublist.refl [a, b]) (List.singleton_sublist.2 hv)
  intro v hv
  rcases List.mem_append.1 hv with hv | hv
  · exact same v hv
  · have hab : d * a.pt mono < d * b.pt mono := List.pairwise_iff_forall_sublist.1 hU h.sublist
    have lm := same m (by simp)
    have lM := same M (by simp)
    simp only [List.cons_append, List.mem_cons, List.mem_append, List.not_mem_nil, or_false] at hv
    rcases hv with rfl | hv | rfl
    · exact lM
    · have t : Left drop s M v m := chain_left hm hV tV M v m (by
        refine List.Sublist.cons_cons _ ?_
        exact List.Sublist.append (List.singleton_sublist.2 hv) (List.Sublist.refl [m]))
      have t' := left_rot (left_rot t)
      rw [List.cons_append, List.pairwise_cons] at hV
      have h1 := hV.1 v (by simp [hv])
      have h2 := (List.pairwise_append.1 hV.2).2.2 v hv m (by simp)
      unfold Left at lm lM t' ⊢
      have e1 : (d * M.pt mono - d * m.pt mono) * (s * turnAt drop a.pt b.pt v.pt) =
          (d * M.pt mono - d * v.pt mono) * (s * turnAt drop a.pt b.pt m.pt) + (d * v.pt mono - d * m.pt mono) * (s * turnAt drop a.pt b.pt M.pt) +
          (d * b.pt mono - d * a.pt mono) * (s * turnAt drop m.pt M.pt v.pt) := by
        fin_cases drop <;> fin_cases mono <;> simp_all [turnAt] <;> ring
      refine nonneg_of_mul_nonneg_right (a := d * M.pt mono - d * m.pt mono) ?_ (by linarith)
      rw [e1]
      exact add_nonneg (add_nonneg (mul_nonneg (by linarith) lm) (mul_nonneg (by linarith) lM)) (mul_nonneg (by linarith) t')
    · exact lm

theorem ring_left {drop mono : Fin 3} (hm : mono ≠ drop) {s : ℚ} {l U V : List HP3} {m M : HP3}
    (hU : (m :: U ++ [M]).Pairwise (fun a b => a.pt mono < b.pt mono)) (hV : (M :: V ++ [m]).Pairwise (fun a b => b.pt mono < a.pt mono))
    (hc : Cyc (Left drop s) l) (iU : m :: U ++ [M] <:+: l ++ l) (iV : M :: V ++ [m] <:+: l ++ l)
    (hl : ∀ v ∈ l, v ∈ (m :: U ++ [M]) ++ (M :: V ++ [m])) {a b : HP3}
    (h : [a, b] <:+: m :: U ++ [M] ∨ [a, b] <:+: M :: V ++ [m]) : ∀ v ∈ l, Left drop s a b v := by
  have td := hc.double
  intro v hv
  rcases h with h | h
  · exact chains_left hm (d := 1) (by simpa using hU) (td.infix iU) (by simpa using hV) (td.infix iV) h v (hl v hv)
  · refine chains_left hm (d := -1) (by simpa using hV) (td.infix iV) (by simpa using hU) (td.infix iU) h v ?_
    have := hl v hv
    simp only [List.mem_append] at this ⊢
    tauto

theorem chain_of_infix {α : Type} {R : α → α → Prop} : ∀ {l : List α}, (∀ a b, [a, b] <:+: l → R a b) → l.IsChain R
  | [], _ => List.IsChain.nil
  | [a], _ => List.IsChain.singleton a
  | a :: b :: l, h => List.isChain_cons_cons.2 ⟨h a b ⟨[], l, by simp⟩,
      chain_of_infix fun x y hx => h x y (hx.trans (List.suffix_cons _ _).isInfix)⟩

/-- A closed polyline that goes down, then up, and never turns right, has all vertices on the left of each edge. -/
theorem unimodal_left {drop mono : Fin 3} (hm : mono ≠ drop) {s : ℚ} {D B : List HP3} {tk t1 b1 bl : HP3}
    (hD : D.Pairwise (fun a b => b.pt mono < a.pt mono)) (hB : B.Pairwise (fun a b => a.pt mono < b.pt mono))
    (hc : Cyc (Left drop s) (D ++ B)) (e1 : D.head? = some tk) (e2 : D.getLast? = some t1) (e3 : B.head? = some b1)
    (e4 : B.getLast? = some bl) (n1 : t1.pt mono ≠ b1.pt mono) (n2 : tk.pt mono ≠ bl.pt mono) :
    (D ++ B ++ [tk]).IsChain fun a b => ∀ v ∈ D ++ B, Left drop s a b v := by
  obtain ⟨D1, rfl⟩ : ∃ D1, D = tk :: D1 := by
    cases D with
    | nil => simp at e1
    | cons x D1 => simp at e1; exact ⟨D1, by rw [e1]⟩
  obtain ⟨D2, d2⟩ : ∃ D2, tk :: D1 = D2 ++ [t1] := List.getLast?_eq_some_iff.1 e2
  obtain ⟨B1, rfl⟩ : ∃ B1, B = b1 :: B1 := by
    cases B with
    | nil => simp at e3
    | cons x B1 => simp at e3; exact ⟨B1, by rw [e3]⟩
  obtain ⟨B2, b2⟩ : ∃ B2, b1 :: B1 = B2 ++ [bl] := List.getLast?_eq_some_iff.1 e4
  have hBlow : ∀ x ∈ b1 :: B1, b1.pt mono ≤ x.pt mono := by
    intro x hx
    rcases List.mem_cons.1 hx with rfl | hx
    · exact le_rfl
    · exact ((List.pairwise_cons.1 hB).1 x hx).le
  have hDhigh : ∀ x ∈ tk :: D1, x.pt mono ≤ tk.pt mono := by
    intro x hx
    rcases List.mem_cons.1 hx with rfl | hx
    · exact le_rfl
    · exact ((List.pairwise_cons.1 hD).1 x hx).le
  have hBhigh : ∀ x ∈ b1 :: B1, x.pt mono ≤ bl.pt mono := by
    intro x hx
    rw [b2] at hx hB
    rcases List.mem_append.1 hx with hx | hx
    · exact ((List.pairwise_append.1 hB).2.2 x hx bl (by simp)).le
    · simp at hx; rw [hx]
  have hDlow : ∀ x ∈ tk :: D1, t1.pt mono ≤ x.pt mono := by
    intro x hx
    rw [d2] at hx hD
    rcases List.mem_append.1 hx with hx | hx
    · exact ((List.pairwise_append.1 hD).2.2 x hx t1 (by simp)).le
    · simp at hx; rw [hx]
  have mt1 : t1 ∈ tk :: D1 := by rw [d2]; simp
  have mbl : bl ∈ b1 :: B1 := by rw [b2]; simp
  -- the ascending chain, the descending one, and the two steps between the parts
  have fin : ∀ (m M : HP3) (U V : List HP3), (m :: U ++ [M]).Pairwise (fun a b => a.pt mono < b.pt mono) →
      (M :: V ++ [m]).Pairwise (fun a b => b.pt mono < a.pt mono) →
      m :: U ++ [M] <:+: (tk :: D1 ++ b1 :: B1) ++ (tk :: D1 ++ b1 :: B1) →
      M :: V ++ [m] <:+: (tk :: D1 ++ b1 :: B1) ++ (tk :: D1 ++ b1 :: B1) →
      tk :: D1 <:+: M :: V ++ [m] → b1 :: B1 <:+: m :: U ++ [M] →
      ([t1, b1] <:+: m :: U ++ [M] ∨ [t1, b1] <:+: M :: V ++ [m]) →
      ([bl, tk] <:+: m :: U ++ [M] ∨ [bl, tk] <:+: M :: V ++ [m]) →
      (tk :: D1 ++ b1 :: B1 ++ [tk]).IsChain fun a b => ∀ v ∈ tk :: D1 ++ b1 :: B1, Left drop s a b v := by
    intro m M U V hU hV iU iV iD iB c1 c2
    have key : ∀ {a b : HP3}, ([a, b] <:+: m :: U ++ [M] ∨ [a, b] <:+: M :: V ++ [m]) → ∀ v ∈ tk :: D1 ++ b1 :: B1, Left drop s a b v := by
      intro a b h
      refine ring_left hm hU hV hc iU iV ?_ h
      intro v hv
      rcases List.mem_append.1 hv with hv | hv
      · exact List.mem_append_right _ (iD.subset hv)
      · exact List.mem_append_left _ (iB.subset hv)
    have k1 := key c1
    have k2 := key c2
    rw [List.append_assoc]
    refine List.IsChain.append (chain_of_infix fun a b h => key (Or.inr (h.trans iD))) ?_ ?_
    · refine List.IsChain.append (chain_of_infix fun a b h => key (Or.inl (h.trans iB))) (List.IsChain.singleton _) ?_
      intro x hx y hy
      rw [e4] at hx
      simp only [List.head?_cons, Option.mem_def, Option.some.injEq] at hx hy
      subst hx hy
      exact k2
    · intro x hx y hy
      rw [e2] at hx
      simp only [List.cons_append, List.head?_cons, Option.mem_def, Option.some.injEq] at hx hy
      subst hx hy
      exact k1
  have up : ∀ {x y : HP3} {l : List HP3}, l.Pairwise (fun a b => a.pt mono < b.pt mono) → (∀ z ∈ l, z.pt mono < y.pt mono) →
      (l ++ [y]).Pairwise (fun a b => a.pt mono < b.pt mono) := by
    intro x y l h1 h2
    refine List.pairwise_append.2 ⟨h1, List.pairwise_singleton _ _, ?_⟩
    intro a ha b hb; simp at hb; rw [hb]; exact h2 a ha
  have down : ∀ {y : HP3} {l : List HP3}, l.Pairwise (fun a b => b.pt mono < a.pt mono) → (∀ z ∈ l, y.pt mono < z.pt mono) →
      (l ++ [y]).Pairwise (fun a b => b.pt mono < a.pt mono) := by
    intro y l h1 h2
    refine List.pairwise_append.2 ⟨h1, List.pairwise_singleton _ _, ?_⟩
    intro a ha b hb; simp at hb; rw [hb]; exact h2 a ha
  rcases lt_or_gt_of_ne n1 with h1 | h1 <;> rcases lt_or_gt_of_ne n2 with h2 | h2
  · -- from `t1` to `bl`
    refine fin t1 bl B2 D2 ?_ ?_ ?_ ?_ ?_ ?_ (Or.inl ?_) (Or.inr ?_)
    · rw [List.cons_append, ← b2]
      exact List.pairwise_cons.2 ⟨fun x hx => by linarith [hBlow x hx], hB⟩
    · rw [List.cons_append, ← d2]
      exact List.pairwise_cons.2 ⟨fun x hx => by linarith [hDhigh x hx], hD⟩
    · rw [List.cons_append, ← b2, d2]
      exact ⟨D2, D2 ++ [t1] ++ b1 :: B1, by simp⟩
    · rw [List.cons_append, ← d2, b2]
      exact ⟨tk :: D1 ++ B2, B2 ++ [bl], by simp⟩
    · rw [List.cons_append, ← d2]; exact (List.suffix_cons _ _).isInfix
    · rw [List.cons_append, ← b2]; exact (List.suffix_cons _ _).isInfix
    · rw [List.cons_append, ← b2]; exact ⟨[], B1, by simp⟩
    · rw [List.cons_append, ← d2]; exact ⟨[], D1, by simp⟩
  · -- from `t1` to `tk`
    have hne : D2 ≠ [] := by
      rintro rfl
      simp at d2
      have := hBlow bl mbl
      rw [d2.1] at h2; linarith
    obtain ⟨D3, d3⟩ : ∃ D3, D2 = tk :: D3 := by
      cases D2 with
      | nil => exact absurd rfl hne
      | cons x D3 => simp at d2; exact ⟨D3, by rw [d2.1]⟩
    rw [d3] at d2
    refine fin t1 tk (b1 :: B1) D3 ?_ ?_ ?_ ?_ ?_ ?_ (Or.inl ?_) (Or.inl ?_)
    · refine up (x := tk) (List.pairwise_cons.2 ⟨fun x hx => by linarith [hBlow x hx], hB⟩) ?_
      intro z hz
      rcases List.mem_cons.1 hz with rfl | hz
      · linarith [hBlow bl mbl]
      · linarith [hBhigh z hz]
    · rw [← d2]; exact hD
    · refine ⟨D2, D1 ++ b1 :: B1, ?_⟩
      rw [d2, d3]; simp
      have : D1 = D3 ++ [t1] := by simpa using d2
      rw [this]; simp
    · rw [← d2]; exact ⟨[], b1 :: B1 ++ (tk :: D1 ++ b1 :: B1), by simp⟩
    · rw [← d2]
    · exact ⟨[t1], [tk], by simp⟩
    · exact ⟨[], B1 ++ [tk], by simp⟩
    · rw [b2]; exact ⟨t1 :: B2, [], by simp⟩
  · -- from `b1` to `bl`
    have hne : B2 ≠ [] := by
      rintro rfl
      simp at b2
      have := hDlow tk (by simp)
      rw [← b2.1] at h2; linarith
    obtain ⟨B3, b3⟩ : ∃ B3, B2 = b1 :: B3 := by
      cases B2 with
      | nil => exact absurd rfl hne
      | cons x B3 => simp at b2; exact ⟨B3, by rw [b2.1]⟩
    rw [b3] at b2
    refine fin b1 bl B3 (tk :: D1) ?_ ?_ ?_ ?_ ?_ ?_ (Or.inr ?_) (Or.inr ?_)
    · rw [← b2]; exact hB
    · refine down (List.pairwise_cons.2 ⟨fun x hx => by linarith [hDhigh x hx], hD⟩) ?_
      intro z hz
      rcases List.mem_cons.1 hz with rfl | hz
      · linarith [hDlow tk (by simp)]
      · linarith [hDlow z hz]
    · rw [← b2]; exact ⟨tk :: D1, tk :: D1 ++ b1 :: B1, by simp⟩
    · refine ⟨tk :: D1 ++ B2, B1, ?_⟩
      rw [b2, b3]; simp
      have : B1 = B3 ++ [bl] := by simpa using b2
      rw [this]
    · exact ⟨[bl], [b1], by simp⟩
    · rw [← b2]
    · rw [d2]; exact ⟨bl :: D2, [], by simp⟩
    · exact ⟨[], D1 ++ [b1], by simp⟩
  · -- from `b1` to `tk`
    refine fin b1 tk B1 D1 ?_ ?_ ?_ ?_ ?_ ?_ (Or.inr ?_) (Or.inl ?_)
    · exact up (x := tk) hB fun z hz => by linarith [hBhigh z hz]
    · exact down hD fun z hz => by linarith [hDlow z hz]
    · exact ⟨tk :: D1, D1 ++ b1 :: B1, by simp⟩
    · exact ⟨[], B1 ++ (tk :: D1 ++ b1 :: B1), by simp⟩
    · exact (List.prefix_append _ _).isInfix
    · exact (List.prefix_append _ _).isInfix
    · rw [d2]; exact ⟨D2, [], by simp⟩
    · rw [b2]; exact ⟨B2, [], by simp⟩

end Walnut.Mono
