/-
The polygons emitted by the factory are convex, if no two vertices agree in the monotone dimension.
-/
import Verif.Mono.PeakedProof
import Verif.Mono.ConvexFactory

namespace Walnut.Mono
open Walnut.Geom Walnut.Props

theorem strict_of {mono : Fin 3} {l : List HP3} (h : Ascending mono (l.map (·.pt))) (hd : l.Pairwise (Differ mono)) :
    l.Pairwise fun a b => a.pt mono < b.pt mono := by
  unfold Ascending at h
  rw [List.pairwise_map] at h
  exact h.imp₂ (fun a b h1 h2 => lt_of_le_of_ne h1 h2) hd

theorem orient_peaked {drop mono : Fin 3} {m z : HP3} {l1 l2 : List HP3} (hne : mono ≠ drop) (hT : Tame drop (both m z l1 l2))
    (hd : (both m z l1 l2).Pairwise (Differ mono)) (h1 : Ascending mono ((m :: l1 ++ [z]).map (·.pt)))
    (h2 : Ascending mono ((m :: l2 ++ [z]).map (·.pt))) {out : List Piece}
    (h : orientBuild drop mono (m :: l1 ++ [z]) (m :: l2 ++ [z]) = some out) :
    ∀ p ∈ out, p.orientation ≠ 0 → TurnsOnly drop p.orientation (p.verts.map (·.pt)) ∧ Peaked mono p.verts := by
  have hsym : ∀ {x y : HP3}, Differ mono x y → Differ mono y x := fun h => Ne.symm h
  have sub1 : (m :: l1 ++ [z]).Sublist (both m z l1 l2) := by
    unfold both
    simp only [List.cons_append, List.append_assoc]
    exact List.Sublist.cons_cons _ (List.Sublist.append (List.Sublist.refl l1) (List.sublist_append_right _ _))
  have sub2 : (m :: l2 ++ [z]).Sublist (both m z l1 l2) := by
    unfold both
    simp only [List.cons_append, List.append_assoc]
    exact List.Sublist.cons_cons _ (List.sublist_append_right _ _)
  have s1 := strict_of h1 (hd.sublist sub1)
  have s2 := strict_of h2 (hd.sublist sub2)
  have hperm : (m :: l1 ++ (l2 ++ [z])).Pairwise (Differ mono) := by
    refine (List.Perm.pairwise_iff hsym (List.Perm.of_eq ?_)).1 hd
    simp [both]
  have hperm2 : (m :: l2 ++ (l1 ++ [z])).Pairwise (Differ mono) := by
    refine (List.Perm.pairwise_iff hsym ?_).1 hd
    simp only [both, List.cons_append, List.append_assoc]
    refine List.Perm.cons _ ?_
    rw [← List.append_assoc, ← List.append_assoc]
    exact List.Perm.append_right _ List.perm_append_comm
  simp only [orientBuild, bind, Option.bind] at h
  cases hdet : detect drop mono (m :: l1 ++ [z]) (m :: l2 ++ [z]) with
  | none => rw [hdet] at h; simp at h
  | some r =>
    rw [hdet] at h
    cases r with
    | none =>
      simp only [pure, Option.some.injEq] at h
      subst h
      intro p hp hor
      simp only [List.mem_singleton] at hp
      subst hp
      exact absurd rfl hor
    | some b =>
      cases b with
      | false =>
        simp only [dropLast_chain] at h
        cases hq : decompose drop mono (m :: l2) (m :: l1 ++ [z]).tail with
        | none => simp only [hq] at h; cases h
        | some o =>
          simp only [hq, pure, Option.some.injEq] at h
          have e : o.map (emitRange false) = o := by
            rw [show emitRange false = id from by funext p; simp [emitRange]]; simp
          rw [e] at h; subst h
          rw [show (m :: l1 ++ [z]).tail = l1 ++ [z] from rfl] at hq
          intro p hp hor
          have := decompose_peaked hne (hT.mono (by intro v hv; simp at hv ⊢; tauto)) (by rw [List.getLast?_append]; rfl) hperm2 s2 s1 hq p hp
          exact ⟨this.1, this.2 hor⟩
      | true =>
        simp only [dropLast_chain] at h
        cases hq : decompose drop mono (m :: l1) (m :: l2 ++ [z]).tail with
        | none => simp only [hq] at h; cases h
        | some o =>
          simp only [hq, pure, Option.some.injEq] at h
          subst h
          rw [show (m :: l2 ++ [z]).tail = l2 ++ [z] from rfl] at hq
          intro p hp hor
          simp only [List.mem_map] at hp
          obtain ⟨q, hq', rfl⟩ := hp
          have := decompose_peaked hne (hT.mono (by intro v hv; simp at hv ⊢; tauto)) (by rw [List.getLast?_append]; rfl) hperm s1 s2 hq q hq'
          simp only [emitRange, if_true] at hor ⊢
          refine ⟨?_, (this.2 (by omega)).reverse⟩
          rw [List.map_reverse]
          exact this.1.reverse

/-- All vertices are on the left of each edge, seen from the front of the plane. -/
def LeftOfEdges (P : OutPoly) : Prop :=
  ∀ k e e', P.edges[k]? = some e → P.edges[(k + 1) % P.edges.length]? = some e' →
    ∀ f ∈ P.edges, 0 ≤ dotQ P.plane.n.q (crossQ (subQ e'.1.pt e.1.pt) (subQ f.1.pt e.1.pt))

theorem plane_turn {plane : HS3} {drop : Fin 3} {a b c : Q3} (ha : plane.side a = 0) (hb : plane.side b = 0) (hc : plane.side c = 0) :
    ((plane.n.comp drop : Int) : ℚ) * dotQ plane.n.q (crossQ (subQ b a) (subQ c a)) =
      dotQ plane.n.q plane.n.q * turnAt drop a b c := by
  rw [HS3.side_eq] at ha hb hc
  have eb : (plane.n.x : ℚ) * (b 0 - a 0) + plane.n.y * (b 1 - a 1) + plane.n.z * (b 2 - a 2) = 0 := by linarith
  have ec : (plane.n.x : ℚ) * (c 0 - a 0) + plane.n.y * (c 1 - a 1) + plane.n.z * (c 2 - a 2) = 0 := by linarith
  have q0 : plane.n.q 0 = (plane.n.x : ℚ) := rfl
  have q1 : plane.n.q 1 = (plane.n.y : ℚ) := rfl
  have q2 : plane.n.q 2 = (plane.n.z : ℚ) := rfl
  have c0 : crossQ (subQ b a) (subQ c a) 0 = (b 1 - a 1) * (c 2 - a 2) - (b 2 - a 2) * (c 1 - a 1) := rfl
  have c1 : crossQ (subQ b a) (subQ c a) 1 = (b 2 - a 2) * (c 0 - a 0) - (b 0 - a 0) * (c 2 - a 2) := rfl
  have c2 : crossQ (subQ b a) (subQ c a) 2 = (b 0 - a 0) * (c 1 - a 1) - (b 1 - a 1) * (c 0 - a 0) := rfl
  simp only [dotQ, q0, q1, q2, c0, c1, c2]
  have k1 : (plane.n.x : ℚ) * ((b 2 - a 2) * (c 0 - a 0) - (b 0 - a 0) * (c 2 - a 2)) =
      plane.n.y * ((b 1 - a 1) * (c 2 - a 2) - (b 2 - a 2) * (c 1 - a 1)) := by
    linear_combination (b 2 - a 2) * ec - (c 2 - a 2) * eb
  have k2 : (plane.n.x : ℚ) * ((b 0 - a 0) * (c 1 - a 1) - (b 1 - a 1) * (c 0 - a 0)) =
      plane.n.z * ((b 1 - a 1) * (c 2 - a 2) - (b 2 - a 2) * (c 1 - a 1)) := by
    linear_combination (c 1 - a 1) * eb - (b 1 - a 1) * ec
  have k3 : (plane.n.y : ℚ) * ((b 0 - a 0) * (c 1 - a 1) - (b 1 - a 1) * (c 0 - a 0)) =
      plane.n.z * ((b 2 - a 2) * (c 0 - a 0) - (b 0 - a 0) * (c 2 - a 2)) := by
    linear_combination (b 0 - a 0) * ec - (c 0 - a 0) * eb
  fin_cases drop
  · have t : turnAt 0 a b c = (b 1 - a 1) * (c 2 - a 2) - (b 2 - a 2) * (c 1 - a 1) := rfl
    have x : plane.n.comp 0 = plane.n.x := rfl
    simp only [Fin.zero_eta, t, x]
    linear_combination (plane.n.y : ℚ) * k1 + (plane.n.z : ℚ) * k2
  · have t : turnAt 1 a b c = (b 2 - a 2) * (c 0 - a 0) - (b 0 - a 0) * (c 2 - a 2) := rfl
    have x : plane.n.comp 1 = plane.n.y := rfl
    simp only [Fin.mk_one, t, x]
    linear_combination (-(plane.n.x : ℚ)) * k1 + (plane.n.z : ℚ) * k3
  · have t : turnAt 2 a b c = (b 0 - a 0) * (c 1 - a 1) - (b 1 - a 1) * (c 0 - a 0) := rfl
    have x : plane.n.comp 2 = plane.n.z := rfl
    simp only [Fin.reduceFinMk, t, x]
    linear_combination (-(plane.n.x : ℚ)) * k2 - (plane.n.y : ℚ) * k3

theorem peaked_differ {mono : Fin 3} {l : List HP3} {v : HP3} (h : Peaked mono l) (hv : l.head? = some v) :
    (l ++ [v]).IsChain fun p q => p.pt ≠ q.pt := by
  obtain ⟨D, B, tk, t1, b1, bl, rfl, h1, h2, e1, e2, e3, e4, n1, n2⟩ := h
  have ne : ∀ {p q : HP3}, p.pt mono ≠ q.pt mono → p.pt ≠ q.pt := fun h hc => h (by rw [hc])
  rw [List.append_assoc]
  have hvk : v = tk := by
    cases D with
    | nil => simp at e1
    | cons x D => simp at e1 hv; rw [← e1, hv]
  subst hvk
  refine List.IsChain.append ((h1.imp fun {a b} h => ne h.ne').isChain) (List.IsChain.append ((h2.imp fun {a b} h => ne h.ne).isChain) (List.IsChain.singleton _) ?_) ?_
  · intro x hx y hy
    rw [e4] at hx
    simp only [List.head?_cons, Option.mem_def, Option.some.injEq] at hx hy
    subst hx hy
    exact ne n2.symm
  · intro x hx y hy
    rw [e2] at hx
    rw [List.head?_append, e3] at hy
    simp only [Option.mem_def, Option.some.injEq, Option.some_or] at hx hy
    subst hx hy
    exact ne n1

theorem flipped_comp (plane : HS3) (drop : Fin 3) (k : Int) : (plane.n.scale k).comp drop = plane.n.comp drop * k := by
  fin_cases drop <;> simp [V3.scale, V3.comp]

theorem flipped_side (plane : HS3) (k : Int) (q : Q3) : (HS3.mk (plane.n.scale k) (plane.d * k)).side q = k * plane.side q := by
  simp [HS3.side_eq, V3.scale]; ring

theorem piece_left {plane : HS3} {drop mono : Fin 3} (hne : mono ≠ drop) (hn : plane.n.comp drop ≠ 0) {o : Int} {v : HP3} {r : List HP3}
    (ho : o = -1 ∨ o = 1) (ht : TurnsOnly drop o ((v :: r).map (·.pt))) (hp : Peaked mono (v :: r)) (hw : ∀ u ∈ v :: r, u.w ≠ 0)
    (hs : ∀ u ∈ v :: r, plane.side u.pt = 0) :
    LeftOfEdges ⟨⟨plane.n.scale ((o.xor (-absMult (plane.n.comp drop))).lor 1), plane.d * ((o.xor (-absMult (plane.n.comp drop))).lor 1)⟩, drop,
      emitEdges v v r⟩ := by
  rw [flip_sign ho (absMult_sign _)]
  set k : Int := if o = -absMult (plane.n.comp drop) then 1 else -1 with hk
  -- the sign of the new normal
  have hsign : 0 < (-(o : ℚ)) * ((plane.n.comp drop * k : Int) : ℚ) := by
    have : 0 < -o * (plane.n.comp drop * k) := by
      have ha : absMult (plane.n.comp drop) = if plane.n.comp drop < 0 then -1 else 1 := by
        unfold absMult; split_ifs <;> omega
      rw [hk, ha]
      rcases lt_or_gt_of_ne hn with h | h
      · rw [if_pos h]
        rcases ho with rfl | rfl <;> norm_num <;> omega
      · rw [if_neg (show ¬ plane.n.comp drop < 0 by omega)]
        rcases ho with rfl | rfl <;> norm_num <;> omega
    exact_mod_cast this
  rw [emitEdges_ring (hw v (by simp)) r v hw (peaked_differ hp rfl)]
  obtain ⟨D, B, tk, t1, b1, bl, e, h1, h2, e1, e2, e3, e4, n1, n2⟩ := hp
  have hcyc : Cyc (Left drop (-(o : ℚ))) (v :: r) := by
    refine Turns.imp ((turnsOnly_iff drop o (v :: r)).1 ht) ?_
    intro a b c h
    have h := h.1
    unfold Left
    have : T drop b a c = -turnAt drop a.pt b.pt c.pt := by simp only [T, turnAt]; ring
    rw [this] at h
    linarith
  have hchain := unimodal_left hne (s := -(o : ℚ)) h1 h2 (by rw [← e]; exact hcyc) e1 e2 e3 e4 n1 n2
  have hvk : tk = v := by
    cases D with
    | nil => simp at e1
    | cons x D => simp at e1 e; rw [← e1, e.1]
  rw [← e, hvk] at hchain
  have hlen : (List.zipWith (fun p q => (p, PL.ofHomoPoints p q)) (v :: r) (r ++ [v])).length = (v :: r).length := by simp
  have hget : ∀ (i : Nat) (x : HP3 × PL), (List.zipWith (fun p q => (p, PL.ofHomoPoints p q)) (v :: r) (r ++ [v]))[i]? = some x → (v :: r)[i]? = some x.1 := by
    intro i x hx
    rw [List.getElem?_zipWith_eq_some] at hx
    obtain ⟨p, q, hp, -, rfl⟩ := hx
    exact hp
  intro i x y hx hy f hf
  simp only at hx hy hf ⊢
  rw [hlen] at hy
  have gx := hget i x hx
  have gy := hget _ y hy
  have hf' : f.1 ∈ v :: r := by
    obtain ⟨j, hj⟩ := List.mem_iff_getElem?.1 hf
    exact List.mem_of_getElem? (hget j f hj)
  have hi : i < (v :: r).length := by
    by_contra hc; rw [List.getElem?_eq_none (by omega)] at gx; cases gx
  have hleft : Left drop (-(o : ℚ)) x.1 y.1 f.1 := by
    rw [List.isChain_iff_getElem] at hchain
    have := hchain i (by simp at hi ⊢; omega)
    have a1 : (v :: r ++ [v])[i]'(by simp at hi ⊢; omega) = x.1 := by
      rw [List.getElem_append_left hi]
      rw [List.getElem?_eq_getElem hi] at gx
      simpa using gx
    have a2 : (v :: r ++ [v])[i + 1]'(by simp at hi ⊢; omega) = y.1 := by
      by_cases hl : i + 1 = (v :: r).length
      · rw [hl, Nat.mod_self] at gy
        rw [List.getElem_append_right (by omega)]
        simp at gy ⊢
        exact gy
      · rw [Nat.mod_eq_of_lt (by omega)] at gy
        rw [List.getElem_append_left (by omega)]
        rw [List.getElem?_eq_getElem (by omega)] at gy
        simpa using gy
    rw [a1, a2] at this
    exact this f.1 hf'
  have mx := hs x.1 (List.mem_of_getElem? gx)
  have my := hs y.1 (List.mem_of_getElem? gy)
  have mf := hs f.1 hf'
  have key := plane_turn (plane := ⟨plane.n.scale k, plane.d * k⟩) (drop := drop) (a := x.1.pt) (b := y.1.pt) (c := f.1.pt)
    (by rw [flipped_side, mx, mul_zero]) (by rw [flipped_side, my, mul_zero]) (by rw [flipped_side, mf, mul_zero])
  simp only [flipped_comp] at key
  unfold Left at hleft
  refine nonneg_of_mul_nonneg_right (a := -(o : ℚ) * ((plane.n.comp drop * k : Int) : ℚ)) ?_ hsign
  have hnn : 0 ≤ dotQ (plane.n.scale k).q (plane.n.scale k).q := by
    unfold dotQ
    nlinarith [mul_self_nonneg ((plane.n.scale k).q 0), mul_self_nonneg ((plane.n.scale k).q 1), mul_self_nonneg ((plane.n.scale k).q 2)]
  rw [mul_assoc, key]
  have : -(o : ℚ) * (dotQ (plane.n.scale k).q (plane.n.scale k).q * turnAt drop x.1.pt y.1.pt f.1.pt) =
      dotQ (plane.n.scale k).q (plane.n.scale k).q * (-(o : ℚ) * turnAt drop x.1.pt y.1.pt f.1.pt) := by ring
  rw [this]
  exact mul_nonneg hnn hleft

theorem emitAll_left {plane : HS3} {drop mono : Fin 3} (hne : mono ≠ drop) (hn : plane.n.comp drop ≠ 0) {vs : List HP3}
    (hw : ∀ v ∈ vs, v.w ≠ 0) (hp : ∀ v ∈ vs, plane.side v.pt = 0) : ∀ (l : List Piece) (out : List OutPoly),
    (∀ p ∈ l, p.orientation = -1 ∨ p.orientation = 0 ∨ p.orientation = 1) → (∀ p ∈ l, ∀ v ∈ p.verts, v ∈ vs) →
    (∀ p ∈ l, p.orientation ≠ 0 → TurnsOnly drop p.orientation (p.verts.map (·.pt)) ∧ Peaked mono p.verts) →
    emitAll plane drop (-absMult (plane.n.comp drop)) l = some out → ∀ P ∈ out, LeftOfEdges P := by
  intro l
  induction l with
  | nil => intro out _ _ _ h; simp [emitAll] at h; subst h; simp
  | cons p l ih =>
    intro out hs hv hpk h
    simp only [emitAll, bind, Option.bind] at h
    cases ho : emitOriented plane drop (-absMult (plane.n.comp drop)) p with
    | none => simp [ho] at h
    | some o =>
      simp only [ho] at h
      cases hq : emitAll plane drop (-absMult (plane.n.comp drop)) l with
      | none => simp [hq] at h
      | some q =>
        simp only [hq, pure, Option.some.injEq] at h
        subst h
        intro P hP
        rcases List.mem_append.1 hP with hP | hP
        · unfold emitOriented at ho
          by_cases hz : p.orientation = 0
          · rw [if_pos hz] at ho
            simp at ho; subst ho; simp at hP
          · rw [if_neg hz] at ho
            obtain ⟨k1, k2⟩ := hpk p (by simp) hz
            have hm := hv p (by simp)
            cases hv2 : p.verts with
            | nil => rw [hv2] at ho; simp at ho
            | cons v r =>
              rw [hv2] at ho k1 k2 hm
              simp only [Option.some.injEq] at ho
              subst ho
              simp at hP; subst hP
              have h1 : p.orientation = -1 ∨ p.orientation = 1 := by
                rcases hs p (by simp) with h | h | h
                · exact Or.inl h
                · exact absurd h hz
                · exact Or.inr h
              exact piece_left hne hn h1 k1 k2 (fun u hu => hw u (hm u hu)) (fun u hu => hp u (hm u hu))
        · exact ih q (fun x hx => hs x (by simp [hx])) (fun x hx => hv x (by simp [hx])) (fun x hx => hpk x (by simp [hx])) hq P hP

end Walnut.Mono
