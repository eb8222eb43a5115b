/-
The decomposer makes one piece of a strictly convex polygon.
-/
import Verif.Mono.ConvexCell

namespace Walnut.Mono
open Walnut.Geom Walnut.Props

theorem T_ne {drop : Fin 3} {x y z : HP3} (h : T drop x y z ≠ 0) : x.pt ≠ y.pt ∧ y.pt ≠ z.pt ∧ x.pt ≠ z.pt := by
  refine ⟨fun e => h ?_, fun e => h ?_, fun e => h ?_⟩ <;> simp only [T, turnAt] <;> rw [e] <;> ring

/-- The state of the piece after the vertex `v`. -/
def addTo (i : Bool) (v a : HP3) (tr : List HP3) (b : HP3) (br : List HP3) : DecState :=
  if i then ⟨v :: a :: tr, b :: br, -1⟩ else ⟨a :: tr, v :: b :: br, -1⟩

/-- The stack of the triangulator. -/
def pairStack (cur : Bool) (a b : HP3) : TriState := ⟨if cur then [a, b] else [b, a], cur⟩

theorem prev_top (a b : HP3) (tr br : List HP3) : ∃ x, (match tr with
          | x :: _ => x
          | [] => (b :: br).getLastD b) = x ∧ x ∈ tr ++ (b :: br).reverse := by
  cases tr with
  | cons x tr => exact ⟨x, rfl, by simp⟩
  | nil =>
    refine ⟨_, rfl, ?_⟩
    simp only [List.nil_append, List.mem_reverse]
    rw [List.getLastD_eq_getLast?, List.getLast?_eq_some_getLast (by simp)]
    exact List.getLast_mem _

theorem prev_bottom (a b : HP3) (tr br : List HP3) : ∃ x, (match br with
          | x :: _ => x
          | [] => (a :: tr).getLastD a) = x ∧ x ∈ a :: tr ++ br.reverse := by
  cases br with
  | cons x br => exact ⟨x, rfl, by simp⟩
  | nil =>
    refine ⟨_, rfl, ?_⟩
    simp only [List.reverse_nil, List.append_nil]
    rw [List.getLastD_eq_getLast?, List.getLast?_eq_some_getLast (by simp)]
    exact List.getLast_mem _

section
variable {drop : Fin 3} {vs : List HP3} (hT : Tame drop vs) (hM : MinFree drop vs)
include hT

theorem turn_sign {v a b : HP3} (hv : v ∈ vs) (ha : a ∈ vs) (hb : b ∈ vs) (ht : 0 < T drop v a b) :
    (b.get2DTwistDir drop a v).toInt ≤ 0 ∧ b.get2DTwistDirReduced drop a v = -1 := by
  obtain ⟨s1, s2⟩ := hT.twist hb ha hv
  have e : T drop b a v = -T drop v a b := by simp only [T, turnAt]; ring
  rw [e] at s1 s2
  refine ⟨(s1.1.2 (by linarith)).le, ?_⟩
  have := s2.1.2 (by linarith)
  unfold HP3.get2DTwistDirReduced at this ⊢
  simp only at this ⊢
  split_ifs at this ⊢ <;> omega

include hM

theorem emit_step {i : Bool} {v a b : HP3} {tr br : List HP3} (hmem : ∀ x ∈ v :: (a :: tr ++ (b :: br).reverse), x ∈ vs)
    (hc : Turning drop 1 (v :: (a :: tr ++ (b :: br).reverse))) :
    emitTriangle drop ⟨i, a, b, v⟩ ⟨a :: tr, b :: br, -1⟩ = some ([], addTo i v a tr b br) := by
  have hv := hmem v (by simp)
  have ha := hmem a (by simp)
  have hb := hmem b (by simp)
  have hvab : 0 < T drop v a b := by
    have := hc v a b (List.Sublist.cons_cons _ (List.Sublist.cons_cons _ (List.singleton_sublist.2 (by simp))))
    linarith
  obtain ⟨prevTop, hpt, hptm⟩ := prev_top a b tr br
  obtain ⟨prevBottom, hpb, hpbm⟩ := prev_bottom a b tr br
  have mpt : prevTop ∈ vs := hmem _ (by simp only [List.mem_cons, List.cons_append]; right; right; exact hptm)
  have mpb : prevBottom ∈ vs := hmem _ (by
    simp only [List.mem_cons, List.cons_append, List.mem_append, List.reverse_cons, List.mem_reverse] at hpbm ⊢; tauto)
  have t1 : 0 < T drop v a prevTop := by
    have := hc v a prevTop (List.Sublist.cons_cons _ (List.Sublist.cons_cons _ (List.singleton_sublist.2 hptm)))
    linarith
  have t2 : 0 < T drop v prevBottom b := by
    have : [prevBottom, b].Sublist (a :: tr ++ (b :: br).reverse) := by
      rw [List.reverse_cons, ← List.append_assoc]
      exact (List.singleton_sublist.2 hpbm).append (List.Sublist.refl [b])
    have := hc v prevBottom b (List.Sublist.cons_cons _ this)
    linarith
  have k1 : keepsConvex drop (-1) prevTop prevBottom ⟨i, a, b, v⟩ = some true := by
    obtain ⟨c1, h1⟩ := mulSign_defined hT hM ha mpt hv (o := -1) (by simp)
    obtain ⟨c2, h2⟩ := mulSign_defined hT hM hb mpb hv (o := -1) (by simp)
    have w1 := (hT.twist ha mpt hv).1
    have w2 := (hT.twist hb mpb hv).1
    have q1 : c1 ≤ 0 := by
      unfold mulSign at h1
      simp only at h1
      split at h1
      · have := w1.2.2.2 (by rw [T_rot]; exact t1)
        cases h1
        omega
      · cases h1
    have q2 : 0 ≤ c2 := by
      unfold mulSign at h2
      simp only at h2
      split at h2
      · have := w2.1.2 (by rw [T_swap]; rw [T_rot]; linarith)
        cases h2
        omega
      · cases h2
    simp [keepsConvex, h1, h2, q1, q2]
  have ea : a.eq a = true := (hT.eq ha ha).2 rfl
  have eb : b.eq b = true := (hT.eq hb hb).2 rfl
  obtain ⟨n1, n2, n3⟩ := T_ne hvab.ne'
  have na : a.eq v = false := by
    rw [← Bool.not_eq_true]; intro h; exact n1 ((hT.eq ha hv).1 h).symm
  have nb : b.eq v = false := by
    rw [← Bool.not_eq_true]; intro h; exact n3 ((hT.eq hb hv).1 h).symm
  clear hmem hc hptm hpbm mpt mpb t1 t2
  have fin : addVertex ⟨i, a, b, v⟩ ⟨a :: tr, b :: br, -1⟩ (-1) = addTo i v a tr b br := by
    cases i <;> simp [addVertex, na, nb, addTo]
  rw [← fin]
  clear fin
  unfold emitTriangle
  simp only [ea, eb, Bool.and_self, if_true, show (-1 : Int) ≠ 0 by decide, if_false]
  cases tr <;> cases br <;> simp only at hpt hpb <;> subst hpt <;> subst hpb <;> simp only [k1, bind, Option.bind, if_true] <;> rfl

omit hM in
/-- The first triangle. -/
theorem emit_first {i : Bool} {v a b : HP3} (hv : v ∈ vs) (ha : a ∈ vs) (hb : b ∈ vs) (ht : 0 < T drop v a b) :
    emitTriangle drop ⟨i, a, b, v⟩ ⟨[], [], 0⟩ = some ([], addTo i v a [] b []) := by
  have := (turn_sign hT hv ha hb ht).2
  cases i <;> simp [emitTriangle, startPiece, addTo, this]

omit hM in
theorem process_step {i cur : Bool} {v a b : HP3} (hv : v ∈ vs) (ha : a ∈ vs) (hb : b ∈ vs) (ht : 0 < T drop v a b) :
    processVertex drop i v (pairStack cur a b) = some ([⟨i, a, b, v⟩], pairStack i (if i then v else a) (if i then b else v)) := by
  have := (turn_sign hT hv ha hb ht).1
  cases i <;> cases cur <;> simp [processVertex, pairStack, switchChains, switchTris, popConvex, this]

/-- The triangles of the loop become one piece. -/
def OnePiece (drop : Fin 3) (a b : HP3) (tr br : List HP3) (full : List HP3) (q : Option (List Tri × List HP3)) : Prop :=
  ∃ i v ts D, q = some (⟨i, a, b, v⟩ :: ts, []) ∧ v ∈ full ∧ 0 < T drop v a b ∧ emitTriangle drop ⟨i, a, b, v⟩ ⟨a :: tr, b :: br, -1⟩ = some ([], addTo i v a tr b br) ∧
    emitTriangles drop ts (addTo i v a tr b br) = some ([], D) ∧ D.orientation = -1 ∧ D.verts ~r full

omit hT hM in
theorem OnePiece.emits {a b : HP3} {tr br full : List HP3} {q : Option (List Tri × List HP3)} (h : OnePiece drop a b tr br full q) :
    ∃ tris D, q = some (tris, []) ∧ emitTriangles drop tris ⟨a :: tr, b :: br, -1⟩ = some ([], D) ∧ D.orientation = -1 ∧ D.verts ~r full := by
  obtain ⟨i, v, ts, D, h1, -, -, h2, h3, h4⟩ := h
  exact ⟨_, D, h1, by simp [emitTriangles, h2, h3], h4⟩

omit hT hM in
theorem addTo_top (v a : HP3) (tr : List HP3) (b : HP3) (br : List HP3) : addTo true v a tr b br = ⟨v :: a :: tr, b :: br, -1⟩ := rfl

omit hT hM in
theorem addTo_bottom (v a : HP3) (tr : List HP3) (b : HP3) (br : List HP3) : addTo false v a tr b br = ⟨a :: tr, v :: b :: br, -1⟩ := rfl

theorem finish_run (y : HP3) : ∀ (rem : List HP3) (a b : HP3) (tr br : List HP3) (cur : Bool),
    (∀ x ∈ a :: tr ++ (b :: br).reverse ++ (rem ++ [y]), x ∈ vs) → Turning drop 1 (a :: tr ++ (b :: br).reverse ++ (rem ++ [y])) →
    OnePiece drop a b tr br (a :: tr ++ (b :: br).reverse ++ (rem ++ [y])) (finishBottom drop (rem ++ [y]) (pairStack cur a b)) := by
  intro rem
  induction rem with
  | nil =>
    intro a b tr br cur hmem hc
    have hc' : Turning drop 1 (y :: (a :: tr ++ (b :: br).reverse)) := hc.swap
    have hmem' : ∀ x ∈ y :: (a :: tr ++ (b :: br).reverse), x ∈ vs := fun x hx => hmem x (by
      simp only [List.mem_append, List.mem_cons, List.nil_append, List.not_mem_nil, or_false] at hx ⊢; tauto)
    have ht : 0 < T drop y a b := by
      have := hc' y a b (List.Sublist.cons_cons _ (List.Sublist.cons_cons _ (List.singleton_sublist.2 (by simp))))
      linarith
    cases cur with
    | true =>
      refine ⟨false, y, [], _, ?_, by simp, ht, emit_step hT hM hmem' hc', rfl, rfl, ?_⟩
      · simp [finishBottom, pairStack, switchChains, switchTris]
      · simp [DecState.verts, addTo, List.IsRotated.refl]
    | false =>
      refine ⟨true, y, [], _, ?_, by simp, ht, emit_step hT hM hmem' hc', rfl, rfl, ?_⟩
      · simp [finishBottom, pairStack, switchChains, switchTris]
      · show y :: (a :: tr) ++ (b :: br).reverse ~r a :: tr ++ (b :: br).reverse ++ ([] ++ [y])
        rw [List.nil_append]
        exact List.isRotated_append (l := [y])
  | cons v rem ih =>
    intro a b tr br cur hmem hc
    have hc1 : Turning drop 1 (a :: tr ++ (b :: br).reverse ++ [v]) := hc.sub (by
      refine (List.Sublist.refl _).append ?_
      exact List.Sublist.cons_cons _ (List.nil_sublist _))
    have hc' : Turning drop 1 (v :: (a :: tr ++ (b :: br).reverse)) := hc1.swap
    have hmem' : ∀ x ∈ v :: (a :: tr ++ (b :: br).reverse), x ∈ vs := fun x hx => hmem x (by
      simp only [List.mem_append, List.mem_cons, List.cons_append] at hx ⊢; tauto)
    have ht : 0 < T drop v a b := by
      have := hc' v a b (List.Sublist.cons_cons _ (List.Sublist.cons_cons _ (List.singleton_sublist.2 (by simp))))
      linarith
    have e : a :: tr ++ (v :: b :: br).reverse ++ (rem ++ [y]) = a :: tr ++ (b :: br).reverse ++ (v :: rem ++ [y]) := by simp
    obtain ⟨tris, D, r1, r2, r3, r4⟩ := (ih a v tr (b :: br) false (by rw [e]; exact hmem) (by rw [e]; exact hc)).emits
    rw [e] at r4
    refine ⟨false, v, tris, D, ?_, by simp, ht, emit_step hT hM hmem' hc', r2, r3, r4⟩
    have hp := process_step hT (i := false) (cur := cur) (hmem' v (by simp)) (hmem' a (by simp)) (hmem' b (by simp)) ht
    obtain ⟨w, rest, hw⟩ : ∃ w rest, rem ++ [y] = w :: rest := by cases rem <;> simp
    rw [hw] at r1
    rw [List.cons_append, hw]
    rw [finishBottom, hp]
    simp only [Bool.false_eq_true, if_false, bind, Option.bind]
    rw [r1]
    rfl

theorem main_run {mono : Fin 3} (y : HP3) : ∀ (n : Nat) (ts rem : List HP3) (a b : HP3) (tr br : List HP3) (cur : Bool), ts.length + rem.length = n →
    (∀ t ∈ ts, ¬ y.compareComponent mono t < 0) → (∀ x ∈ ts.reverse ++ (a :: tr ++ (b :: br).reverse ++ (rem ++ [y])), x ∈ vs) →
    Turning drop 1 (ts.reverse ++ (a :: tr ++ (b :: br).reverse ++ (rem ++ [y]))) →
    OnePiece drop a b tr br (ts.reverse ++ (a :: tr ++ (b :: br).reverse ++ (rem ++ [y]))) (mainLoop drop mono ts (rem ++ [y]) (pairStack cur a b)) := by
  intro n
  induction n with
  | zero =>
    intro ts rem a b tr br cur hn hy hmem hc
    obtain rfl : ts = [] := List.length_eq_zero_iff.1 (by omega)
    rw [mainLoop]
    simpa using finish_run hT hM y rem a b tr br cur (by simpa using hmem) (by simpa using hc)
  | succ n ih =>
    intro ts rem a b tr br cur hn hy hmem hc
    cases ts with
    | nil =>
      rw [mainLoop]
      simpa using finish_run hT hM y rem a b tr br cur (by simpa using hmem) (by simpa using hc)
    | cons t ts =>
      have ma := hmem a (by simp)
      have mb := hmem b (by simp)
      have useBottom : ∀ v rem', rem = v :: rem' → v.compareComponent mono t < 0 → OnePiece drop a b tr br
          ((t :: ts).reverse ++ (a :: tr ++ (b :: br).reverse ++ (rem ++ [y]))) (mainLoop drop mono (t :: ts) (rem ++ [y]) (pairStack cur a b)) := by
        rintro v rem' rfl hlt
        have hc1 : Turning drop 1 (a :: tr ++ (b :: br).reverse ++ [v]) := hc.sub (by
          refine List.Sublist.trans ?_ (List.sublist_append_right _ _)
          refine (List.Sublist.refl _).append ?_
          exact List.Sublist.cons_cons _ (List.nil_sublist _))
        have hc' : Turning drop 1 (v :: (a :: tr ++ (b :: br).reverse)) := hc1.swap
        have hmem' : ∀ x ∈ v :: (a :: tr ++ (b :: br).reverse), x ∈ vs := fun x hx => hmem x (by
          simp only [List.mem_append, List.mem_cons, List.cons_append] at hx ⊢; tauto)
        have ht : 0 < T drop v a b := by
          have := hc' v a b (List.Sublist.cons_cons _ (List.Sublist.cons_cons _ (List.singleton_sublist.2 (by simp))))
          linarith
        have e : a :: tr ++ (v :: b :: br).reverse ++ (rem' ++ [y]) = a :: tr ++ (b :: br).reverse ++ (v :: rem' ++ [y]) := by simp
        obtain ⟨tris, D, r1, r2, r3, r4⟩ := (ih (t :: ts) rem' a v tr (b :: br) false (by simp at hn ⊢; omega) hy (by rw [e]; exact hmem) (by rw [e]; exact hc)).emits
        rw [e] at r4
        refine ⟨false, v, tris, D, ?_, by simp, ht, emit_step hT hM hmem' hc', r2, r3, r4⟩
        have hp := process_step hT (i := false) (cur := cur) (hmem' v (by simp)) ma mb ht
        rw [List.cons_append, mainLoop, if_pos hlt]
        simp [hp, r1]
      have useTop : ∀ v rem', rem ++ [y] = v :: rem' → ¬ v.compareComponent mono t < 0 → OnePiece drop a b tr br
          ((t :: ts).reverse ++ (a :: tr ++ (b :: br).reverse ++ (rem ++ [y]))) (mainLoop drop mono (t :: ts) (rem ++ [y]) (pairStack cur a b)) := by
        intro v rem' hrem hlt
        have hc' : Turning drop 1 (t :: (a :: tr ++ (b :: br).reverse)) := hc.sub (by
          rw [List.reverse_cons (a := t), List.append_assoc]
          refine List.Sublist.trans ?_ (List.sublist_append_right _ _)
          exact List.Sublist.cons_cons _ (List.sublist_append_left _ _))
        have hmem' : ∀ x ∈ t :: (a :: tr ++ (b :: br).reverse), x ∈ vs := fun x hx => hmem x (by
          simp only [List.mem_append, List.mem_cons, List.cons_append, List.mem_reverse] at hx ⊢; tauto)
        have ht : 0 < T drop t a b := by
          have := hc' t a b (List.Sublist.cons_cons _ (List.Sublist.cons_cons _ (List.singleton_sublist.2 (by simp))))
          linarith
        have e : ts.reverse ++ (t :: a :: tr ++ (b :: br).reverse ++ (rem ++ [y])) = (t :: ts).reverse ++ (a :: tr ++ (b :: br).reverse ++ (rem ++ [y])) := by simp
        obtain ⟨tris, D, r1, r2, r3, r4⟩ := (ih ts rem t b (a :: tr) br true (by simp at hn ⊢; omega) (fun x hx => hy x (by simp [hx])) (by rw [e]; exact hmem) (by rw [e]; exact hc)).emits
        rw [e] at r4
        refine ⟨true, t, tris, D, ?_, by simp, ht, emit_step hT hM hmem' hc', r2, r3, r4⟩
        have hp := process_step hT (i := true) (cur := cur) (hmem' t (by simp)) ma mb ht
        rw [hrem] at r1 ⊢
        rw [mainLoop, if_neg hlt]
        simp [hp, r1]
      cases rem with
      | nil => exact useTop y [] rfl (hy t (by simp))
      | cons v rem =>
        by_cases hlt : v.compareComponent mono t < 0
        · exact useBottom v rem rfl hlt
        · exact useTop v (rem ++ [y]) rfl hlt

/-- The decomposer on the chains of a strictly convex polygon. -/
theorem decompose_convex {mono : Fin 3} {m y : HP3} {ts bs : List HP3} (hy : ∀ t ∈ ts, ¬ y.compareComponent mono t < 0) (hne : ts ≠ [] ∨ bs ≠ [])
    (hmem : ∀ x ∈ (m :: ts).reverse ++ (bs ++ [y]), x ∈ vs) (hc : Turning drop 1 ((m :: ts).reverse ++ (bs ++ [y]))) :
    ∃ verts, decompose drop mono (m :: ts) (bs ++ [y]) = some [⟨-1, verts⟩] ∧ verts ~r (m :: ts).reverse ++ (bs ++ [y]) := by
  have final : ∀ (a b : HP3) (full : List HP3) (q : Option (List Tri × List HP3)), a ∈ vs → b ∈ vs → (∀ x ∈ full, x ∈ vs) → OnePiece drop a b [] [] full q →
      triangulate drop mono [] (m :: ts) (bs ++ [y]) = q → ∃ verts, decompose drop mono (m :: ts) (bs ++ [y]) = some [⟨-1, verts⟩] ∧ verts ~r full := by
    intro a b full q ma mb mf h hq
    obtain ⟨i, v, tris, D, h1, hv, ht, -, h3, h4, h5⟩ := h
    refine ⟨D.verts, ?_, h5⟩
    have := emit_first hT (i := i) (mf v hv) ma mb ht
    simp [decompose, hq, h1, emitTriangles, this, h3, h4]
  have mm := hmem m (by simp)
  -- the first vertex is taken from the bottom
  have bottom : ∀ b bs', bs = b :: bs' → triangulate drop mono [] (m :: ts) (bs ++ [y]) = mainLoop drop mono ts (bs' ++ [y]) (pairStack false m b) →
      ∃ verts, decompose drop mono (m :: ts) (bs ++ [y]) = some [⟨-1, verts⟩] ∧ verts ~r (m :: ts).reverse ++ (bs ++ [y]) := by
    rintro b bs' rfl htr
    have e : ts.reverse ++ ([m] ++ [b].reverse ++ (bs' ++ [y])) = (m :: ts).reverse ++ (b :: bs' ++ [y]) := by simp
    refine final m b _ _ mm (hmem b (by simp)) hmem ?_ htr
    rw [← e]
    exact main_run hT hM y _ ts bs' m b [] [] false rfl hy (by rw [e]; exact hmem) (by rw [e]; exact hc)
  have top : ∀ t ts', ts = t :: ts' → triangulate drop mono [] (m :: ts) (bs ++ [y]) = mainLoop drop mono ts' (bs ++ [y]) (pairStack true t m) →
      ∃ verts, decompose drop mono (m :: ts) (bs ++ [y]) = some [⟨-1, verts⟩] ∧ verts ~r (m :: ts).reverse ++ (bs ++ [y]) := by
    rintro t ts' rfl htr
    have e : ts'.reverse ++ ([t] ++ [m].reverse ++ (bs ++ [y])) = (m :: t :: ts').reverse ++ (bs ++ [y]) := by simp
    refine final t m _ _ (hmem t (by simp)) mm hmem ?_ htr
    rw [← e]
    exact main_run hT hM y _ ts' bs t m [] [] true rfl (fun x hx => hy x (by simp [hx])) (by rw [e]; exact hmem) (by rw [e]; exact hc)
  cases ts with
  | nil =>
    cases bs with
    | nil => simp at hne
    | cons b bs => exact bottom b bs rfl (by simp [triangulate, pairStack])
  | cons t ts =>
    cases bs with
    | nil => exact top t ts rfl (by simp [triangulate, pairStack, hy t (by simp)])
    | cons b bs =>
      by_cases hlt : b.compareComponent mono t < 0
      · exact bottom b bs rfl (by simp [triangulate, pairStack, hlt])
      · exact top t ts rfl (by simp [triangulate, pairStack, hlt])

end

end Walnut.Mono
