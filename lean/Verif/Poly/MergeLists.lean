/-
What merging does to the list of edges.
-/
import Verif.Poly.Merge
import Mathlib.Data.List.Rotate

namespace Walnut.Poly
open Walnut.Geom

variable {D : Type}

theorem spliceEdges_eq {P Q : List (Edge D)} {a b : Nat} (ha : a < P.length) (hb : b < Q.length) (hq : 2 ≤ Q.length) :
    spliceEdges P Q a b = some (P.take a ++ (Q.drop (b + 1) ++ Q.take b) ++ P.drop (a + 1)) := by
  have key : ∀ (e : Edge D) (rest : List (Edge D)),
      (P.set a e ++ rest).take (a + 1) ++ (P.set a e ++ rest).drop P.length ++
        ((P.set a e ++ rest).take P.length).drop (a + 1) = P.take a ++ (e :: rest) ++ P.drop (a + 1) := by
    intro e rest
    have h1 : P.set a e = P.take a ++ e :: P.drop (a + 1) := by
      rw [List.set_eq_take_append_cons_drop, if_pos ha]
    have hl : (P.set a e).length = P.length := List.length_set
    have hla : (P.take a).length = a := by rw [List.length_take]; omega
    have e1 : (P.set a e ++ rest).take (a + 1) = P.take a ++ [e] := by
      rw [List.take_append_of_le_length (by omega), h1, List.take_append, hla, Nat.add_sub_cancel_left]
      rw [List.take_of_length_le (by omega)]; rfl
    have e2 : (P.set a e ++ rest).drop P.length = rest := by rw [List.drop_append, hl, Nat.sub_self, ← hl, List.drop_length]; rfl
    have e3 : (P.set a e ++ rest).take P.length = P.set a e := by rw [List.take_append, hl, Nat.sub_self, ← hl, List.take_length]; simp
    rw [e1, e2, e3, h1, List.drop_append, hla, Nat.add_sub_cancel_left, List.drop_of_length_le (by omega)]
    simp
  unfold spliceEdges
  cases h1 : Q.drop (b + 1) with
  | cons e r1 =>
    simp only [Option.map_some, Option.some.injEq]
    rw [key]; rfl
  | nil =>
    cases h2 : Q.take b with
    | nil =>
      have e1 := congrArg List.length h1
      have e2 := congrArg List.length h2
      rw [List.length_drop, List.length_nil] at e1
      rw [List.length_take, List.length_nil] at e2
      omega
    | cons e r2 =>
      simp only [Option.map_some, Option.some.injEq]
      rw [key]; rfl

/-- An edge whose polygon changed. -/
def moveEdge (ops : MergeOps D) (e : Edge D) : Edge D := { e with data := ops.moved e.data }

theorem moveEdges_eq (ops : MergeOps D) (L M R : List (Edge D)) :
    moveEdges ops (L ++ M ++ R) L.length (L.length + M.length) = L ++ M.map (moveEdge ops) ++ R := by
  unfold moveEdges
  rw [List.mapIdx_append, List.mapIdx_append]
  congr 1
  · congr 1
    · apply List.ext_getElem?
      intro i
      simp only [List.getElem?_mapIdx, List.getElem?_map]
      cases h : L[i]? with
      | none => rfl
      | some e =>
        have : i < L.length := (List.getElem?_eq_some_iff.1 h).1
        simp; omega
    · apply List.ext_getElem?
      intro i
      simp only [List.getElem?_mapIdx, List.getElem?_map]
      cases h : M[i]? with
      | none => rfl
      | some e =>
        have : i < M.length := (List.getElem?_eq_some_iff.1 h).1
        simp [moveEdge]; omega
  · apply List.ext_getElem?
    intro i
    simp only [List.getElem?_mapIdx, List.getElem?_map]
    cases h : R[i]? with
    | none => rfl
    | some e => simp

/-- The edge that stays when `f` is merged into `e`. -/
def mergeEdge (ops : MergeOps D) (e f : Edge D) : Edge D := { e with data := ops.merge e.data f.data }

/-- The assertions and the decision of `TryMergeEdge`. -/
def edgeStep (ops : MergeOps D) (e f : Edge D) : Option Bool :=
  if e.line.d.isSameDir f.line.d = some true ∧ e.line.isCoincident f.vertex = true then some (ops.canMerge e.data f.data)
  else none

theorem tryMergeEdge_get (ops : MergeOps D) (P : Polygon D) {i : Nat} {e f : Edge D} (he : P.edges[i]? = some e)
    (hf : P.edges[(i + 1) % P.count]? = some f) :
    tryMergeEdge ops P i = (edgeStep ops e f).map fun c =>
      (c, if c then { P with edges := (P.edges.set i (mergeEdge ops e f)).eraseIdx ((i + 1) % P.count) } else P) := by
  unfold tryMergeEdge edgeStep
  rw [he, hf]
  dsimp only
  cases h1 : e.line.d.isSameDir f.line.d with
  | none => simp
  | some s =>
    cases s with
    | false => simp
    | true =>
      by_cases h2 : e.line.isCoincident f.vertex = true
      · simp only [h2, and_self, if_true]
        cases h3 : ops.canMerge e.data f.data <;> simp [mergeEdge]
      · simp [h2]

theorem tm_mid (ops : MergeOps D) (P : Polygon D) (L M : List (Edge D)) (e f : Edge D) :
    tryMergeEdge ops { P with edges := L ++ e :: f :: M } L.length = (edgeStep ops e f).map fun c =>
      (c, { P with edges := L ++ (if c then [mergeEdge ops e f] else [e, f]) ++ M }) := by
  have hm : (L.length + 1) % (Polygon.count { P with edges := L ++ e :: f :: M }) = L.length + 1 := by
    apply Nat.mod_eq_of_lt; unfold Polygon.count; simp
  rw [tryMergeEdge_get ops _ (e := e) (f := f) (by simp) (by rw [hm]; simp)]
  congr 1
  funext c
  cases c
  · simp
  · rw [hm]
    simp only [if_true]
    congr 2
    rw [List.set_append_right _ _ (le_refl _), Nat.sub_self, List.set_cons_zero, List.eraseIdx_append_of_length_le (by omega),
      Nat.add_sub_cancel_left]
    simp

theorem tm_end (ops : MergeOps D) (P : Polygon D) (L : List (Edge D)) (e f : Edge D) :
    tryMergeEdge ops { P with edges := f :: (L ++ [e]) } (L.length + 1) = (edgeStep ops e f).map fun c =>
      (c, { P with edges := if c then L ++ [mergeEdge ops e f] else f :: (L ++ [e]) }) := by
  have hm : (L.length + 1 + 1) % (Polygon.count { P with edges := f :: (L ++ [e]) }) = 0 := by
    unfold Polygon.count; simp
  rw [tryMergeEdge_get ops _ (e := e) (f := f) (by simp) (by rw [hm]; simp)]
  congr 1
  funext c
  cases c
  · simp
  · rw [hm]
    simp

/-- The edges after the common edge is replaced and the vertices at its ends are
possibly removed (`c1`, `c2`): `x … z` are the edges of the other polygon and `na … pa`
those of this one. -/
def canon (ops : MergeOps D) (x : Edge D) (Y : List (Edge D)) (z na : Edge D) (Pm : List (Edge D)) (pa : Edge D) (c1 c2 : Bool) :
    List (Edge D) :=
  (if c1 then [] else [x]) ++ Y ++ [if c2 then mergeEdge ops z na else z] ++ (if c2 then [] else [na]) ++ Pm ++
    [if c1 then mergeEdge ops pa x else pa]

theorem mergeEnds_eq (ops : MergeOps D) (P : Polygon D) {Pt Pd Y Pm : List (Edge D)} {x z na pa : Edge D}
    (h : Pd ++ Pt = na :: (Pm ++ [pa])) (t1 t2 : Int) :
    ∃ E : Bool → Bool → List (Edge D), (∀ c1 c2, E c1 c2 ~r canon ops x Y z na Pm pa c1 c2) ∧
      mergeEnds ops { P with edges := Pt ++ (x :: (Y ++ [z])) ++ Pd } Pt.length (Y.length + 3) t1 t2 =
        (do
          let c1 ← if t1 = 0 then edgeStep ops pa x else some false
          let c2 ← if t2 = 0 then edgeStep ops z na else some false
          some { P with edges := E c1 c2 }) := by
  rcases List.eq_nil_or_concat' Pt with hPt | ⟨Pt', q, hPt⟩
  · -- the common edge was the first one
    subst hPt
    rw [List.append_nil] at h
    subst h
    refine ⟨fun c1 c2 => canon ops x Y z na Pm pa c1 c2, fun c1 c2 => List.IsRotated.refl _, ?_⟩
    have hc : (Polygon.count { P with edges := [] ++ (x :: (Y ++ [z])) ++ na :: (Pm ++ [pa]) }) = Y.length + Pm.length + 4 := by
      unfold Polygon.count; simp; omega
    have first : tryMergeEdge ops { P with edges := [] ++ (x :: (Y ++ [z])) ++ na :: (Pm ++ [pa]) } (Y.length + Pm.length + 3) =
        (edgeStep ops pa x).map fun c => (c, { P with edges := (if c then [] else [x]) ++ Y ++ z :: na :: (Pm ++ [if c then mergeEdge ops pa x else pa]) }) := by
      have := tm_end ops P (Y ++ z :: na :: Pm) pa x
      have e1 : (Y ++ z :: na :: Pm).length + 1 = Y.length + Pm.length + 3 := by simp; omega
      rw [e1] at this
      have e2 : x :: (Y ++ z :: na :: Pm ++ [pa]) = [] ++ (x :: (Y ++ [z])) ++ na :: (Pm ++ [pa]) := by simp
      rw [e2] at this
      rw [this]
      congr 1
      funext c
      cases c <;> simp
    have second : ∀ c1 : Bool, tryMergeEdge ops
        { P with edges := (if c1 then [] else [x]) ++ Y ++ z :: na :: (Pm ++ [if c1 then mergeEdge ops pa x else pa]) }
        (if c1 then Y.length else Y.length + 1) =
        (edgeStep ops z na).map fun c => (c, { P with edges := canon ops x Y z na Pm pa c1 c }) := by
      intro c1
      have := tm_mid ops P ((if c1 then [] else [x]) ++ Y) (Pm ++ [if c1 then mergeEdge ops pa x else pa]) z na
      have e1 : ((if c1 then [] else [x]) ++ Y).length = if c1 then Y.length else Y.length + 1 := by cases c1 <;> simp
      rw [e1] at this
      rw [this]
      congr 1
      funext c
      cases c <;> cases c1 <;> simp [canon]
    unfold mergeEnds
    rw [hc, show (([] : List (Edge D)).length + (Y.length + Pm.length + 4) - 1) % (Y.length + Pm.length + 4) = Y.length + Pm.length + 3 by
      rw [List.length_nil, Nat.zero_add]; exact Nat.mod_eq_of_lt (by omega)]
    have tail : ∀ c1 : Bool, (do
        let a' : Int := if c1 then ((([] : List (Edge D)).length : Nat) : Int) - 1 else ((([] : List (Edge D)).length : Nat) : Int)
        if t2 = 0 then
          if a' + ((Y.length + 3 : Nat) : Int) - 2 < 0 then none
          else (tryMergeEdge ops { P with edges := (if c1 then [] else [x]) ++ Y ++ z :: na :: (Pm ++ [if c1 then mergeEdge ops pa x else pa]) }
            (a' + ((Y.length + 3 : Nat) : Int) - 2).toNat).map Prod.snd
        else some { P with edges := (if c1 then [] else [x]) ++ Y ++ z :: na :: (Pm ++ [if c1 then mergeEdge ops pa x else pa]) }) =
        (do
          let c2 ← if t2 = 0 then edgeStep ops z na else some false
          some { P with edges := canon ops x Y z na Pm pa c1 c2 }) := by
      intro c1
      by_cases h2 : t2 = 0
      · simp only [h2, if_true]
        rw [if_neg (by cases c1 <;> simp <;> omega)]
        have : ((if c1 then ((([] : List (Edge D)).length : Nat) : Int) - 1 else ((([] : List (Edge D)).length : Nat) : Int)) +
            ((Y.length + 3 : Nat) : Int) - 2).toNat = if c1 then Y.length else Y.length + 1 := by
          cases c1 <;> simp <;> omega
        rw [this, second c1]
        cases edgeStep ops z na <;> rfl
      · simp only [h2, if_false]
        cases c1 <;> simp [canon]
    by_cases h1 : t1 = 0
    · simp only [h1, if_true]
      rw [first]
      cases hs : edgeStep ops pa x with
      | none => rfl
      | some c1 => exact tail c1
    · simp only [h1, if_false]
      have := tail false
      simp only [Bool.false_eq_true, if_false] at this
      have e3 : [] ++ (x :: (Y ++ [z])) ++ na :: (Pm ++ [pa]) = [x] ++ Y ++ z :: na :: (Pm ++ [pa]) := by simp
      rw [e3]
      exact this
  · obtain rfl : q = pa := by
      have := congrArg List.getLast? h
      rw [hPt] at this
      rw [← List.append_assoc, ← List.cons_append, List.getLast?_concat, List.getLast?_concat] at this
      simpa using this
    subst hPt
    rw [← List.append_assoc, ← List.cons_append] at h
    have h := List.append_cancel_right h
    have hc : (Polygon.count { P with edges := Pt' ++ [q] ++ (x :: (Y ++ [z])) ++ Pd }) = Pt'.length + Pd.length + Y.length + 3 := by
      unfold Polygon.count; simp; omega
    -- the list after the first merge
    have first : tryMergeEdge ops { P with edges := Pt' ++ [q] ++ (x :: (Y ++ [z])) ++ Pd } Pt'.length =
        (edgeStep ops q x).map fun c => (c, { P with edges := Pt' ++ [if c then mergeEdge ops q x else q] ++ (if c then [] else [x]) ++ Y ++ z :: Pd }) := by
      have := tm_mid ops P Pt' (Y ++ z :: Pd) q x
      have e2 : Pt' ++ q :: x :: (Y ++ z :: Pd) = Pt' ++ [q] ++ (x :: (Y ++ [z])) ++ Pd := by simp
      rw [e2] at this
      rw [this]
      congr 1
      funext c
      cases c <;> simp
    obtain ⟨E, hE, second⟩ : ∃ E : Bool → Bool → List (Edge D), (∀ c1 c2, E c1 c2 ~r canon ops x Y z na Pm q c1 c2) ∧
        ∀ c1 : Bool, E c1 false = Pt' ++ [if c1 then mergeEdge ops q x else q] ++ (if c1 then [] else [x]) ++ Y ++ z :: Pd ∧
        tryMergeEdge ops
        { P with edges := Pt' ++ [if c1 then mergeEdge ops q x else q] ++ (if c1 then [] else [x]) ++ Y ++ z :: Pd }
        (if c1 then Pt'.length + Y.length + 1 else Pt'.length + Y.length + 2) =
        (edgeStep ops z na).map fun c => (c, { P with edges := E c1 c }) := by
      cases Pd with
      | nil =>
        -- the common edge was the last one
        rw [List.nil_append] at h
        subst h
        refine ⟨fun c1 c2 => (if c2 then [] else [na]) ++ Pm ++ [if c1 then mergeEdge ops q x else q] ++ (if c1 then [] else [x]) ++ Y ++
            [if c2 then mergeEdge ops z na else z], fun c1 c2 => ?_, fun c1 => ⟨by simp, ?_⟩⟩
        · have := List.isRotated_append (l := (if c2 then [] else [na]) ++ Pm ++ [if c1 then mergeEdge ops q x else q])
            (l' := (if c1 then [] else [x]) ++ Y ++ [if c2 then mergeEdge ops z na else z])
          simpa [canon] using this
        · have := tm_end ops P (Pm ++ [if c1 then mergeEdge ops q x else q] ++ (if c1 then [] else [x]) ++ Y) z na
          have e1 : (Pm ++ [if c1 then mergeEdge ops q x else q] ++ (if c1 then [] else [x]) ++ Y).length + 1 =
              if c1 then (na :: Pm).length + Y.length + 1 else (na :: Pm).length + Y.length + 2 := by
            cases c1 <;> simp <;> omega
          rw [e1] at this
          simp only [List.append_assoc, List.cons_append, List.nil_append] at this ⊢
          rw [this]
          congr 1
          funext c
          cases c <;> simp
      | cons w Pd' =>
        rw [List.cons_append, List.cons.injEq] at h
        obtain ⟨rfl, rfl⟩ := h
        refine ⟨fun c1 c2 => Pt' ++ [if c1 then mergeEdge ops q x else q] ++ (if c1 then [] else [x]) ++ Y ++
            [if c2 then mergeEdge ops z w else z] ++ (if c2 then [] else [w]) ++ Pd', fun c1 c2 => ?_, fun c1 => ⟨by simp, ?_⟩⟩
        · have := List.isRotated_append (l := Pt' ++ [if c1 then mergeEdge ops q x else q])
            (l' := (if c1 then [] else [x]) ++ Y ++ [if c2 then mergeEdge ops z w else z] ++ (if c2 then [] else [w]) ++ Pd')
          simpa [canon] using this
        · have := tm_mid ops P (Pt' ++ [if c1 then mergeEdge ops q x else q] ++ (if c1 then [] else [x]) ++ Y) Pd' z w
          have e1 : (Pt' ++ [if c1 then mergeEdge ops q x else q] ++ (if c1 then [] else [x]) ++ Y).length =
              if c1 then Pt'.length + Y.length + 1 else Pt'.length + Y.length + 2 := by
            cases c1 <;> simp <;> omega
          rw [e1] at this
          rw [this]
          congr 1
          funext c
          cases c <;> simp
    refine ⟨E, hE, ?_⟩
    unfold mergeEnds
    have hl : (Pt' ++ [q]).length = Pt'.length + 1 := by simp
    rw [hc, hl, show (Pt'.length + 1 + (Pt'.length + Pd.length + Y.length + 3) - 1) % (Pt'.length + Pd.length + Y.length + 3) = Pt'.length by
      rw [show Pt'.length + 1 + (Pt'.length + Pd.length + Y.length + 3) - 1 = Pt'.length + (Pt'.length + Pd.length + Y.length + 3) by omega,
        Nat.add_mod_right]
      exact Nat.mod_eq_of_lt (by omega)]
    have tail : ∀ c1 : Bool, (do
        let a' : Int := if c1 then ((Pt'.length + 1 : Nat) : Int) - 1 else ((Pt'.length + 1 : Nat) : Int)
        if t2 = 0 then
          if a' + ((Y.length + 3 : Nat) : Int) - 2 < 0 then none
          else (tryMergeEdge ops { P with edges := Pt' ++ [if c1 then mergeEdge ops q x else q] ++ (if c1 then [] else [x]) ++ Y ++ z :: Pd }
            (a' + ((Y.length + 3 : Nat) : Int) - 2).toNat).map Prod.snd
        else some { P with edges := Pt' ++ [if c1 then mergeEdge ops q x else q] ++ (if c1 then [] else [x]) ++ Y ++ z :: Pd }) =
        (do
          let c2 ← if t2 = 0 then edgeStep ops z na else some false
          some { P with edges := E c1 c2 }) := by
      intro c1
      by_cases h2 : t2 = 0
      · simp only [h2, if_true]
        rw [if_neg (by cases c1 <;> simp <;> omega)]
        have : ((if c1 then ((Pt'.length + 1 : Nat) : Int) - 1 else ((Pt'.length + 1 : Nat) : Int)) +
            ((Y.length + 3 : Nat) : Int) - 2).toNat = if c1 then Pt'.length + Y.length + 1 else Pt'.length + Y.length + 2 := by
          cases c1 <;> simp <;> omega
        rw [this, (second c1).2]
        cases edgeStep ops z na <;> rfl
      · simp only [h2, if_false]
        rw [← (second c1).1]; rfl
    by_cases h1 : t1 = 0
    · simp only [h1, if_true]
      rw [first]
      cases hs : edgeStep ops q x with
      | none => rfl
      | some c1 => exact tail c1
    · simp only [h1, if_false]
      have := tail false
      simp only [Bool.false_eq_true, if_false] at this
      have e3 : Pt' ++ [q] ++ (x :: (Y ++ [z])) ++ Pd = Pt' ++ [q] ++ [x] ++ Y ++ z :: Pd := by simp
      rw [e3]
      exact this

end Walnut.Poly
