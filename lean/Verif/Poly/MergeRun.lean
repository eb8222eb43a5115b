/-
What `TryMergePolygon` returns.
-/
import Verif.Poly.MergeProof
import Verif.Props.Lines
import Verif.Props.Area
import Verif.Props.Rational

namespace Walnut.Poly
open Walnut.Geom Walnut.Props Walnut.Mono

variable {D : Type}

theorem list_ends {α : Type} {l : List α} (h : 3 ≤ l.length) {e0 e1 ez : α} (h0 : l[0]? = some e0) (h1 : l[1]? = some e1)
    (hz : l[l.length - 1]? = some ez) : ∃ M, l = e0 :: e1 :: (M ++ [ez]) := by
  match l with
  | a :: b :: c :: M =>
    simp at h0 h1
    subst h0 h1
    rcases List.eq_nil_or_concat' (c :: M) with hM | ⟨M', q, hM⟩
    · simp at hM
    · rw [hM] at hz ⊢
      refine ⟨M', ?_⟩
      simp at hz
      rw [hz]

theorem pt_get {P : Polygon D} {i : Nat} {e : Edge D} (h : P.edges[i]? = some e) :
    P.pt i = e.vertex.pt ∧ P.vertexD i = e.vertex ∧ P.lineD i = e.line := by
  unfold Polygon.pt Polygon.vertexD Polygon.lineD
  rw [h]; simp

theorem ring2_get {P : Polygon D} {i : Nat} {e : Edge D} (h : P.edges[i]? = some e) :
    ring2 P i = pr P.plane P.drop e.vertex.pt := by
  have hi : i < P.count := (List.getElem?_eq_some_iff.1 h).1
  rw [Facing.ring_at hi, (pt_get h).1]

/-- The edges when vertices at the ends of the common edge are left out. -/
def left (x : Edge D) (Y : List (Edge D)) (z na : Edge D) (Pm : List (Edge D)) (pa : Edge D) (c1 c2 : Bool) : List (Edge D) :=
  (if c1 then [] else [x]) ++ Y ++ [z] ++ (if c2 then [] else [na]) ++ Pm ++ [pa]

theorem left_keeps {K : Polygon D} {x y0 z na p0 pa : Edge D} {Y Y' Pm P' : List (Edge D)} {c1 c2 : Bool}
    (hK : IsConvexPolygon { K with edges := left x Y z na Pm pa false false }) (hY : Y ++ [z] = y0 :: Y') (hP : Pm ++ [pa] = p0 :: P')
    (h1 : c1 = true → ar (pr K.plane K.drop pa.vertex.pt) (pr K.plane K.drop x.vertex.pt) (pr K.plane K.drop y0.vertex.pt) = 0)
    (h2 : c2 = true → ar (pr K.plane K.drop z.vertex.pt) (pr K.plane K.drop na.vertex.pt) (pr K.plane K.drop p0.vertex.pt) = 0) :
    IsConvexPolygon { K with edges := left x Y z na Pm pa c1 c2 } ∧
      Polygon.region { K with edges := left x Y z na Pm pa c1 c2 } = Polygon.region { K with edges := left x Y z na Pm pa false false } ∧
      ∀ k, ringArea k (left x Y z na Pm pa c1 c2) = ringArea k (left x Y z na Pm pa false false) := by
  -- leaving out the second vertex of a rotated list
  have step : ∀ {l l' : List (Edge D)} {e f g : Edge D} {t : List (Edge D)}, IsConvexPolygon { K with edges := l } →
      l ~r e :: f :: g :: t → e :: g :: t ~r l' →
      ar (pr K.plane K.drop e.vertex.pt) (pr K.plane K.drop f.vertex.pt) (pr K.plane K.drop g.vertex.pt) = 0 →
      IsConvexPolygon { K with edges := l' } ∧ Polygon.region { K with edges := l' } = Polygon.region { K with edges := l } ∧
        ∀ k, ringArea k l' = ringArea k l := by
    intro l l' e f g t hl r1 r2 hz
    obtain ⟨a1, a2⟩ := hl.isRotated r1
    obtain ⟨b1, b2, s, b3⟩ := a1.straighten (e := e) (f := f) (t := g :: t) rfl (by
      rw [ring2_get (e := e) rfl, ring2_get (e := f) rfl, ring2_get (e := g) rfl]; exact hz)
    obtain ⟨d1, d2⟩ := b1.isRotated r2
    refine ⟨d1, by rw [d2, b2, a2], fun k => ?_⟩
    rw [(pt_get (i := 0) (e := e) rfl).1, (pt_get (i := 1) (e := f) rfl).1, (pt_get (i := 2) (e := g) rfl).1] at b3
    rw [← ringArea_isRotated k r2, ringArea_isRotated k r1, ringArea_omit b3]
  have s1 : IsConvexPolygon { K with edges := left x Y z na Pm pa c1 false } ∧
      Polygon.region { K with edges := left x Y z na Pm pa c1 false } = Polygon.region { K with edges := left x Y z na Pm pa false false } ∧
      ∀ k, ringArea k (left x Y z na Pm pa c1 false) = ringArea k (left x Y z na Pm pa false false) := by
    cases c1 with
    | false => exact ⟨hK, rfl, fun _ => rfl⟩
    | true =>
      refine step (e := pa) (f := x) (g := y0) (t := Y' ++ na :: Pm) hK ?_ ?_ (h1 rfl)
      · have := List.isRotated_append (l := x :: (Y ++ [z]) ++ na :: Pm) (l' := [pa])
        have e1 : x :: (Y ++ [z]) ++ na :: Pm ++ [pa] = left x Y z na Pm pa false false := by simp [left]
        have e2 : [pa] ++ (x :: (Y ++ [z]) ++ na :: Pm) = pa :: x :: y0 :: (Y' ++ na :: Pm) := by rw [hY]; simp
        rwa [e1, e2] at this
      · have := List.isRotated_append (l := [pa]) (l' := (Y ++ [z]) ++ na :: Pm)
        have e1 : Y ++ [z] ++ na :: Pm ++ [pa] = left x Y z na Pm pa true false := by simp [left]
        have e2 : [pa] ++ (Y ++ [z] ++ na :: Pm) = pa :: y0 :: (Y' ++ na :: Pm) := by rw [hY]; simp
        rwa [e1, e2] at this
  cases c2 with
  | false => exact s1
  | true =>
    have s2 := step (l := left x Y z na Pm pa c1 false) (l' := left x Y z na Pm pa c1 true) (e := z) (f := na) (g := p0)
      (t := P' ++ ((if c1 then [] else [x]) ++ Y)) s1.1 ?_ ?_ (h2 rfl)
    · exact ⟨s2.1, s2.2.1.trans s1.2.1, fun k => (s2.2.2 k).trans (s1.2.2 k)⟩
    · have := List.isRotated_append (l := (if c1 then [] else [x]) ++ Y) (l' := z :: na :: (Pm ++ [pa]))
      have e1 : ((if c1 then [] else [x]) ++ Y) ++ z :: na :: (Pm ++ [pa]) = left x Y z na Pm pa c1 false := by simp [left]
      have e2 : z :: na :: (Pm ++ [pa]) ++ ((if c1 then [] else [x]) ++ Y) = z :: na :: p0 :: (P' ++ ((if c1 then [] else [x]) ++ Y)) := by
        rw [hP]; simp
      rwa [e1, e2] at this
    · have := List.isRotated_append (l := z :: (Pm ++ [pa])) (l' := (if c1 then [] else [x]) ++ Y)
      have e1 : ((if c1 then [] else [x]) ++ Y) ++ z :: (Pm ++ [pa]) = left x Y z na Pm pa c1 true := by simp [left]
      have e2 : z :: (Pm ++ [pa]) ++ ((if c1 then [] else [x]) ++ Y) = z :: p0 :: (P' ++ ((if c1 then [] else [x]) ++ Y)) := by
        rw [hP]; simp
      rwa [e1, e2] at this

theorem canon_geo (ops : MergeOps D) (x : Edge D) (Y : List (Edge D)) (z na : Edge D) (Pm : List (Edge D)) (pa : Edge D) (c1 c2 : Bool) :
    (canon ops (moveEdge ops x) (Y.map (moveEdge ops)) (moveEdge ops z) na Pm pa c1 c2).map Edge.geo =
      (left x Y z na Pm pa c1 c2).map Edge.geo := by
  have h1 : ∀ e : Edge D, (moveEdge ops e).geo = e.geo := fun _ => rfl
  have h2 : ∀ e f : Edge D, (mergeEdge ops e f).geo = e.geo := fun _ _ => rfl
  unfold canon left
  cases c1 <;> cases c2 <;> simp [h1, h2, Function.comp_def]

theorem ringArea_geo (k : Fin 3) {l l' : List (Edge D)} (h : l.map Edge.geo = l'.map Edge.geo) : ringArea k l = ringArea k l' := by
  have := congrArg (List.map fun g : HP3 × PL => g.1.pt) h
  rw [List.map_map, List.map_map] at this
  unfold ringArea
  have e : ∀ m : List (Edge D), m.map ((fun g : HP3 × PL => g.1.pt) ∘ Edge.geo) = m.map fun e => e.vertex.pt := fun m => rfl
  rw [e, e] at this
  rw [this]

theorem overFan_ringArea (P : Polygon D) (k : Fin 3) (h : 2 ≤ P.count) : overFan P (triArea k) = ringArea k P.edges / 2 := by
  obtain ⟨a, l, hv, hl⟩ := verts_cons P (by omega)
  obtain ⟨b, l', rfl⟩ : ∃ b l', l = b :: l' := by
    cases l with
    | nil => simp at hl; omega
    | cons b l' => exact ⟨b, l', rfl⟩
  have e := closed_fan (f := crs k) (g := fun a b c => 2 * triArea k a.pt b.pt c.pt)
    (fun a b => by unfold crs; ring) (fun a b c => by unfold crs triArea cx cy; ring) a b l'
  have e2 := fan_index P (fun a b c => 2 * triArea k a b c) hv hl
  have e3 : overFan P (fun a b c => 2 * triArea k a b c) = 2 * overFan P (triArea k) := by
    unfold overFan; rw [Finset.mul_sum]
  rw [e2, e3] at e
  have e4 : ringArea k P.edges = pairSum (crs k) (a :: b :: l') + crs k ((b :: l').getLast (by simp)) a := by
    have : P.edges.map (fun e => e.vertex.pt) = (P.verts).map HP3.pt := by simp [Polygon.verts]
    unfold ringArea
    rw [this, hv]
    have aux : ∀ (c : HP3) (m : List HP3), pSum (crsQ k) ((c :: m).map HP3.pt ++ [a.pt]) =
        pairSum (crs k) (c :: m) + crs k ((c :: m).getLast (by simp)) a := by
      intro c m
      induction m generalizing c with
      | nil => simp [pSum, pairSum, crsQ, crs, cx, cy]
      | cons d m ih =>
        have := ih d
        simp only [List.map_cons, List.cons_append, pSum, pairSum] at this ⊢
        rw [this, List.getLast_cons (List.cons_ne_nil d m), show crsQ k c.pt d.pt = crs k c d from rfl]
        ring
    have := aux a (b :: l')
    rw [List.getLast_cons (by simp)] at this
    simpa [cSum] using this
  rw [e4, e]; ring

theorem turn_ar {P : Polygon D} (hd : P.plane.n.comp P.drop ≠ 0) {a b c : Q3} (ha : P.plane.side a = 0) (hb : P.plane.side b = 0)
    (hc : P.plane.side c = 0) :
    turn P.plane.n.q a b c = 0 ↔ ar (pr P.plane P.drop a) (pr P.plane P.drop b) (pr P.plane P.drop c) = 0 := by
  have h := turn_eq P.plane hd ha hb hc
  have k := sg_mul_pos P.plane hd
  have n0 : (0 : ℚ) < P.plane.n.x * P.plane.n.x + P.plane.n.y * P.plane.n.y + P.plane.n.z * P.plane.n.z := by
    rcases fin3 P.drop with e | e | e <;> rw [e] at hd <;> simp [V3.comp] at hd
    · have : (0 : ℚ) < P.plane.n.x * P.plane.n.x := mul_self_pos.2 (by exact_mod_cast hd)
      nlinarith [mul_self_nonneg (P.plane.n.y : ℚ), mul_self_nonneg (P.plane.n.z : ℚ)]
    · have : (0 : ℚ) < P.plane.n.y * P.plane.n.y := mul_self_pos.2 (by exact_mod_cast hd)
      nlinarith [mul_self_nonneg (P.plane.n.x : ℚ), mul_self_nonneg (P.plane.n.z : ℚ)]
    · have : (0 : ℚ) < P.plane.n.z * P.plane.n.z := mul_self_pos.2 (by exact_mod_cast hd)
      nlinarith [mul_self_nonneg (P.plane.n.y : ℚ), mul_self_nonneg (P.plane.n.x : ℚ)]
  unfold ar2 at h
  constructor
  · intro e
    rw [e, mul_zero] at h
    exact (mul_eq_zero.1 h.symm).resolve_left n0.ne'
  · intro e
    rw [e, mul_zero] at h
    exact (mul_eq_zero.1 h).resolve_left k.ne'

/-- What a run returns. -/
structure MergeOut (ops : MergeOps D) (P : Polygon D) (a : Nat) (Q : Polygon D) (b : Nat) (r : Bool) (R S : Polygon D)
    (ea na pa eb nb pb : Edge D) (Pm Qm : List (Edge D)) : Prop where
  la : a < P.count
  lb : b < Q.count
  ep : P.edges.rotate a = ea :: na :: (Pm ++ [pa])
  eq : Q.edges.rotate b = eb :: nb :: (Qm ++ [pb])
  ptA : ea.vertex.pt = nb.vertex.pt
  ptB : eb.vertex.pt = na.vertex.pt
  merges : r = true ↔ SameDir3 P.plane.n Q.plane.n ∧ IsConvexPolygon { P with edges := left nb Qm pb na Pm pa false false }
  stays : r = false → R = P ∧ S = Q
  result : r = true → S = { Q with edges := [] } ∧ R.plane = P.plane ∧ R.drop = P.drop ∧ IsConvexPolygon R ∧
    R.region = P.region ∪ Q.region ∧ (∀ k, ringArea k R.edges = ringArea k P.edges + ringArea k Q.edges) ∧
    ∃ c1 c2 : Bool, (c1 = true ↔ turn P.plane.n.q (P.pt ((a + P.count - 1) % P.count)) (P.pt a) (Q.pt ((b + 2) % Q.count)) = 0 ∧
        ops.canMerge pa.data (ops.moved nb.data) = true) ∧
      (c2 = true ↔ turn P.plane.n.q (Q.pt ((b + Q.count - 1) % Q.count)) (Q.pt b) (P.pt ((a + 2) % P.count)) = 0 ∧
        ops.canMerge (ops.moved pb.data) na.data = true) ∧
      R.edges ~r canon ops (moveEdge ops nb) (Qm.map (moveEdge ops)) (moveEdge ops pb) na Pm pa c1 c2

theorem edgeStep_some {ops : MergeOps D} {e f : Edge D} {t : Int} {c : Bool} (h : (if t = 0 then edgeStep ops e f else some false) = some c) :
    c = true ↔ t = 0 ∧ ops.canMerge e.data f.data = true := by
  split_ifs at h with ht
  · unfold edgeStep at h
    split_ifs at h with h1
    simp only [Option.some.injEq] at h
    rw [← h]; simp [ht]
  · simp only [Option.some.injEq] at h
    rw [← h]; simp [ht]

/-- The parts of the polygons that a run looks at. -/
structure MergeIn (P : Polygon D) (a : Nat) (Q : Polygon D) (b : Nat) (ea na pa eb nb pb : Edge D) (Pm Qm : List (Edge D)) : Prop where
  hp : IsConvexPolygon P
  hq : IsConvexPolygon Q
  la : a < P.count
  lb : b < Q.count
  ep : P.edges.rotate a = ea :: na :: (Pm ++ [pa])
  eq : Q.edges.rotate b = eb :: nb :: (Qm ++ [pb])
  ptA : ea.vertex.pt = nb.vertex.pt
  ptB : eb.vertex.pt = na.vertex.pt

theorem rotate_edges (P : Polygon D) {a : Nat} (h : a < P.count) : (P.rotateEdges a).edges = P.edges.rotate a := by
  unfold Polygon.rotateEdges
  rw [List.rotate_eq_drop_append_take]
  unfold Polygon.count at h
  exact h.le

theorem exists_mergeIn {P Q : Polygon D} {a b : Nat} {ea na pa eb nb pb : Edge D} (hp : IsConvexPolygon P) (hq : IsConvexPolygon Q)
    (h1 : P.edges[a]? = some ea) (h2 : Q.edges[b]? = some eb) (h3 : P.edges[(a + 1) % P.count]? = some na)
    (h4 : Q.edges[(b + 1) % Q.count]? = some nb) (h5 : P.edges[(a + P.count - 1) % P.count]? = some pa)
    (h6 : Q.edges[(b + Q.count - 1) % Q.count]? = some pb) (ptA : ea.vertex.pt = nb.vertex.pt) (ptB : eb.vertex.pt = na.vertex.pt) :
    ∃ Pm Qm, MergeIn P a Q b ea na pa eb nb pb Pm Qm := by
  have la : a < P.count := (List.getElem?_eq_some_iff.1 h1).1
  have lb : b < Q.count := (List.getElem?_eq_some_iff.1 h2).1
  have n3 := hp.three
  have m3 := hq.three
  have dec : ∀ {P : Polygon D} {a : Nat} {ea na pa : Edge D}, 3 ≤ P.count → a < P.count → P.edges[a]? = some ea →
      P.edges[(a + 1) % P.count]? = some na → P.edges[(a + P.count - 1) % P.count]? = some pa →
      ∃ M, P.edges.rotate a = ea :: na :: (M ++ [pa]) := by
    intro P a ea na pa n3 la h1 h3 h5
    rw [← rotate_edges P la]
    have hl : (P.rotateEdges a).edges.length = P.count := rotate_count P la
    refine list_ends (by rw [hl]; exact n3) ?_ ?_ ?_
    · rw [rotate_get P la (by omega), Nat.zero_add, Nat.mod_eq_of_lt la]; exact h1
    · rw [rotate_get P la (by omega), Nat.add_comm]; exact h3
    · rw [hl, rotate_get P la (by omega), show P.count - 1 + a = a + P.count - 1 by omega]; exact h5
  obtain ⟨Pm, e1⟩ := dec n3 la h1 h3 h5
  obtain ⟨Qm, e2⟩ := dec m3 lb h2 h4 h6
  exact ⟨Pm, Qm, hp, hq, la, lb, e1, e2, ptA, ptB⟩

namespace MergeIn
variable {P Q : Polygon D} {a b : Nat} {ea na pa eb nb pb : Edge D} {Pm Qm : List (Edge D)}

theorem getP (h : MergeIn P a Q b ea na pa eb nb pb Pm Qm) {i : Nat} (hi : i < P.count) :
    (ea :: na :: (Pm ++ [pa]))[i]? = P.edges[(i + a) % P.count]? := by
  rw [← h.ep, ← rotate_edges P h.la, rotate_get P h.la hi]

theorem getQ (h : MergeIn P a Q b ea na pa eb nb pb Pm Qm) {i : Nat} (hi : i < Q.count) :
    (eb :: nb :: (Qm ++ [pb]))[i]? = Q.edges[(i + b) % Q.count]? := by
  rw [← h.eq, ← rotate_edges Q h.lb, rotate_get Q h.lb hi]

theorem countP (h : MergeIn P a Q b ea na pa eb nb pb Pm Qm) : P.count = Pm.length + 3 := by
  have := congrArg List.length h.ep
  rw [List.length_rotate] at this
  unfold Polygon.count
  rw [this]; simp

theorem countQ (h : MergeIn P a Q b ea na pa eb nb pb Pm Qm) : Q.count = Qm.length + 3 := by
  have := congrArg List.length h.eq
  rw [List.length_rotate] at this
  unfold Polygon.count
  rw [this]; simp

/-- `P` beginning with the common edge. -/
def P1 (P : Polygon D) (a : Nat) : Polygon D := { P with edges := P.edges.rotate a }

/-- `Q` beginning with the common edge, with the plane of `P`. -/
def Q1 (P Q : Polygon D) (b : Nat) : Polygon D := ⟨P.plane, P.drop, Q.edges.rotate b⟩

theorem onQ (h : MergeIn P a Q b ea na pa eb nb pb Pm Qm) : Q.plane.side ea.vertex.pt = 0 ∧ P.plane.side ea.vertex.pt = 0 := by
  have n3 := h.hp.three
  have m3 := h.hq.three
  have e1 := h.getQ (i := 1) (by omega)
  have e2 := h.getP (i := 0) (by omega)
  constructor
  · rw [h.ptA, ← (pt_get e1.symm).1]
    exact h.hq.onPlane _ (Nat.mod_lt _ (by omega))
  · rw [← (pt_get e2.symm).1]
    exact h.hp.onPlane _ (Nat.mod_lt _ (by omega))

theorem facing (h : MergeIn P a Q b ea na pa eb nb pb Pm Qm) (hs : SameDir3 P.plane.n Q.plane.n) : Facing (P1 P a) (Q1 P Q b) := by
  have r1 := h.hp.isRotated ⟨a, rfl⟩
  have r2 := h.hq.isRotated ⟨b, rfl⟩
  obtain ⟨k, l, hk, hl, e⟩ := hs
  obtain ⟨o1, o2⟩ := h.onQ
  have c : ∀ j, (k : ℚ) * P.plane.n.q j = l * Q.plane.n.q j := by
    intro j
    have := congrArg (fun v => V3.comp v j) e
    have e' : P.plane.n.comp j * k = Q.plane.n.comp j * l := by
      obtain rfl | rfl | rfl := fin3 j <;> simpa [V3.scale, V3.comp] using this
    have : (P.plane.n.comp j : ℚ) * k = Q.plane.n.comp j * l := by exact_mod_cast e'
    unfold V3.q
    linear_combination this
  refine ⟨r1.1, r2.1.replane h.hp.drop (by exact_mod_cast hk) (by exact_mod_cast hl) c o1 o2, rfl, rfl, ?_, ?_⟩
  · rw [(pt_get (P := P1 P a) (i := 0) (e := ea) (by unfold P1; rw [h.ep]; rfl)).1,
      (pt_get (P := Q1 P Q b) (i := 1) (e := nb) (by unfold Q1; rw [h.eq]; rfl)).1, h.ptA]
  · rw [(pt_get (P := Q1 P Q b) (i := 0) (e := eb) (by unfold Q1; rw [h.eq]; rfl)).1,
      (pt_get (P := P1 P a) (i := 1) (e := na) (by unfold P1; rw [h.ep]; rfl)).1, h.ptB]

theorem unite_eq (h : MergeIn P a Q b ea na pa eb nb pb Pm Qm) :
    unite (P1 P a) (Q1 P Q b) = { P with edges := left nb Qm pb na Pm pa false false } := by
  unfold unite P1 Q1 left
  dsimp only
  rw [h.ep, h.eq]
  simp

theorem splice (h : MergeIn P a Q b ea na pa eb nb pb Pm Qm) :
    spliceEdges P.edges Q.edges a b = some (P.edges.take a ++ (nb :: (Qm ++ [pb])) ++ P.edges.drop (a + 1)) ∧
      P.edges.drop (a + 1) ++ P.edges.take a = na :: (Pm ++ [pa]) := by
  have la := h.la
  have lb := h.lb
  have m3 := h.hq.three
  have tl : ∀ {l : List (Edge D)} {k : Nat}, k < l.length → l.drop (k + 1) ++ l.take k = (l.rotate k).tail := by
    intro l k hk
    rw [List.rotate_eq_drop_append_take hk.le, List.drop_eq_getElem_cons hk]
    rfl
  unfold Polygon.count at la lb m3
  refine ⟨?_, ?_⟩
  · rw [spliceEdges_eq la lb (by omega), tl lb, h.eq]; rfl
  · rw [tl la, h.ep]; rfl

section
variable (h : MergeIn P a Q b ea na pa eb nb pb Pm Qm)
include h

theorem p1_first : (P1 P a).edges[0]? = some ea ∧ (P1 P a).edges[1]? = some na ∧ (P1 P a).edges[(P1 P a).count - 1]? = some pa ∧
    (Q1 P Q b).edges[0]? = some eb ∧ (Q1 P Q b).edges[1]? = some nb ∧ (Q1 P Q b).edges[(Q1 P Q b).count - 1]? = some pb := by
  unfold P1 Q1 Polygon.count
  simp only [h.ep, h.eq]
  refine ⟨rfl, rfl, ?_, rfl, rfl, ?_⟩
  · rw [show (ea :: na :: (Pm ++ [pa])).length - 1 = Pm.length + 1 + 1 by simp, List.getElem?_cons_succ, List.getElem?_cons_succ,
      List.getElem?_concat_length]
  · rw [show (eb :: nb :: (Qm ++ [pb])).length - 1 = Qm.length + 1 + 1 by simp, List.getElem?_cons_succ, List.getElem?_cons_succ,
      List.getElem?_concat_length]

theorem common {dim : Fin 3} : (ea.line.d.comp dim ≠ 0) ↔ na.vertex.pt dim - ea.vertex.pt dim ≠ 0 := by
  have n3 := h.hp.three
  have r1 := (h.hp.isRotated ⟨a, rfl⟩).1
  obtain ⟨g0, g1, -⟩ := h.p1_first
  have hc : (P1 P a).count = P.count := by simp [P1, Polygon.count]
  have l := r1.line 0 (by change 0 < (P1 P a).count; omega)
  change EdgeLine ((P1 P a).lineD 0) ((P1 P a).pt 0) ((P1 P a).pt (1 % (P1 P a).count)) at l
  rw [Nat.mod_eq_of_lt (by omega), (pt_get g0).1, (pt_get g1).1, (pt_get g0).2.2] at l
  obtain ⟨s, s0, f⟩ := l.dir
  have fd : (ea.line.d.comp dim : ℚ) = s * (na.vertex.pt dim - ea.vertex.pt dim) := f dim
  constructor
  · intro e e0
    rw [e0, mul_zero] at fd
    exact e (by exact_mod_cast fd)
  · intro e e0
    rw [e0] at fd
    push_cast at fd
    rcases mul_eq_zero.1 fd.symm with e1 | e1
    · exact s0.ne' e1
    · exact e e1

theorem blocked_iff_convex (hs : SameDir3 P.plane.n Q.plane.n) {dim : Fin 3} (hd : ea.line.d.comp dim ≠ 0) :
    (mergeBlocked dim (P.plane.n.comp P.drop) ((pa.line.d.dropDimension P.drop).cross (nb.line.d.dropDimension P.drop)) pa.line.d nb.line.d = false ∧
      mergeBlocked dim (P.plane.n.comp P.drop) ((pb.line.d.dropDimension P.drop).cross (na.line.d.dropDimension P.drop)) pb.line.d na.line.d = false) ↔
    IsConvexPolygon { P with edges := left nb Qm pb na Pm pa false false } := by
  have f := h.facing hs
  obtain ⟨g0, g1, gz, k0, k1, kz⟩ := h.p1_first
  have hd' := (h.common (dim := dim)).1 hd
  have b1 := f.blocked (dim := dim) (by rw [(pt_get g0).1, (pt_get g1).1]; exact hd')
  have b2 := f.symm.blocked (dim := dim) (by
    rw [(pt_get k0).1, (pt_get k1).1, ← h.ptA, h.ptB]
    intro e; apply hd'; linarith)
  rw [(pt_get gz).2.2, (pt_get k1).2.2] at b1
  rw [(pt_get kz).2.2, (pt_get g1).2.2] at b2
  have b1' : mergeBlocked dim (P.plane.n.comp P.drop) ((pa.line.d.dropDimension P.drop).cross (nb.line.d.dropDimension P.drop)) pa.line.d nb.line.d = false ↔ _ := b1
  have b2' : mergeBlocked dim (P.plane.n.comp P.drop) ((pb.line.d.dropDimension P.drop).cross (na.line.d.dropDimension P.drop)) pb.line.d na.line.d = false ↔ _ := b2
  rw [b1', b2', ← h.unite_eq]
  exact ⟨fun hb => f.isConvex hb, fun hu => f.bends hu⟩

/-- The points at the ends of the common edge. -/
theorem points : P.pt ((a + P.count - 1) % P.count) = pa.vertex.pt ∧ P.pt a = nb.vertex.pt ∧ Q.pt ((b + Q.count - 1) % Q.count) = pb.vertex.pt ∧
    Q.pt b = na.vertex.pt ∧ Q.pt ((b + 2) % Q.count) = ((Qm ++ [pb]).head (by simp)).vertex.pt ∧
    P.pt ((a + 2) % P.count) = ((Pm ++ [pa]).head (by simp)).vertex.pt := by
  have n3 := h.hp.three
  have m3 := h.hq.three
  have la := h.la
  have lb := h.lb
  have hd : ∀ (l : List (Edge D)) (hl : l ≠ []), l[0]? = some (l.head hl) := by
    intro l hl
    cases l with
    | nil => exact absurd rfl hl
    | cons a l => rfl
  refine ⟨?_, ?_, ?_, ?_, ?_, ?_⟩
  · have e := h.getP (i := P.count - 1) (by omega)
    rw [show P.count - 1 + a = a + P.count - 1 by omega] at e
    rw [h.countP, show Pm.length + 3 - 1 = Pm.length + 1 + 1 by omega, List.getElem?_cons_succ, List.getElem?_cons_succ,
      List.getElem?_concat_length, ← h.countP] at e
    exact (pt_get e.symm).1
  · have e := h.getP (i := 0) (by omega)
    rw [Nat.zero_add, Nat.mod_eq_of_lt la] at e
    rw [(pt_get e.symm).1]; exact h.ptA
  · have e := h.getQ (i := Q.count - 1) (by omega)
    rw [show Q.count - 1 + b = b + Q.count - 1 by omega] at e
    rw [h.countQ, show Qm.length + 3 - 1 = Qm.length + 1 + 1 by omega, List.getElem?_cons_succ, List.getElem?_cons_succ,
      List.getElem?_concat_length, ← h.countQ] at e
    exact (pt_get e.symm).1
  · have e := h.getQ (i := 0) (by omega)
    rw [Nat.zero_add, Nat.mod_eq_of_lt lb] at e
    rw [(pt_get e.symm).1]; exact h.ptB
  · have e := h.getQ (i := 2) (by omega)
    rw [List.getElem?_cons_succ, List.getElem?_cons_succ, hd _ (by simp), Nat.add_comm] at e
    exact (pt_get e.symm).1
  · have e := h.getP (i := 2) (by omega)
    rw [List.getElem?_cons_succ, List.getElem?_cons_succ, hd _ (by simp), Nat.add_comm] at e
    exact (pt_get e.symm).1

theorem ring_pts : ring2 (Q1 P Q b) 2 = pr P.plane P.drop ((Qm ++ [pb]).head (by simp)).vertex.pt ∧
    ring2 (P1 P a) 2 = pr P.plane P.drop ((Pm ++ [pa]).head (by simp)).vertex.pt := by
  have hd : ∀ (l : List (Edge D)) (hl : l ≠ []), l[0]? = some (l.head hl) := by
    intro l hl
    cases l with
    | nil => exact absurd rfl hl
    | cons a l => rfl
  constructor
  · rw [ring2_get (P := Q1 P Q b) (e := (Qm ++ [pb]).head (by simp))]
    · rfl
    · unfold Q1
      simp only [h.eq]
      rw [List.getElem?_cons_succ, List.getElem?_cons_succ, hd]
  · rw [ring2_get (P := P1 P a) (e := (Pm ++ [pa]).head (by simp))]
    · rfl
    · unfold P1
      simp only [h.ep]
      rw [List.getElem?_cons_succ, List.getElem?_cons_succ, hd]

theorem flat (hs : SameDir3 P.plane.n Q.plane.n) :
    ((pa.line.d.dropDimension P.drop).cross (nb.line.d.dropDimension P.drop) = 0 ↔
      ar (pr P.plane P.drop pa.vertex.pt) (pr P.plane P.drop nb.vertex.pt) (pr P.plane P.drop ((Qm ++ [pb]).head (by simp)).vertex.pt) = 0) ∧
    ((pb.line.d.dropDimension P.drop).cross (na.line.d.dropDimension P.drop) = 0 ↔
      ar (pr P.plane P.drop pb.vertex.pt) (pr P.plane P.drop na.vertex.pt) (pr P.plane P.drop ((Pm ++ [pa]).head (by simp)).vertex.pt) = 0) := by
  have f := h.facing hs
  obtain ⟨g0, g1, gz, k0, k1, kz⟩ := h.p1_first
  obtain ⟨q2, p2⟩ := h.ring_pts
  have t1 := f.twist_zero
  have t2 := f.symm.twist_zero
  rw [(pt_get gz).2.2, (pt_get k1).2.2, ring2_get gz, ring2_get k1, q2] at t1
  rw [(pt_get kz).2.2, (pt_get g1).2.2, ring2_get kz, ring2_get g1, p2] at t2
  exact ⟨t1, t2⟩

/-- All of the points are in the plane. -/
theorem sides (hs : SameDir3 P.plane.n Q.plane.n) : P.plane.side pa.vertex.pt = 0 ∧ P.plane.side nb.vertex.pt = 0 ∧
    P.plane.side ((Qm ++ [pb]).head (by simp)).vertex.pt = 0 ∧ P.plane.side pb.vertex.pt = 0 ∧ P.plane.side na.vertex.pt = 0 ∧
    P.plane.side ((Pm ++ [pa]).head (by simp)).vertex.pt = 0 := by
  have n3 := h.hp.three
  have m3 := h.hq.three
  obtain ⟨e1, e2, e3, e4, e5, e6⟩ := h.points
  have f := h.facing hs
  have onQ' : ∀ i, i < Q.count → P.plane.side (Q.pt i) = 0 := by
    intro i hi
    have := f.q.onPlane ((i + (Q.count - b)) % Q.count) (by
      simp [Q1, Polygon.count]; exact Nat.mod_lt _ (by unfold Polygon.count at m3; omega))
    have lb := h.lb
    have e : (Q1 P Q b).pt ((i + (Q.count - b)) % Q.count) = Q.pt i := by
      change (Polygon.pt { Q with edges := Q.edges.rotate b } _) = _
      have := rotate_pt Q lb (i := (i + (Q.count - b)) % Q.count) (Nat.mod_lt _ (by omega))
      rw [Nat.mod_add_mod, show i + (Q.count - b) + b = i + Q.count by omega, Nat.add_mod_right, Nat.mod_eq_of_lt hi] at this
      rw [← this]
      unfold Polygon.rotateEdges
      rw [List.rotate_eq_drop_append_take]
      unfold Polygon.count at lb
      exact lb.le
    rw [e] at this
    exact this
  have onP : ∀ i, i < P.count → P.plane.side (P.pt i) = 0 := h.hp.onPlane
  rw [← e1, ← e2, ← e3, ← e4, ← e5, ← e6]
  exact ⟨onP _ (Nat.mod_lt _ (by omega)), onP _ h.la, onQ' _ (Nat.mod_lt _ (by omega)), onQ' _ (Nat.mod_lt _ (by omega)), onQ' _ h.lb,
    onP _ (Nat.mod_lt _ (by omega))⟩

theorem perp : dotQ P.plane.n.q (fun i => na.vertex.pt i - ea.vertex.pt i) = 0 ∧ dotQ Q.plane.n.q (fun i => na.vertex.pt i - ea.vertex.pt i) = 0 ∧
    P.plane.n ≠ ⟨0, 0, 0⟩ ∧ Q.plane.n ≠ ⟨0, 0, 0⟩ := by
  have n3 := h.hp.three
  have m3 := h.hq.three
  obtain ⟨o1, o2⟩ := h.onQ
  have e1 := (h.getP (i := 1) (by omega)).symm
  have e0 := (h.getQ (i := 0) (by omega)).symm
  have s1 : P.plane.side na.vertex.pt = 0 := by
    rw [← (pt_get e1).1]; exact h.hp.onPlane _ (Nat.mod_lt _ (by omega))
  have s2 : Q.plane.side na.vertex.pt = 0 := by
    rw [← h.ptB, ← (pt_get e0).1]; exact h.hq.onPlane _ (Nat.mod_lt _ (by omega))
  have nz : ∀ {K : Polygon D}, IsConvexPolygon K → K.plane.n ≠ ⟨0, 0, 0⟩ := by
    intro K hK e
    apply hK.drop
    rw [e]
    obtain e | e | e := fin3 K.drop <;> rw [e] <;> rfl
  refine ⟨?_, ?_, nz h.hp, nz h.hq⟩
  · rw [HS3.side_eq] at s1 o2
    simp only [dotQ, V3.q, V3.comp]
    linear_combination s1 - o2
  · rw [HS3.side_eq] at s2 o1
    simp only [dotQ, V3.q, V3.comp]
    linear_combination s2 - o1

theorem normals {dim : Fin 3} (hd : ea.line.d.comp dim ≠ 0) {r : Bool}
    (hr : (P.plane.n.dropDimension dim).isSameDir (Q.plane.n.dropDimension dim) = some r) : r = true ↔ SameDir3 P.plane.n Q.plane.n := by
  obtain ⟨h1, h2, h3, h4⟩ := h.perp
  exact same_normal (e := fun i => na.vertex.pt i - ea.vertex.pt i) ((h.common).1 hd) h1 h2 h3 h4 hr

end

end MergeIn

theorem ends_some {t1 t2 : Int} {u v : Option Bool} {F : Bool → Bool → Polygon D} {R : Polygon D}
    (h : (do
      let c1 ← if t1 = 0 then u else some false
      let c2 ← if t2 = 0 then v else some false
      some (F c1 c2)) = some R) :
    ∃ c1, (if t1 = 0 then u else some false) = some c1 ∧ ∃ c2, (if t2 = 0 then v else some false) = some c2 ∧ F c1 c2 = R := by
  by_cases h1 : t1 = 0 <;> by_cases h2 : t2 = 0 <;> simp only [h1, h2, if_true, if_false] at h ⊢
  · simpa [Option.bind_eq_some_iff] using h
  · simpa [Option.bind_eq_some_iff] using h
  · simpa [Option.bind_eq_some_iff] using h
  · simpa using h

/-- A run with all of its parts. -/
theorem merge_core {ops : MergeOps D} {dim : Fin 3} {P Q R S : Polygon D} {a b : Nat} {r : Bool} (hP : IsConvexPolygon P) (hQ : IsConvexPolygon Q)
    (h : tryMergePolygon ops dim P a Q b = some (r, R, S)) :
    ∃ ea na pa eb nb pb Pm Qm, MergeOut ops P a Q b r R S ea na pa eb nb pb Pm Qm := by
  unfold tryMergePolygon at h
  simp only [Option.bind_eq_bind, Option.bind_eq_some_iff] at h
  obtain ⟨ea, h1, eb, h2, na, h3, nb, h4, pa, h5, pb, h6, h⟩ := h
  split_ifs at h with hc
  push Not at hc
  obtain ⟨hd, hA, hB⟩ := hc
  have fin : ∀ {K : Polygon D} {i : Nat} {e : Edge D}, IsConvexPolygon K → K.edges[i]? = some e → e.vertex.w ≠ 0 := by
    intro K i e hK he
    rw [← (pt_get he).2.1]
    exact hK.finite _ (List.getElem?_eq_some_iff.1 he).1
  have ptA := hp_eq (fin hP h1) (fin hQ h4) (by simpa using hA)
  have ptB := hp_eq (fin hQ h2) (fin hP h3) (by simpa using hB)
  obtain ⟨Pm, Qm, hi⟩ := exists_mergeIn hP hQ h1 h2 h3 h4 h5 h6 ptA ptB
  refine ⟨ea, na, pa, eb, nb, pb, Pm, Qm, ?_⟩
  obtain ⟨same, hsame, h⟩ := Option.bind_eq_some_iff.1 h
  have hn := hi.normals hd hsame
  have hbl := fun hs => hi.blocked_iff_convex hs hd
  split_ifs at h with hb
  · simp only [Option.some.injEq, Prod.mk.injEq] at h
    obtain ⟨rfl, rfl, rfl⟩ := h
    refine ⟨hi.la, hi.lb, hi.ep, hi.eq, ptA, ptB, ?_, fun _ => ⟨rfl, rfl⟩, fun e => absurd e (by simp)⟩
    simp only [Bool.false_eq_true, false_iff]
    rintro ⟨hs, hcv⟩
    have := (hbl hs).2 hcv
    rw [this.1, this.2, hn.2 hs] at hb
    simp at hb
  · simp only [not_or, Bool.not_eq_false, Bool.not_eq_true] at hb
    have hs := hn.1 hb.1
    have hcv := (hbl hs).1 hb.2
    obtain ⟨sp, tl⟩ := hi.splice
    rw [sp, Option.bind_some] at h
    have e1 : (P.edges.take a).length = a := by
      have := hi.la
      unfold Polygon.count at this
      rw [List.length_take]; omega
    have e2 : a + Q.count - 1 = (P.edges.take a).length + (nb :: (Qm ++ [pb])).length := by
      rw [e1, hi.countQ]; simp
    have mv := moveEdges_eq ops (P.edges.take a) (nb :: (Qm ++ [pb])) (P.edges.drop (a + 1))
    rw [← e2, e1] at mv
    rw [mv] at h
    obtain ⟨E, hE, hrun⟩ := mergeEnds_eq ops P (x := moveEdge ops nb) (Y := Qm.map (moveEdge ops)) (z := moveEdge ops pb) tl
      ((pa.line.d.dropDimension P.drop).cross (nb.line.d.dropDimension P.drop))
      ((pb.line.d.dropDimension P.drop).cross (na.line.d.dropDimension P.drop))
    rw [e1, List.length_map, ← hi.countQ] at hrun
    simp only [List.map_cons, List.map_append, List.map_nil] at h
    rw [hrun] at h
    obtain ⟨R', h', h⟩ := Option.bind_eq_some_iff.1 h
    obtain ⟨c1, hc1, c2, hc2, rfl⟩ := ends_some (F := fun c1 c2 => { P with edges := E c1 c2 }) h'
    simp only [Option.some.injEq, Prod.mk.injEq] at h
    obtain ⟨rfl, rfl, rfl⟩ := h
    have hc1 := edgeStep_some hc1
    have hc2 := edgeStep_some hc2
    obtain ⟨f1, f2⟩ := hi.flat hs
    obtain ⟨s1, s2, s3, s4, s5, s6⟩ := hi.sides hs
    obtain ⟨p1, p2, p3, p4, p5, p6⟩ := hi.points
    have hY : Qm ++ [pb] = (Qm ++ [pb]).head (by simp) :: (Qm ++ [pb]).tail := (List.cons_head_tail (by simp)).symm
    have hM : Pm ++ [pa] = (Pm ++ [pa]).head (by simp) :: (Pm ++ [pa]).tail := (List.cons_head_tail (by simp)).symm
    obtain ⟨k1, k2, k3⟩ := left_keeps (K := P) (c1 := c1) (c2 := c2) hcv hY hM (fun e => f1.1 (hc1.1 e).1) (fun e => f2.1 (hc2.1 e).1)
    have fc := hi.facing hs
    have hreg : Polygon.region { P with edges := left nb Qm pb na Pm pa false false } = P.region ∪ Q.region := by
      rw [← hi.unite_eq, fc.region (fc.bends (by rw [hi.unite_eq]; exact hcv))]
      congr 1
      · exact (hP.isRotated ⟨a, rfl⟩).2
      · exact (hQ.isRotated ⟨b, rfl⟩).2
    have hgeo := canon_geo ops nb Qm pb na Pm pa c1 c2
    have k1' : IsConvexPolygon { P with edges := canon ops (moveEdge ops nb) (Qm.map (moveEdge ops)) (moveEdge ops pb) na Pm pa c1 c2 } :=
      k1.congr_geo rfl rfl hgeo
    obtain ⟨r1, r2⟩ := k1'.isRotated (hE c1 c2).symm
    refine ⟨hi.la, hi.lb, hi.ep, hi.eq, ptA, ptB, ?_, fun e => absurd e (by simp), fun _ => ⟨rfl, rfl, rfl, r1, ?_, fun k => ?_, c1, c2, ?_, ?_, hE c1 c2⟩⟩
    · simp only [true_iff]; exact ⟨hs, hcv⟩
    · rw [r2, region_geo (P := { P with edges := left nb Qm pb na Pm pa c1 c2 }) hgeo, k2, hreg]
    · change ringArea k (E c1 c2) = _
      rw [ringArea_isRotated k (hE c1 c2), ringArea_geo k hgeo, k3]
      have e3 : left nb Qm pb na Pm pa false false = nb :: (Qm ++ [pb]) ++ na :: (Pm ++ [pa]) := by simp [left]
      rw [e3, ringArea_join k ptA ptB, ← hi.ep, ← hi.eq, ← ringArea_isRotated k ⟨a, rfl⟩, ← ringArea_isRotated k ⟨b, rfl⟩]
    · rw [hc1, p1, p2, p5, turn_ar hP.drop s1 s2 s3, ← f1]; rfl
    · rw [hc2, p3, p4, p6, turn_ar hP.drop s4 s5 s6, ← f2]; rfl

/-- Where the boundary goes straight on, the assertions of merging the edges hold. -/
theorem Facing.step {P Q : Polygon D} (h : Facing P Q) (hb : Turns (ring2 P (P.count - 1)) (ring2 Q 1) (ring2 Q 2))
    (hz : ar (ring2 P (P.count - 1)) (ring2 Q 1) (ring2 Q 2) = 0) (m1 : NoMin3 (P.lineD (P.count - 1)).d) (m2 : NoMin3 (Q.lineD 1).d) :
    (P.lineD (P.count - 1)).d.isSameDir (Q.lineD 1).d = some true ∧ (P.lineD (P.count - 1)).isCoincident (Q.vertexD 1) = true := by
  have n3 := h.p.three
  have m3 := h.q.three
  have e1 := h.p.line (P.count - 1) (by omega)
  have e2 := h.q.line 1 (by omega)
  rw [show P.count - 1 + 1 = P.count by omega, Nat.mod_self, h.a] at e1
  rw [Nat.mod_eq_of_lt (by omega)] at e2
  have hx := h.p.onPlane (P.count - 1) (by omega)
  have q1 := h.q.onPlane 1 (by omega)
  have q2 := h.q.onPlane 2 (by omega)
  rw [h.plane] at q1 q2
  have hxa : P.pt (P.count - 1) ≠ Q.pt 1 := by
    rw [← h.a]; exact fun e => h.p.distinct 0 (P.count - 1) (by omega) (by omega) e.symm
  rw [Facing.ring_at (by omega : P.count - 1 < P.count), Facing.ring_at (by omega : 1 < Q.count), Facing.ring_at (by omega : 2 < Q.count),
    h.plane, h.drop] at hb hz
  rcases hb with hb | ⟨μ, μ0, f1, f2⟩
  · linarith
  have hy : Q.pt 2 = lerp3 (1 + μ) (P.pt (P.count - 1)) (Q.pt 1) := by
    refine plane_ext P.plane h.p.drop q2 ?_ ?_ ?_
    · rw [side_lerp3, hx, q1]; ring
    · simp only [pr, px, lerp3] at *; linear_combination f1
    · simp only [pr, py, lerp3] at *; linear_combination f2
  have nz : ∀ {l : PL} {p q : Q3}, EdgeLine l p q → p ≠ q → l.d ≠ ⟨0, 0, 0⟩ := by
    intro l p q he hne e0
    obtain ⟨s, s0, f⟩ := he.dir
    apply hne
    funext i
    have : l.d.q i = 0 := by
      rw [e0]; obtain rfl | rfl | rfl := fin3 i <;> simp [V3.q, V3.comp]
    rw [f i] at this
    rcases mul_eq_zero.1 this with e | e
    · exact absurd e s0.ne'
    · linarith
  constructor
  · obtain ⟨r, hr, hr'⟩ := C19_same_dir_partial _ _ (nz e1 hxa) (nz e2 (h.q.distinct 1 2 (by omega) (by omega))) m1 m2
    have : r = true := by
      rw [hr']
      obtain ⟨s, s0, f⟩ := e1.dir
      obtain ⟨t, t0, g⟩ := e2.dir
      have c0 : 0 < t * μ / s := by positivity
      have key : ∀ i, (Q.lineD 1).d.q i = t * μ / s * (P.lineD (P.count - 1)).d.q i := by
        intro i
        rw [g i, f i, hy]
        unfold lerp3
        field_simp
        ring
      generalize t * μ / s = c at c0 key
      refine ⟨c.num, c.den, Rat.num_pos.2 c0, by exact_mod_cast c.den_pos, ?_⟩
      rw [v3_ext_comp]
      intro i
      have := key i
      unfold V3.q at this
      have hd : (c.den : ℚ) ≠ 0 := by exact_mod_cast c.den_ne_zero
      rw [← Rat.num_div_den c] at this
      have e : ((P.lineD (P.count - 1)).d.comp i : ℚ) * c.num = (Q.lineD 1).d.comp i * c.den := by
        rw [this]; field_simp
      rw [comp_scale, comp_scale]
      exact_mod_cast e
    rw [hr, this]
  · rw [isCoincident_iff _ _ (h.q.finite 1 (by omega))]
    change crossQ (Q.pt 1) _ = _
    obtain ⟨s, s0, f⟩ := e1.dir
    rw [← e1.on]
    apply q3_ext <;> simp only [crossQ, f, Matrix.cons_val_zero, Matrix.cons_val_one, Matrix.cons_val_two, Matrix.head_cons, Matrix.tail_cons] <;> ring

namespace MergeIn
variable {P Q : Polygon D} {a b : Nat} {ea na pa eb nb pb : Edge D} {Pm Qm : List (Edge D)}

theorem steps (ops : MergeOps D) (h : MergeIn P a Q b ea na pa eb nb pb Pm Qm) (hs : SameDir3 P.plane.n Q.plane.n)
    (hc : IsConvexPolygon { P with edges := left nb Qm pb na Pm pa false false })
    (m1 : NoMin3 pa.line.d) (m2 : NoMin3 nb.line.d) (m3 : NoMin3 pb.line.d) (m4 : NoMin3 na.line.d) :
    ((pa.line.d.dropDimension P.drop).cross (nb.line.d.dropDimension P.drop) = 0 → ∃ c, edgeStep ops pa (moveEdge ops nb) = some c) ∧
    ((pb.line.d.dropDimension P.drop).cross (na.line.d.dropDimension P.drop) = 0 → ∃ c, edgeStep ops (moveEdge ops pb) na = some c) := by
  have f := h.facing hs
  obtain ⟨g0, g1, gz, k0, k1, kz⟩ := h.p1_first
  have bends := f.bends (by rw [h.unite_eq]; exact hc)
  have t1 := f.twist_zero
  have t2 := f.symm.twist_zero
  have s1 := fun hz => f.step bends.1 hz
  have s2 := fun hz => f.symm.step bends.2 hz
  simp only [(pt_get gz).2.2, (pt_get k1).2.2, (pt_get kz).2.2, (pt_get g1).2.2, (pt_get k1).2.1, (pt_get g1).2.1] at t1 t2 s1 s2
  constructor
  · intro e
    exact ⟨_, if_pos (s1 (t1.1 e) m1 m2)⟩
  · intro e
    exact ⟨_, if_pos (s2 (t2.1 e) m3 m4)⟩

end MergeIn

theorem merge_defined (ops : MergeOps D) {dim : Fin 3} {P Q : Polygon D} {a b : Nat} (hP : IsConvexPolygon P) (hQ : IsConvexPolygon Q)
    (ha : a < P.count) (hb : b < Q.count) (hA : P.pt a = Q.pt ((b + 1) % Q.count)) (hB : Q.pt b = P.pt ((a + 1) % P.count))
    (hd : P.pt ((a + 1) % P.count) dim ≠ P.pt a dim) (m1 : NoMin2 (P.plane.n.dropDimension dim)) (m2 : NoMin2 (Q.plane.n.dropDimension dim))
    (m3 : ∀ i, i < P.count → NoMin3 (P.lineD i).d) (m4 : ∀ i, i < Q.count → NoMin3 (Q.lineD i).d) :
    ∃ r, tryMergePolygon ops dim P a Q b = some r := by
  have n3 := hP.three
  have k3 := hQ.three
  have get : ∀ {K : Polygon D} {i : Nat}, i < K.count → ∃ e, K.edges[i]? = some e := by
    intro K i hi
    exact ⟨_, List.getElem?_eq_getElem hi⟩
  have la1 : (a + 1) % P.count < P.count := Nat.mod_lt _ (by omega)
  have la2 : (a + P.count - 1) % P.count < P.count := Nat.mod_lt _ (by omega)
  have lb1 : (b + 1) % Q.count < Q.count := Nat.mod_lt _ (by omega)
  have lb2 : (b + Q.count - 1) % Q.count < Q.count := Nat.mod_lt _ (by omega)
  obtain ⟨ea, h1⟩ := get ha
  obtain ⟨eb, h2⟩ := get hb
  obtain ⟨na, h3⟩ := get la1
  obtain ⟨nb, h4⟩ := get lb1
  obtain ⟨pa, h5⟩ := get la2
  obtain ⟨pb, h6⟩ := get lb2
  rw [(pt_get h1).1, (pt_get h4).1] at hA
  rw [(pt_get h2).1, (pt_get h3).1] at hB
  rw [(pt_get h3).1, (pt_get h1).1] at hd
  have fin : ∀ {K : Polygon D} {i : Nat} {e : Edge D}, IsConvexPolygon K → K.edges[i]? = some e → e.vertex.w ≠ 0 := by
    intro K i e hK he
    rw [← (pt_get he).2.1]
    exact hK.finite _ (List.getElem?_eq_some_iff.1 he).1
  obtain ⟨Pm, Qm, hi⟩ := exists_mergeIn hP hQ h1 h2 h3 h4 h5 h6 hA hB
  have vA := (C20_eq _ _ (fin hP h1) (fin hQ h4)).2 hA
  have vB := (C20_eq _ _ (fin hQ h2) (fin hP h3)).2 hB
  have hd' : ea.line.d.comp dim ≠ 0 := hi.common.2 (sub_ne_zero.2 hd)
  obtain ⟨p1, p2, p3, p4⟩ := hi.perp
  obtain ⟨same, hsame, -⟩ := C19_same_dir2_partial _ _ (drop_ne (sub_ne_zero.2 hd) p1 p3) (drop_ne (sub_ne_zero.2 hd) p2 p4) m1 m2
  have hn := hi.normals hd' hsame
  unfold tryMergePolygon
  simp only [h1, h2, h3, h4, h5, h6, Option.bind_eq_bind, Option.bind_some, hd', vA, vB, Bool.true_eq_false, or_self, if_false, hsame]
  split_ifs with hbl
  · exact ⟨_, rfl⟩
  · simp only [not_or, Bool.not_eq_false, Bool.not_eq_true] at hbl
    have hs := hn.1 hbl.1
    have hcv := (hi.blocked_iff_convex hs hd').1 hbl.2
    obtain ⟨sp, tl⟩ := hi.splice
    rw [sp, Option.bind_some]
    have e1 : (P.edges.take a).length = a := by
      have := hi.la
      unfold Polygon.count at this
      rw [List.length_take]; omega
    have e2 : a + Q.count - 1 = (P.edges.take a).length + (nb :: (Qm ++ [pb])).length := by
      rw [e1, hi.countQ]; simp
    have mv := moveEdges_eq ops (P.edges.take a) (nb :: (Qm ++ [pb])) (P.edges.drop (a + 1))
    rw [← e2, e1] at mv
    rw [mv]
    obtain ⟨E, hE, hrun⟩ := mergeEnds_eq ops P (x := moveEdge ops nb) (Y := Qm.map (moveEdge ops)) (z := moveEdge ops pb) tl
      ((pa.line.d.dropDimension P.drop).cross (nb.line.d.dropDimension P.drop))
      ((pb.line.d.dropDimension P.drop).cross (na.line.d.dropDimension P.drop))
    rw [e1, List.length_map, ← hi.countQ] at hrun
    simp only [List.map_cons, List.map_append, List.map_nil]
    rw [hrun]
    have nm : ∀ {K : Polygon D} {i : Nat} {e : Edge D}, (∀ i, i < K.count → NoMin3 (K.lineD i).d) → K.edges[i]? = some e → NoMin3 e.line.d := by
      intro K i e hK he
      rw [← (pt_get he).2.2]
      exact hK _ (List.getElem?_eq_some_iff.1 he).1
    obtain ⟨s1, s2⟩ := hi.steps ops hs hcv (nm m3 h5) (nm m4 h4) (nm m4 h6) (nm m3 h3)
    by_cases z1 : (pa.line.d.dropDimension P.drop).cross (nb.line.d.dropDimension P.drop) = 0 <;>
      by_cases z2 : (pb.line.d.dropDimension P.drop).cross (na.line.d.dropDimension P.drop) = 0 <;>
      simp only [z1, z2, if_true, if_false]
    · obtain ⟨c1, f1⟩ := s1 z1
      obtain ⟨c2, f2⟩ := s2 z2
      rw [f1, f2]; exact ⟨_, rfl⟩
    · obtain ⟨c1, f1⟩ := s1 z1
      rw [f1]; exact ⟨_, rfl⟩
    · obtain ⟨c2, f2⟩ := s2 z2
      rw [f2]; exact ⟨_, rfl⟩
    · exact ⟨_, rfl⟩

end Walnut.Poly
