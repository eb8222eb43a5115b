/-
What `CollectorVisitor` does with the calls of a traversal.
-/
import Verif.Bsp.VisitorMain

namespace Walnut.Bsp
open Walnut.Geom Walnut.Poly Walnut.Props

/-- The pointer points to one of the nodes, as before, or to a copy of the plane that it
pointed to. -/
def Redirected (A : List PlaneRef) (planes : List HS3) (s : SplitSide) (o : Option OutPtr) : Prop :=
  ∃ r, s.split = some r ∧ ((r ∈ A ∧ o = some (.node r)) ∨ ∃ k, o = some (.copy k) ∧ planes[k]? = some r.plane)

structure EdgeOut (A : List PlaneRef) (planes : List HS3) (e : Edge EdgeInfo) (o : OutInfo) : Prop where
  first : Redirected A planes e.data.first o.first
  vertexLast : Redirected A planes e.data.vertexLast o.vertexLast
  edgeLast : Redirected A planes e.data.edgeLast o.edgeLast
  createdBy : o.createdBy = e.data.createdBy.split

theorem Redirected.mono {A B : List PlaneRef} {P Q : List HS3} (h : A ⊆ B) (hp : P <+: Q) {s : SplitSide} {o : Option OutPtr} (hr : Redirected A P s o) : Redirected B Q s o := by
  obtain ⟨r, h1, h2⟩ := hr
  refine ⟨r, h1, h2.imp (fun ⟨a, b⟩ => ⟨h a, b⟩) fun ⟨k, a, b⟩ => ⟨k, a, ?_⟩⟩
  obtain ⟨l, rfl⟩ := hp
  rw [List.getElem?_append_left (List.getElem?_eq_some_iff.1 b).1, b]

theorem EdgeOut.mono {A B : List PlaneRef} {P Q : List HS3} (h : A ⊆ B) (hp : P <+: Q) {e : Edge EdgeInfo} {o : OutInfo} (hr : EdgeOut A P e o) : EdgeOut B Q e o :=
  ⟨hr.first.mono h hp, hr.vertexLast.mono h hp, hr.edgeLast.mono h hp, hr.createdBy⟩

/-- The collector is in a state where the nodes are open. -/
structure CollAt (fl : Open) (s : CollState) : Prop where
  temp : ∀ r, (r, true) ∈ fl → ∃ k, s.map.lookup (some r.path) = some k ∧ s.planes[k]? = some r.plane
  node : ∀ r, (r, false) ∈ fl → s.map.lookup (some r.path) = none
  deep : ∀ x ∈ s.map, ∃ p, x.1 = some p ∧ p.length < fl.length

/-- What the calls do. -/
structure CollOf (fl : Open) (tr : List Visit) (s s' : CollState) : Prop where
  run : collRun tr s = some s'
  map : s'.map = s.map
  planes : s.planes <+: s'.planes
  polygons : ∃ l, s'.polygons = s.polygons ++ l ∧ l.map Prod.fst = accepted tr ∧
    ∀ x ∈ l, List.Forall₂ (EdgeOut (keptRefs fl ++ nodesIn tr) s'.planes) x.1.poly.edges x.2

theorem CollAt.next {fl : Open} {tr : List Visit} {s s' : CollState} (h : CollAt fl s) (r : CollOf fl tr s s') : CollAt fl s' := by
  refine ⟨fun q hq => ?_, fun q hq => by rw [r.map]; exact h.node q hq, by rw [r.map]; exact h.deep⟩
  obtain ⟨k, h1, h2⟩ := h.temp q hq
  refine ⟨k, by rw [r.map]; exact h1, ?_⟩
  obtain ⟨l, e⟩ := r.planes
  rw [← e, List.getElem?_append_left (List.getElem?_eq_some_iff.1 h2).1, h2]

theorem collRun_append (a b : List Visit) (s : CollState) : collRun (a ++ b) s = (collRun a s).bind (collRun b) := by
  induction a generalizing s with
  | nil => rfl
  | cons v a ih =>
    rw [List.cons_append, collRun, collRun]
    cases s.step v with
    | none => rfl
    | some s' => exact ih s'

theorem CollOf.append {fl : Open} {a b : List Visit} {s s1 s2 : CollState} (ha : CollOf fl a s s1) (hb : CollOf fl b s1 s2) : CollOf fl (a ++ b) s s2 := by
  refine ⟨by rw [collRun_append, ha.run]; exact hb.run, by rw [hb.map, ha.map], ha.planes.trans hb.planes, ?_⟩
  obtain ⟨l1, e1, f1, g1⟩ := ha.polygons
  obtain ⟨l2, e2, f2, g2⟩ := hb.polygons
  refine ⟨l1 ++ l2, by rw [e2, e1, List.append_assoc], by rw [List.map_append, f1, f2, accepted_append], fun x hx => ?_⟩
  rcases List.mem_append.1 hx with hx | hx
  · refine (g1 x hx).imp fun _ _ h => h.mono ?_ hb.planes
    rw [nodesIn_append]; intro x hx; simp only [List.mem_append] at hx ⊢; tauto
  · refine (g2 x hx).imp fun _ _ h => h.mono ?_ (List.prefix_refl _)
    rw [nodesIn_append]; intro x hx; simp only [List.mem_append] at hx ⊢; tauto

theorem CollOf.nil {fl : Open} (s : CollState) : CollOf fl [] s s := ⟨rfl, rfl, List.prefix_refl _, [], by simp, rfl, by simp⟩

theorem CollOf.leaf {fl : Open} (s : CollState) : CollOf fl [.leaf] s s := ⟨rfl, rfl, List.prefix_refl _, [], by simp, rfl, by simp⟩

theorem redirect_ok {fl : Open} {s : CollState} (h : CollAt fl s) {p : SplitSide} (hp : ∃ x ∈ fl, p.split = some x.1) : Redirected (keptRefs fl) s.planes p (s.redirect p) := by
  obtain ⟨⟨r, t⟩, hx, e⟩ := hp
  have hk : p.ptr = some r.path := by unfold SplitSide.ptr; rw [e]; rfl
  refine ⟨r, e, ?_⟩
  unfold CollState.redirect
  rw [hk]
  cases t with
  | true =>
    obtain ⟨k, h1, h2⟩ := h.temp r hx
    rw [h1]
    exact Or.inr ⟨k, rfl, h2⟩
  | false =>
    rw [h.node r hx, e]
    refine Or.inl ⟨?_, rfl⟩
    unfold keptRefs
    exact List.mem_map.2 ⟨(r, false), List.mem_filter.2 ⟨hx, rfl⟩, rfl⟩

theorem CollOf.accept {fl : Open} {p : BPoly} (hp : ∀ e ∈ p.poly.edges, EdgePtr fl e) {s : CollState} (h : CollAt fl s) : ∃ s', CollOf fl [.accept p] s s' := by
  refine ⟨_, rfl, rfl, List.prefix_refl _, _, rfl, rfl, ?_⟩
  intro x hx
  simp only [List.mem_singleton] at hx
  subst hx
  simp only
  rw [List.forall₂_map_right_iff, List.forall₂_same]
  intro e he
  have := hp e he
  exact ⟨(redirect_ok h this.first).mono (by simp) (List.prefix_refl _), (redirect_ok h this.vertexLast).mono (by simp) (List.prefix_refl _),
    (redirect_ok h this.edgeLast).mono (by simp) (List.prefix_refl _), rfl⟩

theorem CollAt.fresh {fl : Open} {s : CollState} (h : CollAt fl s) {r : PlaneRef} (hr : r.path.length = fl.length) : ∀ x ∈ s.map, x.1 ≠ some r.path := by
  intro x hx e
  obtain ⟨p, h1, h2⟩ := h.deep x hx
  rw [e, Option.some.injEq] at h1
  rw [← h1, hr] at h2
  omega

theorem CollAt.enterNode {fl : Open} {s : CollState} (h : CollAt fl s) {r : PlaneRef} (hr : r.path.length = fl.length) : CollAt (fl ++ [(r, false)]) s := by
  refine ⟨fun q hq => h.temp q (by simpa using hq), fun q hq => ?_, fun x hx => ?_⟩
  · rcases List.mem_append.1 hq with hq | hq
    · exact h.node q hq
    · simp only [List.mem_singleton, Prod.mk.injEq, and_true] at hq
      subst hq
      refine lookup_none fun hm => ?_
      obtain ⟨x, hx, e⟩ := List.mem_map.1 hm
      exact h.fresh hr x hx e
  · obtain ⟨p, h1, h2⟩ := h.deep x hx
    exact ⟨p, h1, by simp; omega⟩

theorem CollOf.bracketNode {fl : Open} {r : PlaneRef} {a : List Visit} {s s' : CollState} (ha : CollOf (fl ++ [(r, false)]) a s s') :
    CollOf fl (.enter false r :: (a ++ [.leave false r])) s s' := by
  refine ⟨?_, ha.map, ha.planes, ?_⟩
  · rw [collRun, CollState.step]
    simp only [Bool.false_eq_true, if_false, Option.bind_some]
    rw [collRun_append, ha.run, Option.bind_some, collRun, CollState.step]
    simp only [Bool.false_eq_true, if_false, Option.bind_some, collRun]
  · obtain ⟨l, e, f, g⟩ := ha.polygons
    refine ⟨l, e, by rw [f]; simp [accepted, accepted_append], fun x hx => (g x hx).imp fun _ _ h => h.mono ?_ (List.prefix_refl _)⟩
    intro y hy
    simp only [nodesIn, nodesIn_append, List.append_nil, keptRefs, List.filter_append, List.map_append, List.mem_append, List.mem_cons] at hy ⊢
    rcases hy with (hy | hy) | hy
    · exact Or.inl hy
    · right; left; simpa using hy
    · exact Or.inr (Or.inr hy)

theorem CollAt.enterTemp {fl : Open} (hl : LenOK fl) {s : CollState} (h : CollAt fl s) {r : PlaneRef} (hr : r.path.length = fl.length) :
    CollAt (fl ++ [(r, true)]) { s with planes := s.planes ++ [r.plane], map := (some r.path, s.planes.length) :: s.map } := by
  have hne : ∀ {q : PlaneRef} {t : Bool}, (q, t) ∈ fl → (some q.path == some r.path) = false := by
    intro q t hq
    have := hl.lt hq
    have : q.path ≠ r.path := by
      intro e; rw [← e] at hr; simp only at this; omega
    simpa using this
  refine ⟨fun q hq => ?_, fun q hq => ?_, fun x hx => ?_⟩
  · rcases List.mem_append.1 hq with hq | hq
    · obtain ⟨k, h1, h2⟩ := h.temp q hq
      refine ⟨k, ?_, ?_⟩
      · simp only [List.lookup_cons, hne hq]; exact h1
      · simp only
        rw [List.getElem?_append_left (List.getElem?_eq_some_iff.1 h2).1, h2]
    · simp only [List.mem_singleton, Prod.mk.injEq, and_true] at hq
      subst hq
      exact ⟨s.planes.length, by simp, by simp⟩
  · have hq : (q, false) ∈ fl := by simpa using hq
    simp only [List.lookup_cons, hne hq]
    exact h.node q hq
  · rcases List.mem_cons.1 hx with rfl | hx
    · exact ⟨r.path, rfl, by simp; omega⟩
    · obtain ⟨p, h1, h2⟩ := h.deep x hx
      exact ⟨p, h1, by simp; omega⟩

theorem CollOf.bracketTemp {fl : Open} {s : CollState} (h : CollAt fl s) {r : PlaneRef} (hr : r.path.length = fl.length) {a : List Visit} {s' : CollState}
    (ha : CollOf (fl ++ [(r, true)]) a { s with planes := s.planes ++ [r.plane], map := (some r.path, s.planes.length) :: s.map } s') :
    CollOf fl (.enter true r :: (a ++ [.leave true r])) s { s' with map := s.map } := by
  have hn : s.map.lookup (some r.path) = none := by
    refine lookup_none fun hm => ?_
    obtain ⟨x, hx, e⟩ := List.mem_map.1 hm
    exact h.fresh hr x hx e
  have hf : s'.map.filter (fun e => e.1 ≠ some r.path) = s.map := by
    rw [ha.map, List.filter_cons_of_neg (by simp), List.filter_eq_self]
    intro x hx
    simpa using h.fresh hr x hx
  refine ⟨?_, rfl, (List.prefix_append _ _).trans ha.planes, ?_⟩
  · rw [collRun, CollState.step]
    simp only [if_true, hn, Option.isSome_none, Bool.false_eq_true, if_false, Option.bind_some]
    rw [collRun_append, ha.run, Option.bind_some, collRun, CollState.step]
    rw [hf]
    have : (s'.map.lookup (some r.path)).isSome = true := by rw [ha.map]; simp
    simp only [if_true, this, Option.bind_some, collRun]
  · obtain ⟨l, e, f, g⟩ := ha.polygons
    refine ⟨l, e, by rw [f]; simp [accepted, accepted_append], fun x hx => (g x hx).imp fun _ _ h => h.mono ?_ (List.prefix_refl _)⟩
    intro y hy
    simp only [nodesIn, nodesIn_append, List.append_nil, keptRefs, List.filter_append, List.map_append, List.mem_append] at hy ⊢
    rcases hy with (hy | hy) | hy
    · exact Or.inl hy
    · simp at hy
    · exact Or.inr hy

theorem faces_coll {base : Anc} {anc : Anc} {tr : List Visit} (h : Faces base anc tr) : ∀ {fl : Open}, fl.map Prod.fst = anc.map Prod.fst → LenOK fl → ∀ s, CollAt fl s →
    ∃ s', CollOf fl tr s s' := by
  induction h with
  | nil => intro fl _ _ s hs; exact ⟨s, .nil s⟩
  | @leaf anc l _ ih =>
    intro fl h1 h2 s hs
    obtain ⟨s', h⟩ := ih h1 h2 s hs
    exact ⟨s', (CollOf.leaf s).append h⟩
  | @accept anc p l hp _ _ _ ih =>
    intro fl h1 h2 s hs
    obtain ⟨s1, r1⟩ := CollOf.accept (border_ptrs hp h1) hs
    obtain ⟨s', h⟩ := ih h1 h2 s1 (hs.next r1)
    exact ⟨s', r1.append h⟩
  | @node anc r a b m hr _ _ _ iha ihb ihm =>
    intro fl h1 h2 s hs
    have hlen : r.path.length = fl.length := by
      rw [hr, List.length_map]
      have := congrArg List.length h1
      simpa using this.symm
    have hm : ∀ t, (fl ++ [(r, true)]).map Prod.fst = (anc ++ [(r, t)]).map Prod.fst := by
      intro t; rw [List.map_append, List.map_append, h1]; rfl
    have h0 := hs.enterTemp h2 hlen
    obtain ⟨s1, r1⟩ := iha (hm _) (h2.append hlen true) _ h0
    obtain ⟨s2, r2⟩ := ihb (hm _) (h2.append hlen true) s1 (h0.next r1)
    have r3 := CollOf.bracketTemp hs hlen (r1.append r2)
    obtain ⟨s4, r4⟩ := ihm h1 h2 _ (hs.next r3)
    have := r3.append r4
    rw [show (Visit.enter true r :: (a ++ (b ++ .leave true r :: m))) = (.enter true r :: (a ++ b ++ [.leave true r])) ++ m by simp]
    exact ⟨s4, this⟩

theorem placed_coll {anc : Anc} {tr : List Visit} (h : Placed anc tr) : ∀ {fl : Open}, fl.map Prod.fst = anc.map Prod.fst → LenOK fl → ∀ s, CollAt fl s →
    ∃ s', CollOf fl tr s s' := by
  induction h with
  | faces h => exact faces_coll h
  | @node anc r a b hr ha hb iha ihb =>
    intro fl h1 h2 s hs
    have hlen : r.path.length = fl.length := by
      rw [hr, List.length_map]
      have := congrArg List.length h1
      simpa using this.symm
    have hm : ∀ t, (fl ++ [(r, false)]).map Prod.fst = (anc ++ [(r, t)]).map Prod.fst := by
      intro t; rw [List.map_append, List.map_append, h1]; rfl
    have h0 := hs.enterNode hlen
    obtain ⟨s1, r1⟩ := iha (hm _) (h2.append hlen false) _ h0
    obtain ⟨s2, r2⟩ := ihb (hm _) (h2.append hlen false) s1 (h0.next r1)
    have r3 := CollOf.bracketNode (r1.append r2)
    rw [List.append_assoc] at r3
    exact ⟨s2, r3⟩

end Walnut.Bsp
