/- The vertices of the mesh repairer and the rounds of `FinishFacet`. -/
import Verif.Repair.RangeProof

namespace Walnut.Repair
open Walnut Walnut.Geom Walnut.Props

/-! ### One vertex -/

theorem on_side {h : HS3} {p : HP3} (hw : p.w ≠ 0) (ho : h.n.x * p.v.x + h.n.y * p.v.y + h.n.z * p.v.z = p.w * h.d) :
    h.side p.pt = 0 := by
  have hq : (p.w : ℚ) ≠ 0 := by exact_mod_cast hw
  have hc : (h.n.x : ℚ) * p.v.x + h.n.y * p.v.y + h.n.z * p.v.z = p.w * h.d := by exact_mod_cast ho
  rw [HS3.side_eq]
  have e0 : p.pt 0 = (p.v.x : ℚ) / p.w := rfl
  have e1 : p.pt 1 = (p.v.y : ℚ) / p.w := rfl
  have e2 : p.pt 2 = (p.v.z : ℚ) / p.w := rfl
  rw [e0, e1, e2]
  field_simp
  linarith

theorem div?_zero {f k : Int} (h : div? 0 f = some k) : k = 0 := by
  unfold div? divRem? at h
  split at h
  · simp at h
  · simp at h; exact h.symm

theorem reduce_w {p r : HP3} (h : p.reduce = some r) (hw : r.w ≠ 0) : p.w ≠ 0 := by
  intro h0
  apply hw
  unfold HP3.reduce at h
  simp only [Option.bind_eq_bind, Option.bind_eq_some_iff] at h
  obtain ⟨f1, -, f2, -, f3, -, w, hdiv, v, -, h⟩ := h
  simp at h; subst h
  rw [h0] at hdiv
  exact div?_zero hdiv

namespace VInfo

theorem finalize_spec {v v' : VInfo} (h : v.finalize = some v') :
    v'.adjacent = v.adjacent ∧ (v'.point.w ≠ 0 → ∀ a ∈ v.adjacent, a.side v'.point.pt = 0) := by
  unfold finalize at h
  by_cases hc : v.adjacent.all (·.isCoincident v.point) = true
  · rw [if_pos hc] at h
    simp only [Option.some.injEq] at h; subst h
    refine ⟨rfl, fun hw a ha => ?_⟩
    exact (C23_compare_homo a v.point hw).2.1 (List.all_eq_true.1 hc a ha)
  · rw [if_neg hc] at h
    simp only [Option.bind_eq_bind, Option.bind_eq_some_iff] at h
    obtain ⟨p, hp, r, hr, h⟩ := h
    simp at h; subst h
    refine ⟨rfl, fun hw => ?_⟩
    have hpw := reduce_w hr hw
    have hpt := (C61_point_reduce p r hpw hr).1
    show ∀ a ∈ v.adjacent, a.side r.pt = 0
    rw [hpt]
    match h : v.adjacent, hp with
    | [a], hp =>
      simp only [Option.some.injEq] at hp; subst hp
      simp only [List.mem_singleton, forall_eq]
      apply on_side hpw
      simp only [PL.intersect, V3.cross, V3.add, V3.scale, V3.dot]; ring
    | [a, b], hp =>
      simp only [Option.some.injEq] at hp; subst hp
      simp only [List.mem_cons, List.not_mem_nil, or_false, forall_eq_or_imp, forall_eq]
      refine ⟨?_, ?_⟩ <;> apply on_side hpw <;>
        simp only [PL.intersect, PL.ofPlanes, HS3.ofNormalPoint, V3.cross, V3.add, V3.scale, V3.dot] <;> ring
    | [a, b, c], hp =>
      simp only [Option.some.injEq] at hp; subst hp
      simp only [List.mem_cons, List.not_mem_nil, or_false, forall_eq_or_imp, forall_eq]
      refine ⟨?_, ?_, ?_⟩ <;> apply on_side hpw <;>
        simp only [PL.intersect, PL.ofPlanes, V3.cross, V3.add, V3.scale, V3.dot] <;> ring

theorem finalize_still {v v' : VInfo} (hw : v.point.w ≠ 0) (hs : ∀ a ∈ v.adjacent, a.side v.point.pt = 0) (h : v.finalize = some v') :
    v' = v := by
  unfold finalize at h
  have hc : v.adjacent.all (·.isCoincident v.point) = true :=
    List.all_eq_true.2 fun a ha => (C23_compare_homo a v.point hw).2.2 (hs a ha)
  rw [if_pos hc] at h
  simpa using h.symm

/-- The invariant of a vertex. -/
structure Ok (v : VInfo) : Prop where
  le : v.adjacent.length ≤ 3
  fin : v.adjacent.length < 3 → v.point.w ≠ 0
  ne : ∀ a ∈ v.adjacent, a.n ≠ ⟨0, 0, 0⟩
  on : v.adjacent.length = 3 → v.point.w ≠ 0 → ∀ a ∈ v.adjacent, a.side v.point.pt = 0

/-- The plane will contain the vertex. -/
def Cov (v : VInfo) (p : HS3) : Prop :=
  (∃ a ∈ v.adjacent, ∀ q, a.side q = 0 ↔ p.side q = 0) ∨ v.adjacent.length = 3 ∧ p.side v.point.pt = 0

/-- A vertex may change this way. -/
structure Upd (v v' : VInfo) : Prop where
  ok : v'.Ok
  w : v'.point.w ≠ 0 → v.point.w ≠ 0
  done : v.adjacent.length = 3 → v' = v
  sub : ∀ a ∈ v.adjacent, a ∈ v'.adjacent

theorem Upd.refl {v : VInfo} (h : v.Ok) : Upd v v := ⟨h, id, fun _ => rfl, fun _ h => h⟩

theorem Upd.trans {a b c : VInfo} (h : Upd a b) (h' : Upd b c) : Upd a c :=
  ⟨h'.ok, fun hw => h.w (h'.w hw), fun h3 => by rw [h'.done (by rw [h.done h3]; exact h3), h.done h3], fun x hx => h'.sub x (h.sub x hx)⟩

theorem Upd.cov {v v' : VInfo} (h : Upd v v') {p : HS3} (hc : v.Cov p) : v'.Cov p := by
  rcases hc with ⟨a, ha, hs⟩ | ⟨h3, hs⟩
  · exact Or.inl ⟨a, h.sub a ha, hs⟩
  · rw [h.done h3]; exact Or.inr ⟨h3, hs⟩

theorem tryAdd_spec {v v' : VInfo} {p : HS3} (hv : v.Ok) (hp : p.n ≠ ⟨0, 0, 0⟩) (h : v.tryAddAdjacent p = some v') :
    Upd v v' ∧ ((v.adjacent.length = 3 → p.side v.point.pt = 0) → v'.Cov p) := by
  unfold tryAddAdjacent at h
  by_cases h3 : v.adjacent.length < 3
  · rw [if_pos h3] at h
    by_cases ha : v.adjacent.any (·.isSameOrOpposite p) = true
    · rw [if_pos ha] at h
      simp only [Option.some.injEq] at h; subst h
      obtain ⟨a, ha, hs⟩ := List.any_eq_true.1 ha
      exact ⟨Upd.refl hv, fun _ => Or.inl ⟨a, ha, (C24_same_or_opposite a p (hv.ne a ha) hp).1 hs⟩⟩
    · rw [if_neg ha] at h
      simp only at h
      have hne : ∀ a ∈ v.adjacent ++ [p], a.n ≠ ⟨0, 0, 0⟩ := by
        intro a ha
        simp at ha
        rcases ha with ha | rfl
        · exact hv.ne a ha
        · exact hp
      by_cases h33 : (v.adjacent ++ [p]).length = 3
      · rw [if_pos h33] at h
        obtain ⟨e1, e2⟩ := finalize_spec h
        simp only at e1 e2
        refine ⟨⟨⟨?_, ?_, ?_, ?_⟩, fun _ => hv.fin h3, fun hc => by omega, ?_⟩, fun _ => Or.inl ⟨p, ?_, fun _ => Iff.rfl⟩⟩
        · rw [e1]; omega
        · rw [e1]; omega
        · rw [e1]; exact hne
        · rw [e1]; exact fun _ hw => e2 hw
        · rw [e1]; intro a ha; simp [ha]
        · rw [e1]; simp
      · rw [if_neg h33] at h
        simp only [Option.some.injEq] at h; subst h
        simp only [List.length_append, List.length_singleton] at h33
        refine ⟨⟨⟨?_, fun _ => hv.fin h3, hne, ?_⟩, id, fun hc => by omega, ?_⟩, fun _ => Or.inl ⟨p, by simp, fun _ => Iff.rfl⟩⟩
        · simp; omega
        · simp; omega
        · intro a ha; simp [ha]
  · rw [if_neg h3] at h
    simp only [Option.some.injEq] at h; subst h
    have := hv.le
    exact ⟨Upd.refl hv, fun hs => Or.inr ⟨by omega, hs (by omega)⟩⟩

/-- All planes of the vertex contain it. -/
def Still (v : VInfo) : Prop := v.point.w ≠ 0 ∧ ∀ a ∈ v.adjacent, a.side v.point.pt = 0

theorem tryAdd_still {v v' : VInfo} {p : HS3} (hv : v.Still) (hp : p.side v.point.pt = 0) (h : v.tryAddAdjacent p = some v') :
    v'.point = v.point ∧ v'.Still := by
  unfold tryAddAdjacent at h
  by_cases h3 : v.adjacent.length < 3
  · rw [if_pos h3] at h
    by_cases ha : v.adjacent.any (·.isSameOrOpposite p) = true
    · rw [if_pos ha] at h
      simp only [Option.some.injEq] at h; subst h
      exact ⟨rfl, hv⟩
    · rw [if_neg ha] at h
      simp only at h
      have hs : VInfo.Still { v with adjacent := v.adjacent ++ [p] } := by
        refine ⟨hv.1, ?_⟩
        intro a ha
        simp at ha
        rcases ha with ha | rfl
        · exact hv.2 a ha
        · exact hp
      by_cases h33 : (v.adjacent ++ [p]).length = 3
      · rw [if_pos h33] at h
        have := finalize_still hs.1 hs.2 h
        subst this
        exact ⟨rfl, hs⟩
      · rw [if_neg h33] at h
        simp only [Option.some.injEq] at h; subst h
        exact ⟨rfl, hs⟩
  · rw [if_neg h3] at h
    simp only [Option.some.injEq] at h; subst h
    exact ⟨rfl, hv⟩

end VInfo

/-! ### The storage -/

/-- The storage may change this way. -/
structure Later (st st' : List VInfo) : Prop where
  len : st.length ≤ st'.length
  ok : ∀ v ∈ st', v.Ok
  upd : ∀ (i : Nat) v, st[i]? = some v → ∃ v', st'[i]? = some v' ∧ v.Upd v'

theorem Later.refl {st : List VInfo} (h : ∀ v ∈ st, v.Ok) : Later st st :=
  ⟨le_refl _, h, fun i v hv => ⟨v, hv, .refl (h v (List.mem_of_getElem? hv))⟩⟩

theorem Later.trans {a b c : List VInfo} (h : Later a b) (h' : Later b c) : Later a c := by
  refine ⟨h.len.trans h'.len, h'.ok, ?_⟩
  intro i v hv
  obtain ⟨v1, h1, u1⟩ := h.upd i v hv
  obtain ⟨v2, h2, u2⟩ := h'.upd i v1 h1
  exact ⟨v2, h2, u1.trans u2⟩

/-- Points that are finite later are finite now. -/
theorem Later.fin {a b : List VInfo} (h : Later a b) (hb : ∀ v ∈ b, v.point.w ≠ 0) : ∀ v ∈ a, v.point.w ≠ 0 := by
  intro v hv
  obtain ⟨i, hi⟩ := List.mem_iff_getElem?.1 hv
  obtain ⟨v', h1, u⟩ := h.upd i v hi
  exact u.w (hb v' (List.mem_of_getElem? h1))

/-- `S` covers the vertices of the polygon. -/
def CovAll (st : List VInfo) (p : HS3) (l : List Nat) : Prop := ∀ i ∈ l, ∃ v, st[i]? = some v ∧ v.Cov p

theorem Later.covAll {a b : List VInfo} (h : Later a b) {p : HS3} {l : List Nat} (hc : CovAll a p l) : CovAll b p l := by
  intro i hi
  obtain ⟨v, hv, hcv⟩ := hc i hi
  obtain ⟨v', h1, u⟩ := h.upd i v hv
  exact ⟨v', h1, u.cov hcv⟩

theorem later_set {st : List VInfo} (hst : ∀ v ∈ st, v.Ok) {i : Nat} {v v' : VInfo} (hv : st[i]? = some v) (hu : v.Upd v') :
    Later st (st.set i v') := by
  have hlt : i < st.length := (List.getElem?_eq_some_iff.1 hv).1
  refine ⟨by simp, ?_, ?_⟩
  · intro u hu'
    rcases List.mem_or_eq_of_mem_set hu' with h | rfl
    · exact hst u h
    · exact hu.ok
  · intro j u hj
    by_cases hij : i = j
    · subst hij
      rw [hv] at hj; simp only [Option.some.injEq] at hj; subst hj
      exact ⟨v', by simp [hlt], hu⟩
    · exact ⟨u, by rw [List.getElem?_set_ne hij]; exact hj, .refl (hst u (List.mem_of_getElem? hj))⟩

theorem addAdjacent_length {p : HS3} : ∀ (l : List Nat) {st st' : List VInfo}, addAdjacent st p l = some st' → st'.length = st.length := by
  intro l
  induction l with
  | nil => intro st st' h; simp [addAdjacent] at h; simp [h]
  | cons i r ih =>
    intro st st' h
    simp only [addAdjacent, Option.bind_eq_bind, Option.bind_eq_some_iff] at h
    obtain ⟨v, -, v', -, h⟩ := h
    simpa using ih h

theorem addAdjacent_spec {p : HS3} (hp : p.n ≠ ⟨0, 0, 0⟩) : ∀ (l : List Nat) {st st' : List VInfo}, (∀ v ∈ st, v.Ok) →
    addAdjacent st p l = some st' → Later st st' ∧
    ((∀ v ∈ st', v.point.w ≠ 0) → (∀ i ∈ l, ∀ v, st[i]? = some v → v.adjacent.length = 3 → p.side v.point.pt = 0) → CovAll st' p l) := by
  intro l
  induction l with
  | nil =>
    intro st st' hst h
    simp [addAdjacent] at h; subst h
    exact ⟨.refl hst, fun _ _ i hi => by simp at hi⟩
  | cons i r ih =>
    intro st st' hst h
    simp only [addAdjacent, Option.bind_eq_bind, Option.bind_eq_some_iff] at h
    obtain ⟨v, hv, v', hv', h⟩ := h
    obtain ⟨u, hcov⟩ := VInfo.tryAdd_spec (hst v (List.mem_of_getElem? hv)) hp hv'
    have hl := later_set hst hv u
    obtain ⟨i1, i2⟩ := ih hl.ok h
    have hlt : i < st.length := (List.getElem?_eq_some_iff.1 hv).1
    have hget : (st.set i v')[i]? = some v' := by simp [hlt]
    refine ⟨hl.trans i1, ?_⟩
    intro hfin hon
    have hc1 : v'.Cov p := hcov (hon i (by simp) v hv)
    have hc2 := i2 hfin (by
      intro j hj w hw h3
      by_cases hij : i = j
      · subst hij
        rw [hget] at hw; simp only [Option.some.injEq] at hw; subst hw
        rcases hc1 with ⟨a, ha, hs⟩ | ⟨-, hs⟩
        · have hw := i1.fin hfin v' (List.mem_of_getElem? hget)
          exact (hs _).1 (u.ok.on h3 hw a ha)
        · exact hs
      · rw [List.getElem?_set_ne hij] at hw
        exact hon j (by simp [hj]) w hw h3)
    intro j hj
    rcases List.mem_cons.1 hj with rfl | hj
    · obtain ⟨w, hw, u2⟩ := i1.upd j v' hget
      exact ⟨w, hw, u2.cov hc1⟩
    · exact hc2 j hj

/-- Vertices that are on all their planes do not move. -/
theorem addAdjacent_still {p : HS3} : ∀ (l : List Nat) {st st' : List VInfo}, (∀ v ∈ st, v.Still) →
    (∀ i ∈ l, ∀ v, st[i]? = some v → p.side v.point.pt = 0) → addAdjacent st p l = some st' →
    (∀ v ∈ st', v.Still) ∧ st'.map VInfo.point = st.map VInfo.point := by
  intro l
  induction l with
  | nil => intro st st' hst _ h; simp [addAdjacent] at h; subst h; exact ⟨hst, rfl⟩
  | cons i r ih =>
    intro st st' hst hon h
    simp only [addAdjacent, Option.bind_eq_bind, Option.bind_eq_some_iff] at h
    obtain ⟨v, hv, v', hv', h⟩ := h
    obtain ⟨e1, e2⟩ := VInfo.tryAdd_still (hst v (List.mem_of_getElem? hv)) (hon i (by simp) v hv) hv'
    have hlt : i < st.length := (List.getElem?_eq_some_iff.1 hv).1
    have hget : (st.set i v')[i]? = some v' := by simp [hlt]
    have hmap : (st.set i v').map VInfo.point = st.map VInfo.point := by
      apply List.ext_getElem?
      intro j
      by_cases hij : i = j
      · subst hij; simp [hlt, e1]; rw [List.getElem?_eq_some_iff] at hv; rw [hv.2]
      · simp [List.getElem?_set_ne hij]
    obtain ⟨i1, i2⟩ := ih (st := st.set i v') (by
      intro u hu
      rcases List.mem_or_eq_of_mem_set hu with h | rfl
      · exact hst u h
      · exact e2) (by
      intro j hj w hw
      by_cases hij : i = j
      · subst hij
        rw [hget] at hw; simp only [Option.some.injEq] at hw; subst hw
        rw [e1]; exact hon i (by simp) v hv
      · rw [List.getElem?_set_ne hij] at hw
        exact hon j (by simp [hj]) w hw) h
    exact ⟨i1, i2.trans hmap⟩

/-! ### Rounds -/

/-- One round of `FinishFacet`. -/
structure Round (s : Repairer) (range : List Nat) (p : HS3) (acc rest e : List Nat) (s' : Repairer) : Prop where
  next : nextRange s.storage range = some (p, acc, rest, e)
  accNe : acc ≠ []
  adj : addAdjacent s.storage p (acc ++ e) = some s'.storage
  map : s'.map = s.map
  vertices : s'.vertices = s.vertices ++ acc ++ e
  polygons : s'.polygons = s.polygons ++ [(p, s'.vertices.length)]

inductive Finish : Repairer → List Nat → List (HS3 × List Nat × List Nat) → Repairer → Prop
  | last {s s' : Repairer} {range : List Nat} {p : HS3} {acc e : List Nat} (h : Round s range p acc [] e s') :
    Finish s range [(p, acc, e)] s'
  | more {s s1 s' : Repairer} {range : List Nat} {p : HS3} {acc rest e : List Nat} {x y : Nat} {ps : List (HS3 × List Nat × List Nat)}
    (h : Round s range p acc rest e s1) (hr : rest ≠ []) (hx : acc.getLast? = some x) (hy : e.getLast? = some y)
    (h' : Finish s1 (x :: rest ++ [y]) ps s') : Finish s range ((p, acc, e) :: ps) s'

theorem finishLoop_spec : ∀ (fuel : Nat) {s s' : Repairer} {range : List Nat}, finishLoop fuel s range = some s' →
    ∃ ps, Finish s range ps s' := by
  intro fuel
  induction fuel with
  | zero => intro s s' range h; simp [finishLoop] at h
  | succ n ih =>
    intro s s' range h
    simp only [finishLoop, Option.bind_eq_bind, Option.bind_eq_some_iff] at h
    obtain ⟨⟨p, acc, rest, e⟩, h1, h⟩ := h
    simp only at h
    by_cases ha : acc = []
    · rw [if_pos ha] at h; cases h
    · rw [if_neg ha] at h
      obtain ⟨st, h2, h⟩ := Option.bind_eq_some_iff.1 h
      by_cases hr : rest = []
      · rw [if_pos hr] at h
        simp at h; subst h; subst hr
        exact ⟨_, .last ⟨h1, ha, h2, rfl, by simp, by simp⟩⟩
      · rw [if_neg hr] at h
        obtain ⟨x, hx, h⟩ := Option.bind_eq_some_iff.1 h
        obtain ⟨y, hy, h⟩ := Option.bind_eq_some_iff.1 h
        obtain ⟨ps, hps⟩ := ih h
        refine ⟨_, Finish.more (s1 := { s with storage := st, vertices := s.vertices ++ acc ++ e, polygons := s.polygons ++ [(p, (s.vertices ++ acc ++ e).length)] })
          ⟨h1, ha, h2, rfl, rfl, rfl⟩ hr hx hy hps⟩

/-- The number of rounds is at most the number of vertices: more fuel changes nothing. -/
theorem finishLoop_fuel : ∀ (k : Nat) (s : Repairer) (range : List Nat) (k' : Nat), range.length ≤ k → range.length ≤ k' →
    finishLoop k s range = finishLoop k' s range := by
  have hnil : ∀ k s, finishLoop k s [] = none := by
    intro k s
    cases k with
    | zero => rfl
    | succ n => simp [finishLoop, nextRange]
  intro k
  induction k with
  | zero =>
    intro s range k' h h'
    have : range = [] := List.eq_nil_of_length_eq_zero (by omega)
    subst this
    rw [hnil, hnil]
  | succ n ih =>
    intro s range k' h h'
    cases k' with
    | zero =>
      have : range = [] := List.eq_nil_of_length_eq_zero (by omega)
      subst this
      rw [hnil, hnil]
    | succ n' =>
      simp only [finishLoop, Option.bind_eq_bind]
      cases hn : nextRange s.storage range with
      | none => rfl
      | some t =>
        obtain ⟨p, acc, rest, e⟩ := t
        simp only [Option.bind_some]
        by_cases ha : acc = []
        · rw [if_pos ha, if_pos ha]
        · rw [if_neg ha, if_neg ha]
          cases had : addAdjacent s.storage p (acc ++ e) with
          | none => rfl
          | some st =>
            simp only [Option.bind_some]
            by_cases hr : rest = []
            · rw [if_pos hr, if_pos hr]
            · rw [if_neg hr, if_neg hr]
              have h2 := nextRange_progress hn hr
              obtain ⟨i, e', b1, b, rfl, hrange, -⟩ := nextRange_spec hn
              cases hx : acc.getLast? with
              | none => rfl
              | some x =>
                simp only [Option.bind_some]
                cases hy : (i :: e').getLast? with
                | none => rfl
                | some y =>
                  simp only [Option.bind_some]
                  apply ih <;>
                  · rw [hrange] at h h'
                    simp at h h' ⊢
                    omega

end Walnut.Repair
