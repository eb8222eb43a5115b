/- The loop of `ApplyPrimary` moves every polygon to where `PushContentsToChildren` would move it. -/
import Verif.Bsp.KdRoute
import Verif.Bsp.NodeProof

namespace Walnut.Bsp
open Walnut.Geom Walnut.Poly

/-- The part of `EventsOk` that the division of a node needs: matched events in the order of their locations. -/
structure SortedEvents (dim : Fin 3) (polys : List EPoly) (ev : List EP) (s t : Nat → Nat) (loc : Nat → ℚ) : Prop where
  length : ev.length = 2 * polys.length
  starts : ∀ i p, polys[i]? = some p → ∃ b, ev[s i]? = some ⟨b, true, t i⟩ ∧ loc (s i) = p.lo.pt dim
  ends : ∀ i p, polys[i]? = some p → ∃ b, ev[t i]? = some ⟨b, false, i⟩ ∧ loc (t i) = p.hi.pt dim
  all : ∀ k < ev.length, ∃ i < polys.length, k = s i ∨ k = t i
  before : ∀ i < polys.length, s i < t i
  sorted : ∀ j k, j ≤ k → k < ev.length → loc j ≤ loc k

theorem EventsOk.toSorted {dim : Fin 3} {polys : List EPoly} {ev : List EP} {s t : Nat → Nat} {loc : Nat → ℚ} (h : EventsOk dim polys ev s t loc) :
    SortedEvents dim polys ev s t loc := ⟨h.length, h.starts, h.ends, h.all, h.before, h.sorted⟩

/-- What the children receive of a polygon. -/
def outFor (ref : PlaneRef) (p : BPoly) : Out :=
  match route true ref p with
  | some (.both N Q) => ⟨[N], [], [Q], []⟩
  | some (.neg N) => ⟨[N], [], [], []⟩
  | some (.pos Q) => ⟨[], [], [Q], []⟩
  | some .on => if onPlanePos p ref.plane then ⟨[], [], [], [onPlane ref p]⟩ else ⟨[], [onPlane ref p], [], []⟩
  | none => ⟨[], [], [], []⟩

/-- The polygon has points on both sides of the plane where component `dim` is `L`. -/
def divided (dim : Fin 3) (L : ℚ) (p : BPoly) : Bool :=
  match p.extent dim with
  | some x => decide (x.lo.pt dim < L ∧ L < x.hi.pt dim)
  | none => false

theorem extents_length {dim : Fin 3} : ∀ {l : List BPoly} {xs : List EPoly}, extents dim l = some xs → xs.length = l.length
  | [], xs, h => by cases h; rfl
  | p :: l, xs, h => by
    unfold extents at h
    rw [List.mapM_cons] at h
    obtain ⟨x, -, h⟩ := Option.bind_eq_some_iff.1 h
    obtain ⟨y, hy, h⟩ := Option.bind_eq_some_iff.1 h
    cases h
    rw [List.length_cons, List.length_cons, extents_length hy]

theorem extents_get {dim : Fin 3} : ∀ {l : List BPoly} {xs : List EPoly}, extents dim l = some xs → ∀ {j : Nat} {p : BPoly}, l[j]? = some p →
    ∃ x, xs[j]? = some x ∧ p.extent dim = some x
  | [], xs, h, j, p, hp => by simp at hp
  | q :: l, xs, h, j, p, hp => by
    unfold extents at h
    rw [List.mapM_cons] at h
    obtain ⟨x, hx, h⟩ := Option.bind_eq_some_iff.1 h
    obtain ⟨y, hy, h⟩ := Option.bind_eq_some_iff.1 h
    cases h
    cases j with
    | zero => cases hp; exact ⟨x, rfl, hx⟩
    | succ j => exact extents_get hy (by simpa using hp)

theorem extent_spec {dim : Fin 3} {p : BPoly} {x : EPoly} (h : p.extent dim = some x) :
    ∃ T, p.tracker = some T ∧ x.id = p.id ∧ x.lo.pt = p.poly.pt (T.lo dim) ∧ x.hi.pt = p.poly.pt (T.hi dim) := by
  unfold BPoly.extent at h
  split at h
  · cases h
  · rename_i T hT
    split at h
    · rename_i a b ha hb
      cases h
      refine ⟨T, hT, rfl, ?_, ?_⟩
      · unfold Polygon.pt Polygon.vertexD; simp [ha]
      · unfold Polygon.pt Polygon.vertexD; simp [hb]
    · cases h

theorem putAt_spec {α : Type} {l l' : List α} {i : Nat} {x : α} (h : putAt l i x = some l') : i < l.length ∧ l' = l.set i x := by
  unfold putAt at h
  split_ifs at h with hi
  exact ⟨hi, (Option.some.inj h).symm⟩

theorem setIndex_spec {l l' : List EP} {i x : Nat} (h : setIndex l i x = some l') : ∃ e, l[i]? = some e ∧ l' = l.set i { e with index := x } := by
  unfold setIndex at h
  split at h
  · cases h
  · rename_i e he; exact ⟨e, he, (Option.some.inj h).symm⟩

theorem set_get {α : Type} (l : List α) (i k : Nat) (x : α) (h : i ≠ k) : (l.set i x)[k]? = l[k]? := by
  rw [List.getElem?_set, if_neg h]

/-- The next unused place of a vector is filled. -/
theorem set_next {A N : List BPoly} {extra : Nat} (h : A.length < extra) (x : BPoly) :
    (A ++ List.replicate (extra - A.length) emptyPoly ++ N).set A.length x = (A ++ [x]) ++ List.replicate (extra - (A.length + 1)) emptyPoly ++ N := by
  rw [show extra - A.length = (extra - (A.length + 1)) + 1 by omega, List.replicate_succ]
  simp

section
variable {dim : Fin 3} {L : ℚ} {ref : PlaneRef} {anc : Anc} {polys : List BPoly} {xs : List EPoly} {ev : List EP} {s t : Nat → Nat} {loc : Nat → ℚ}

namespace SortedEvents

theorem poly {k : Nat} (hk : k < xs.length) : ∃ p, xs[k]? = some p := ⟨xs[k], List.getElem?_eq_getElem hk⟩

theorem t_inj (h : SortedEvents dim xs ev s t loc) {i j : Nat} (hi : i < xs.length) (hj : j < xs.length) (e : t i = t j) : i = j := by
  obtain ⟨p, hp⟩ := poly hi
  obtain ⟨q, hq⟩ := poly hj
  obtain ⟨b, h1, -⟩ := h.ends i p hp
  obtain ⟨c, h2, -⟩ := h.ends j q hq
  rw [e, h2] at h1
  cases h1; rfl

theorem s_inj (h : SortedEvents dim xs ev s t loc) {i j : Nat} (hi : i < xs.length) (hj : j < xs.length) (e : s i = s j) : i = j := by
  obtain ⟨p, hp⟩ := poly hi
  obtain ⟨q, hq⟩ := poly hj
  obtain ⟨b, h1, -⟩ := h.starts i p hp
  obtain ⟨c, h2, -⟩ := h.starts j q hq
  rw [e, h2] at h1
  injection h1 with h1
  injection h1 with _ _ h1
  exact (h.t_inj hj hi h1).symm

theorem s_ne_t (h : SortedEvents dim xs ev s t loc) {i j : Nat} (hi : i < xs.length) (hj : j < xs.length) : s i ≠ t j := by
  intro e
  obtain ⟨p, hp⟩ := poly hi
  obtain ⟨q, hq⟩ := poly hj
  obtain ⟨b, h1, -⟩ := h.starts i p hp
  obtain ⟨c, h2, -⟩ := h.ends j q hq
  rw [e, h2] at h1
  cases h1

theorem t_lt (h : SortedEvents dim xs ev s t loc) {i : Nat} (hi : i < xs.length) : t i < 2 * xs.length := by
  obtain ⟨p, hp⟩ := poly hi
  obtain ⟨b, h1, -⟩ := h.ends i p hp
  rw [← h.length]
  exact (List.getElem?_eq_some_iff.1 h1).1

end SortedEvents

/-- The events that were not processed are as at the beginning, except for the ends of polygons that were moved. -/
def Keeps (n : Nat) (ev : List EP) (s t : Nat → Nat) (i : Nat) (ev' : List EP) : Prop :=
  ∀ k, i ≤ k → ∀ e, ev[k]? = some e → ∃ e', ev'[k]? = some e' ∧ e'.start = e.start ∧ (e.start = true → e'.index = e.index) ∧
    ∀ j, j < n → k = t j → i ≤ s j → e'.index = j

theorem Keeps.initial (h : SortedEvents dim xs ev s t loc) : Keeps xs.length ev s t 0 ev := by
  intro k _ e he
  refine ⟨e, he, rfl, fun _ => rfl, fun j hj hk _ => ?_⟩
  obtain ⟨p, hp⟩ := SortedEvents.poly hj
  obtain ⟨b, h1, -⟩ := h.ends j p hp
  rw [← hk, he] at h1
  cases h1; rfl

theorem Keeps.start (h : SortedEvents dim xs ev s t loc) {i j : Nat} (hj : j < xs.length) (hs : s j = i) {ev0 ev1 : List EP} (hk : Keeps xs.length ev s t i ev0)
    (h1 : ∀ k, i < k → k ≠ t j → ev1[k]? = ev0[k]?) (h2 : ∃ y, ev1[t j]? = some y ∧ y.start = false) : Keeps xs.length ev s t (i + 1) ev1 := by
  intro k hik e he
  by_cases hkt : k = t j
  · subst hkt
    obtain ⟨y, y1, y2⟩ := h2
    obtain ⟨p, hp⟩ := SortedEvents.poly hj
    obtain ⟨b, h3, -⟩ := h.ends j p hp
    rw [he] at h3
    cases h3
    refine ⟨y, y1, y2, by simp, fun j' hj' e1 e2 => ?_⟩
    have := h.t_inj hj hj' e1
    subst this
    omega
  · obtain ⟨e', e1, e2, e3, e4⟩ := hk k (by omega) e he
    exact ⟨e', by rw [h1 k (by omega) hkt]; exact e1, e2, e3, fun j' a b c => e4 j' a b (by omega)⟩

theorem Keeps.step {n i : Nat} {ev0 ev1 : List EP} (hk : Keeps n ev s t i ev0) (h1 : ∀ k, i < k → ev1[k]? = ev0[k]?) : Keeps n ev s t (i + 1) ev1 := by
  intro k hik e he
  obtain ⟨e', e1, e2, e3, e4⟩ := hk k (by omega) e he
  exact ⟨e', by rw [h1 k (by omega)]; exact e1, e2, e3, fun j' a b c => e4 j' a b (by omega)⟩

/-- What the children get of polygon `j`. -/
def outAt (ref : PlaneRef) (polys : List BPoly) (j : Nat) : Out := outFor ref (polys.getD j emptyPoly)

/-- The state before event `i`; `js` are the polygons that were moved, `A` and `A'` the pieces of divided polygons, `N` and `P` the other ones. -/
structure KdInv (dim : Fin 3) (L : ℚ) (ref : PlaneRef) (polys : List BPoly) (ev : List EP) (s t : Nat → Nat) (extra i : Nat) (js : List Nat) (A N A' P : List BPoly) (st : Prim) : Prop where
  keep : Keeps polys.length ev s t i st.ev
  used : st.posUsed ≤ i
  nodup : js.Nodup
  mem : ∀ j, j ∈ js ↔ j < polys.length ∧ s j < i
  neg : st.neg = A ++ List.replicate (extra - st.usedExtra) emptyPoly ++ N
  pos : st.pos = A' ++ List.replicate (extra - st.usedExtra) emptyPoly ++ P
  lenN : A.length = st.usedExtra
  lenP : A'.length = st.usedExtra
  count : st.usedExtra = js.countP fun j => divided dim L (polys.getD j emptyPoly)
  cn : (A ++ N).Perm (js.flatMap fun j => (outAt ref polys j).cn)
  cp : (A' ++ P).Perm (js.flatMap fun j => (outAt ref polys j).cp)
  bn : st.negBorder.Perm (js.flatMap fun j => (outAt ref polys j).bn)
  bp : st.posBorder.Perm (js.flatMap fun j => (outAt ref polys j).bp)
  routes : ∀ j ∈ js, route true ref (polys.getD j emptyPoly) ≠ none

theorem location_spec {part : EPart} {i : Nat} {e : EP} {st st' : Prim} (h : st.location part i e = some st') :
    st'.ev = st.ev ∧ st'.posUsed = st.posUsed ∧ st'.neg = st.neg ∧ st'.pos = st.pos ∧ st'.usedExtra = st.usedExtra ∧ st'.negBorder = st.negBorder ∧ st'.posBorder = st.posBorder := by
  unfold Prim.location at h
  split_ifs at h
  · cases h; simp
  · split at h
    · cases h
    · cases h; simp
  · cases h; simp
  · cases h; simp

theorem KdInv.location {extra i : Nat} {js : List Nat} {A N A' P : List BPoly} {st st' : Prim} (hI : KdInv dim L ref polys ev s t extra i js A N A' P st)
    {part : EPart} {e : EP} (h : st.location part i e = some st') : KdInv dim L ref polys ev s t extra i js A N A' P st' := by
  obtain ⟨h1, h2, h3, h4, h5, h6, h7⟩ := location_spec h
  obtain ⟨a1, a2, a3, a4, a5, a6, a7, a8, a9, a10, a11, a12, a13, a14⟩ := hI
  exact ⟨by rw [h1]; exact a1, by rw [h2]; exact a2, a3, a4, by rw [h3, h5]; exact a5, by rw [h4, h5]; exact a6, by rw [h5]; exact a7, by rw [h5]; exact a8, by rw [h5]; exact a9,
    a10, a11, by rw [h6]; exact a12, by rw [h7]; exact a13, a14⟩

theorem KdInv.onEnd (hx : xs.length = polys.length) (hE : SortedEvents dim xs ev s t loc) {extra i j : Nat} (hj : j < xs.length) (hi : i = t j)
    {js : List Nat} {A N A' P : List BPoly} {st st' : Prim} (hI : KdInv dim L ref polys ev s t extra i js A N A' P st) {part : EPart} {x : Nat} (h : st.onEnd part extra x = some st') :
    KdInv dim L ref polys ev s t extra (i + 1) js A N A' P st' := by
  have hmem : ∀ j', j' ∈ js ↔ j' < polys.length ∧ s j' < i + 1 := by
    intro j'
    rw [hI.mem]
    constructor
    · rintro ⟨a, b⟩; exact ⟨a, by omega⟩
    · rintro ⟨a, b⟩
      have := hE.s_ne_t (i := j') (j := j) (by omega) hj
      exact ⟨a, by omega⟩
  obtain ⟨a1, a2, a3, a4, a5, a6, a7, a8, a9, a10, a11, a12, a13, a14⟩ := hI
  unfold Prim.onEnd at h
  split at h
  · cases h
    exact ⟨a1.step fun _ _ => rfl, by omega, a3, hmem, a5, a6, a7, a8, a9, a10, a11, a12, a13, a14⟩
  split at h
  · split at h
    · cases h
    split at h
    · cases h
    split at h
    · cases h
    split at h
    · cases h
    split at h
    · cases h
    obtain ⟨ne, -, rfl⟩ := Option.map_eq_some_iff.1 h
    exact ⟨a1.step fun _ _ => rfl, by simp only; omega, a3, hmem, a5, a6, a7, a8, a9, a10, a11, a12, a13, a14⟩
  · simp only at h
    split at h
    · cases h
    split at h
    · cases h
    split at h
    · cases h
    rename_i ev1 e1
    obtain ⟨ev2, e2, rfl⟩ := Option.map_eq_some_iff.1 h
    obtain ⟨-, rfl⟩ := putAt_spec e1
    obtain ⟨e, -, rfl⟩ := setIndex_spec e2
    refine ⟨a1.step fun k hk => ?_, by simp only; omega, a3, hmem, a5, a6, a7, a8, a9, a10, a11, a12, a13, a14⟩
    simp only
    rw [set_get _ _ _ _ (by omega), set_get _ _ _ _ (by omega)]

end

end Walnut.Bsp
