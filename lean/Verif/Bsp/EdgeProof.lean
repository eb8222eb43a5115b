/-
The pointers in the edges: how `SetBoundaryAngles` changes them and why they keep
denoting the highest and deepest coincident ancestors.
-/
import Verif.Bsp.Geometry

namespace Walnut.Bsp
open Walnut.Geom Walnut.Poly

/-! ### Deepest and highest ancestors -/

theorem Deepest.congr {anc : Anc} {C C' : HS3 → Prop} {s : SplitSide} (h : ∀ a ∈ anc, C a.1.plane ↔ C' a.1.plane)
    (hd : Deepest anc C s) : Deepest anc C' s := by
  rcases hd with ⟨h1, h2⟩ | ⟨l, a, r, rfl, h2, h3, h4⟩
  · exact Or.inl ⟨h1, fun a ha => fun hc => h2 a ha ((h a ha).2 hc)⟩
  · refine Or.inr ⟨l, a, r, rfl, (h a (by simp)).1 h2, fun b hb hc => h3 b hb ((h b (by simp [hb])).2 hc), h4⟩

theorem Highest.congr {anc : Anc} {C C' : HS3 → Prop} {s : SplitSide} (h : ∀ a ∈ anc, C a.1.plane ↔ C' a.1.plane)
    (hd : Highest anc C s) : Highest anc C' s := by
  rcases hd with ⟨h1, h2⟩ | ⟨l, a, r, rfl, h2, h3, h4⟩
  · exact Or.inl ⟨h1, fun a ha => fun hc => h2 a ha ((h a ha).2 hc)⟩
  · refine Or.inr ⟨l, a, r, rfl, (h a (by simp)).1 h2, fun b hb hc => h3 b hb ((h b (by simp [hb])).2 hc), h4⟩

theorem Among.congr {anc : Anc} {C C' : HS3 → Prop} {s : SplitSide} (h : ∀ a ∈ anc, C a.1.plane ↔ C' a.1.plane)
    (hd : Among anc C s) : Among anc C' s := by
  rcases hd with h1 | ⟨a, ha, h2, h3⟩
  · exact Or.inl h1
  · exact Or.inr ⟨a, ha, (h a ha).1 h2, h3⟩

/-- A new node whose plane does not satisfy the condition. -/
theorem Deepest.skip {anc : Anc} {C : HS3 → Prop} {s : SplitSide} {x : PlaneRef × Bool} (hx : ¬ C x.1.plane)
    (hd : Deepest anc C s) : Deepest (anc ++ [x]) C s := by
  rcases hd with ⟨h1, h2⟩ | ⟨l, a, r, rfl, h2, h3, h4⟩
  · refine Or.inl ⟨h1, fun a ha => ?_⟩
    rcases List.mem_append.1 ha with h | h
    · exact h2 a h
    · rw [List.mem_singleton.1 h]; exact hx
  · refine Or.inr ⟨l, a, r ++ [x], by simp, h2, fun b hb => ?_, h4⟩
    rcases List.mem_append.1 hb with h | h
    · exact h3 b h
    · rw [List.mem_singleton.1 h]; exact hx

/-- A new node whose plane satisfies the condition. -/
theorem Deepest.last {anc : Anc} {C : HS3 → Prop} {x : PlaneRef × Bool} (hx : C x.1.plane) :
    Deepest (anc ++ [x]) C ⟨some x.1, x.2⟩ := Or.inr ⟨anc, x, [], rfl, hx, by simp, rfl⟩

theorem Highest.skip {anc : Anc} {C : HS3 → Prop} {s : SplitSide} {x : PlaneRef × Bool} (hx : ¬ C x.1.plane)
    (hd : Highest anc C s) : Highest (anc ++ [x]) C s := by
  rcases hd with ⟨h1, h2⟩ | ⟨l, a, r, rfl, h2, h3, h4⟩
  · refine Or.inl ⟨h1, fun a ha => ?_⟩
    rcases List.mem_append.1 ha with h | h
    · exact h2 a h
    · rw [List.mem_singleton.1 h]; exact hx
  · exact Or.inr ⟨l, a, r ++ [x], by simp, h2, h3, h4⟩

/-- The highest one stays. -/
theorem Highest.keep {anc : Anc} {C : HS3 → Prop} {s : SplitSide} {x : PlaneRef × Bool} (hs : s.split.isSome)
    (hd : Highest anc C s) : Highest (anc ++ [x]) C s := by
  rcases hd with ⟨h1, h2⟩ | ⟨l, a, r, rfl, h2, h3, h4⟩
  · rw [h1] at hs; simp at hs
  · exact Or.inr ⟨l, a, r ++ [x], by simp, h2, h3, h4⟩

theorem Highest.last {anc : Anc} {C : HS3 → Prop} {x : PlaneRef × Bool} (hn : ∀ a ∈ anc, ¬ C a.1.plane) (hx : C x.1.plane) :
    Highest (anc ++ [x]) C ⟨some x.1, x.2⟩ := Or.inr ⟨anc, x, [], rfl, hx, hn, rfl⟩

theorem Highest.none {anc : Anc} {C : HS3 → Prop} {s : SplitSide} (hd : Highest anc C s) (hs : s.split = none) :
    ∀ a ∈ anc, ¬ C a.1.plane := by
  rcases hd with ⟨_, h2⟩ | ⟨l, a, r, rfl, h2, h3, h4⟩
  · exact h2
  · rw [h4] at hs; simp at hs

theorem Among.append {anc : Anc} {C : HS3 → Prop} {s : SplitSide} {x : PlaneRef × Bool} (hd : Among anc C s) :
    Among (anc ++ [x]) C s := by
  rcases hd with h1 | ⟨a, ha, h2, h3⟩
  · exact Or.inl h1
  · exact Or.inr ⟨a, by simp [ha], h2, h3⟩

theorem Deepest.exists {anc : Anc} {C : HS3 → Prop} {s : SplitSide} {a : PlaneRef × Bool} (hd : Deepest anc C s) (ha : a ∈ anc)
    (hc : C a.1.plane) : s.split.isSome := by
  rcases hd with ⟨_, h2⟩ | ⟨l, b, r, rfl, _, _, h4⟩
  · exact absurd hc (h2 a ha)
  · rw [h4]; rfl

theorem Deepest.holds {anc : Anc} {C : HS3 → Prop} {s : SplitSide} (hd : Deepest anc C s) {r : PlaneRef} (hs : s.split = some r) :
    C r.plane ∧ ∃ a ∈ anc, a = (r, s.pos) := by
  rcases hd with ⟨h1, _⟩ | ⟨l, b, r', rfl, h2, _, h4⟩
  · rw [h1] at hs; simp at hs
  · rw [h4] at hs
    simp only [Option.some.injEq] at hs
    subst hs
    exact ⟨h2, b, by simp, by rw [h4]⟩

/-- If the deepest ancestors for two conditions satisfy each other's condition they are the same. -/
theorem Deepest.unique {anc : Anc} {C C' : HS3 → Prop} {s s' : SplitSide} (hd : Deepest anc C s) (hd' : Deepest anc C' s')
    {r r' : PlaneRef} (hs : s.split = some r) (hs' : s'.split = some r') (h1 : C' r.plane) (h2 : C r'.plane) : s = s' := by
  rcases hd with ⟨e, _⟩ | ⟨l, a, m, e, _, h3, rfl⟩
  · rw [e] at hs; simp at hs
  rcases hd' with ⟨e', _⟩ | ⟨l', a', m', e', _, h3', rfl⟩
  · rw [e'] at hs'; simp at hs'
  simp only [Option.some.injEq] at hs hs'
  subst hs hs'
  rw [e] at e'
  rcases List.append_eq_append_iff.1 e' with ⟨x, e1, e2⟩ | ⟨x, e1, e2⟩
  · cases x with
    | nil => simp at e2; rw [e2.1]
    | cons y x =>
      simp only [List.cons_append, List.cons.injEq] at e2
      exact absurd h2 (h3 a' (by rw [e2.2]; simp))
  · cases x with
    | nil => simp at e2; rw [e2.1]
    | cons y x =>
      simp only [List.cons_append, List.cons.injEq] at e2
      exact absurd h1 (h3' a (by rw [e2.2]; simp))

/-! ### Polygons with the same shape -/

/-- Only the members of the edges' parent class may differ. -/
structure Same {D E : Type} (P : Polygon D) (Q : Polygon E) : Prop where
  plane : Q.plane = P.plane
  drop : Q.drop = P.drop
  count : Q.count = P.count
  vertex : ∀ i, Q.vertexD i = P.vertexD i
  line : ∀ i, Q.lineD i = P.lineD i

namespace Same
variable {D E : Type} {P : Polygon D} {Q : Polygon E}

theorem pt (h : Same P Q) (i : Nat) : Q.pt i = P.pt i := by unfold Polygon.pt; rw [h.vertex]

theorem region (h : Same P Q) : Q.region = P.region := by
  unfold Polygon.region; rw [h.count]; congr 1; ext q; simp only [h.pt]

theorem convex (h : Same P Q) (hP : IsConvexPolygon P) : IsConvexPolygon Q := by
  obtain ⟨d, f, o, l, c, n, p⟩ := hP
  constructor
  · rw [h.plane, h.drop]; exact d
  · intro i hi; rw [h.vertex]; exact f i (h.count ▸ hi)
  · intro i hi; rw [h.plane, h.pt]; exact o i (h.count ▸ hi)
  · intro i hi; rw [h.line, h.pt, h.pt, h.count]; exact l i (h.count ▸ hi)
  · intro i j k h1 h2 h3; rw [h.plane, h.pt, h.pt, h.pt]; exact c i j k h1 h2 (h.count ▸ h3)
  · intro i j h1 h2; rw [h.pt, h.pt]; exact n i j h1 (h.count ▸ h2)
  · obtain ⟨i, j, k, h1, h2, h3, h4⟩ := p
    exact ⟨i, j, k, h1, h2, h.count ▸ h3, by rw [h.plane, h.pt, h.pt, h.pt]; exact h4⟩

theorem tracker (h : Same P Q) {T : Tracker} (hT : TrackerOK P T) : TrackerOK Q T := by
  obtain ⟨a, b, c, d, e, f, g, k⟩ := hT
  refine ⟨fun x => by rw [h.count]; exact a x, fun x => by rw [h.count]; exact b x, fun x j hj => ?_, fun x j hj => ?_,
    fun x => ?_, ?_, fun x => ?_, fun x => ?_⟩
  · rw [h.pt, h.pt]; exact c x j (h.count ▸ hj)
  · rw [h.pt, h.pt]; exact d x j (h.count ▸ hj)
  · rw [h.vertex, h.vertex]; exact e x
  · obtain ⟨x, hx⟩ := f
    exact ⟨x, by rw [h.vertex, h.vertex]; exact hx⟩
  · rw [h.pt]; exact g x
  · rw [h.pt]; exact k x

theorem refl (P : Polygon D) : Same P P := ⟨rfl, rfl, rfl, fun _ => rfl, fun _ => rfl⟩

theorem trans {F : Type} {R : Polygon F} (h : Same P Q) (h' : Same Q R) : Same P R :=
  ⟨h'.plane.trans h.plane, h'.drop.trans h.drop, h'.count.trans h.count, fun i => (h'.vertex i).trans (h.vertex i),
    fun i => (h'.line i).trans (h.line i)⟩

end Same

/-- An edge without its data. -/
def shape (e : Edge EdgeInfo) : HP3 × PL := (e.vertex, e.line)

theorem modify_get {α : Type} (l : List α) (i j : Nat) (f : α → α) :
    (l.modify i f)[j]? = if i = j then (l[j]?).map f else l[j]? := by
  rw [List.getElem?_modify]
  by_cases h : i = j <;> simp [h]

/-- Edges that agree up to their data. -/
theorem same_of_edges {P Q : Polygon EdgeInfo} (h1 : Q.plane = P.plane) (h2 : Q.drop = P.drop)
    (h3 : ∀ i : Nat, (Q.edges[i]?).map shape = (P.edges[i]?).map shape) : Same P Q := by
  have key : ∀ i : Nat, (∃ e e' : Edge EdgeInfo, Q.edges[i]? = some e ∧ P.edges[i]? = some e' ∧ e.vertex = e'.vertex ∧ e.line = e'.line) ∨
      (Q.edges[i]? = none ∧ P.edges[i]? = none) := by
    intro i
    have := h3 i
    cases hq : Q.edges[i]? <;> cases hp : P.edges[i]? <;> rw [hq, hp] at this <;> simp [shape] at this
    · exact Or.inr ⟨rfl, rfl⟩
    · exact Or.inl ⟨_, _, rfl, rfl, this.1, this.2⟩
  refine ⟨h1, h2, ?_, fun i => ?_, fun i => ?_⟩
  · apply le_antisymm
    · by_contra hc
      push Not at hc
      rcases key P.count with ⟨e, e', _, h, _⟩ | ⟨h, _⟩
      · rw [List.getElem?_eq_none (by exact le_rfl)] at h; simp at h
      · rw [List.getElem?_eq_none_iff] at h; unfold Polygon.count at *; omega
    · by_contra hc
      push Not at hc
      rcases key Q.count with ⟨e, e', h, _⟩ | ⟨_, h⟩
      · rw [List.getElem?_eq_none (by exact le_rfl)] at h; simp at h
      · rw [List.getElem?_eq_none_iff] at h; unfold Polygon.count at *; omega
  · unfold Polygon.vertexD
    rcases key i with ⟨e, e', a, b, c, _⟩ | ⟨a, b⟩ <;> rw [a, b]
    exact c
  · unfold Polygon.lineD
    rcases key i with ⟨e, e', a, b, _, c⟩ | ⟨a, b⟩ <;> rw [a, b]
    exact c

/-! ### `SetBoundaryAngles` -/

theorem coincide_idem (o c : SplitSide) (hc : c.split.isSome) (d : EdgeInfo) :
    EdgeInfo.coincide o c (EdgeInfo.coincide o c d) = EdgeInfo.coincide o c d := by
  unfold EdgeInfo.coincide
  by_cases h1 : d.first.split.isNone = true
  · by_cases h2 : o.split.isSome = true
    · have h3 : ¬ o.split.isNone = true := by cases h : o.split <;> simp_all
      simp [h1, h2, h3]
    · have h3 : ¬ c.split.isNone = true := by cases h : c.split <;> simp_all
      simp [h1, h2, h3]
  · simp [h1]

theorem mapData_idem {f : EdgeInfo → EdgeInfo} (hf : ∀ d, f (f d) = f d) (e : Edge EdgeInfo) : mapData f (mapData f e) = mapData f e := by
  unfold mapData; simp only [hf]

/-- The loop changes exactly the edges whose number occurs. -/
theorem coincideLoop_get {o c : SplitSide} (hc : c.split.isSome) (n : Nat) (first count : Nat) (l : List (Edge EdgeInfo)) (i : Nat) :
    ((∃ pos, first ≤ pos ∧ pos < first + count ∧ pos % n = i) →
      (coincideLoop o c n l first count)[i]? = (l[i]?).map (mapData (EdgeInfo.coincide o c))) ∧
    (¬ (∃ pos, first ≤ pos ∧ pos < first + count ∧ pos % n = i) → (coincideLoop o c n l first count)[i]? = l[i]?) := by
  have idem : ∀ e : Option (Edge EdgeInfo), (e.map (mapData (EdgeInfo.coincide o c))).map (mapData (EdgeInfo.coincide o c)) =
      e.map (mapData (EdgeInfo.coincide o c)) := by
    intro e
    cases e with
    | none => rfl
    | some e => simp [mapData_idem (coincide_idem o c hc)]
  unfold coincideLoop
  induction count generalizing first l with
  | zero =>
    refine ⟨?_, fun _ => rfl⟩
    rintro ⟨pos, h1, h2, _⟩
    omega
  | succ k ih =>
    rw [List.range'_succ, List.foldl_cons]
    obtain ⟨i1, i2⟩ := ih (first + 1) (l.modify (first % n) (mapData (EdgeInfo.coincide o c)))
    constructor
    · rintro ⟨pos, h1, h2, h3⟩
      by_cases hx : ∃ pos, first + 1 ≤ pos ∧ pos < first + 1 + k ∧ pos % n = i
      · rw [i1 hx, modify_get]
        by_cases hf : first % n = i
        · simp only [if_pos hf, idem]
        · simp [if_neg hf]
      · rw [i2 hx, modify_get]
        have : first = pos := by
          by_contra hne
          exact hx ⟨pos, by omega, by omega, h3⟩
        rw [if_pos (by rw [this]; exact h3)]
    · intro hx
      rw [i2 (fun ⟨pos, h1, h2, h3⟩ => hx ⟨pos, by omega, by omega, h3⟩), modify_get,
        if_neg (fun h => hx ⟨first, le_rfl, by omega, h⟩)]

/-- The edges and vertices that `SetBoundaryAngles` changes. -/
structure Updated (p p' : BPoly) (c : SplitSide) (E V : Nat → Prop) : Prop where
  same : Same p.poly p'.poly
  tracker : p'.tracker = p.tracker
  id : p'.id = p.id
  onNode : p'.onNode = p.onNode
  edge : ∀ i e, p.poly.edges[i]? = some e → ∃ e', p'.poly.edges[i]? = some e' ∧ e'.data.createdBy = e.data.createdBy ∧
    (E i → e'.data.first = (if e.data.first.split.isNone then (if p.onNode.split.isSome then p.onNode else c) else e.data.first) ∧
      e'.data.edgeLast = c) ∧
    (¬ E i → e'.data.first = e.data.first ∧ e'.data.edgeLast = e.data.edgeLast) ∧
    (V i → e'.data.vertexLast = c) ∧ (¬ V i → e'.data.vertexLast = e.data.vertexLast)

theorem setBoundary_updated (p : BPoly) {c : SplitSide} (hc : c.split.isSome) {first last : Nat} (hfl : first ≤ last) :
    Updated p (p.setBoundary c first last) c (fun i => ∃ pos, first ≤ pos ∧ pos < last - 1 ∧ pos % p.poly.count = i)
      (fun i => ∃ pos, first ≤ pos ∧ pos < last ∧ pos % p.poly.count = i) := by
  unfold BPoly.setBoundary
  by_cases h : first = last
  · rw [if_pos h]
    refine ⟨Same.refl _, rfl, rfl, rfl, fun i e he => ⟨e, he, rfl, ?_, fun _ => ⟨rfl, rfl⟩, ?_, fun _ => rfl⟩⟩
    · rintro ⟨pos, h1, h2, _⟩; omega
    · rintro ⟨pos, h1, h2, _⟩; omega
  · rw [if_neg h]
    have hl : first + (last - 1 - first) = last - 1 := by omega
    have hg := fun i => coincideLoop_get (o := p.onNode) hc p.poly.count first (last - 1 - first) p.poly.edges i
    simp only [hl] at hg
    have hshape : ∀ i : Nat, ((coincideLoop p.onNode c p.poly.count p.poly.edges first (last - 1 - first))[i]?).map
        shape = (p.poly.edges[i]?).map shape := by
      intro i
      by_cases hE : ∃ pos, first ≤ pos ∧ pos < last - 1 ∧ pos % p.poly.count = i
      · rw [(hg i).1 hE]; cases p.poly.edges[i]? <;> rfl
      · rw [(hg i).2 hE]
    refine ⟨same_of_edges rfl rfl fun i => ?_, rfl, rfl, rfl, fun i e he => ?_⟩
    · simp only [modify_get]
      rw [← hshape i]
      cases (coincideLoop p.onNode c p.poly.count p.poly.edges first (last - 1 - first))[i]? with
      | none => by_cases hm : (last - 1) % p.poly.count = i <;> simp [hm]
      | some x => by_cases hm : (last - 1) % p.poly.count = i <;> simp [hm, mapData, shape]
    · simp only [modify_get]
      have hV : (∃ pos, first ≤ pos ∧ pos < last ∧ pos % p.poly.count = i) ↔
          (∃ pos, first ≤ pos ∧ pos < last - 1 ∧ pos % p.poly.count = i) ∨ (last - 1) % p.poly.count = i := by
        constructor
        · rintro ⟨pos, h1, h2, h3⟩
          by_cases hp : pos < last - 1
          · exact Or.inl ⟨pos, h1, hp, h3⟩
          · right; rw [← h3]; congr 1; omega
        · rintro (⟨pos, h1, h2, h3⟩ | h3)
          · exact ⟨pos, h1, by omega, h3⟩
          · exact ⟨last - 1, by omega, by omega, h3⟩
      rw [hV]
      by_cases hE : ∃ pos, first ≤ pos ∧ pos < last - 1 ∧ pos % p.poly.count = i
      · rw [(hg i).1 hE, he]
        by_cases hm : (last - 1) % p.poly.count = i <;>
          simp [hm, mapData, EdgeInfo.coincide, hE]
      · rw [(hg i).2 hE, he]
        by_cases hm : (last - 1) % p.poly.count = i <;>
          simp [hm, mapData, hE]

/-- A polygon whose marked edges and vertices are exactly those on the plane `ref`. -/
theorem Updated.edgesOK {anc : Anc} {p p' : BPoly} {ref : PlaneRef} {s : Bool} {E V : Nat → Prop}
    (hu : Updated p p' ⟨some ref, s⟩ E V) (hE : ∀ i, i < p.poly.count → (E i ↔ AtEdge p.poly i ref.plane))
    (hV : ∀ i, i < p.poly.count → (V i ↔ AtVertex p.poly i ref.plane)) (ho : EdgesOK anc p.poly)
    (hon : p.onNode.split.isSome → ∃ a ∈ anc, ∀ i, i < p.poly.count → a.1.plane.side (p.poly.pt i) = 0) :
    EdgesOK (anc ++ [(ref, s)]) p'.poly := by
  intro i e' he'
  have hi : i < p.poly.count := by
    rw [← hu.same.count]; exact (List.getElem?_eq_some_iff.1 he').1
  obtain ⟨e, he⟩ : ∃ e, p.poly.edges[i]? = some e := ⟨_, List.getElem?_eq_getElem hi⟩
  obtain ⟨e'', he'', u0, u1, u2, u3, u4⟩ := hu.edge i e he
  obtain rfl : e' = e'' := by rw [he'] at he''; exact Option.some.inj he''
  obtain ⟨o1, o2, o3, o4⟩ := ho i e he
  have eV : AtVertex p'.poly i = AtVertex p.poly i := by funext h; unfold AtVertex; rw [hu.same.pt]
  have eE : AtEdge p'.poly i = AtEdge p.poly i := by funext h; unfold AtEdge; rw [hu.same.pt, hu.same.pt, hu.same.count]
  rw [eV, eE]
  refine ⟨?_, ?_, ?_, ?_⟩
  · by_cases h : V i
    · rw [u3 h]; exact Deepest.last ((hV i hi).1 h)
    · rw [u4 h]; exact o1.skip fun hc => h ((hV i hi).2 hc)
  · by_cases h : E i
    · rw [(u1 h).2]; exact Deepest.last ((hE i hi).1 h)
    · rw [(u2 h).2]; exact o2.skip fun hc => h ((hE i hi).2 hc)
  · by_cases h : E i
    · rw [(u1 h).1]
      by_cases hn : e.data.first.split.isNone = true
      · have hn' : e.data.first.split = none := by simpa using hn
        have : ¬ p.onNode.split.isSome = true := fun hs => by
          obtain ⟨a, ha, hz⟩ := hon hs
          exact o3.none hn' a ha ⟨hz i hi, hz _ (Nat.mod_lt _ (by omega))⟩
        rw [if_pos hn, if_neg this]
        exact Highest.last (o3.none hn') ((hE i hi).1 h)
      · rw [if_neg hn]
        exact o3.keep (by cases hh : e.data.first.split <;> simp_all)
    · rw [(u2 h).1]; exact o3.skip fun hc => h ((hE i hi).2 hc)
  · rw [u0]; exact o4.append

end Walnut.Bsp
