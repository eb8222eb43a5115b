/-
C83: the VTK filter for boolean operations.

`Imports data minExponent flip out` says that `VTKToWalnutMesh` returns the polygons `out`, and `FilterTraverse` that
the filter's traversal makes the calls `tr`.  What the cells of a mesh are, and what it means to be inside of them,
is specified in Vtk/Spec.lean.
-/
import Verif.Vtk.AddProof
import Mathlib.Tactic.Ring

namespace Walnut.Props
open Walnut.Geom Walnut.Poly Walnut.Bsp Walnut.Util Walnut.Vtk
open Walnut.Conn (SortOk HeapOk SortFn HeapFns EntrySort EntrySortOk visitCalls facets edgeNum Mesh insertionSort sortHeap entrySort insertionSort_ok sortHeap_ok entrySort_ok)

/-- C83: the import of a mesh whose cells are strictly convex polygons returns, and it returns exactly one polygon for each
cell: that of the cell's points, with the coordinates rounded; if the mesh is flipped, with the opposite orientation.

Partial: only cells that are plane and strictly convex after rounding, and no strips.  For cells with more than three
points, no cross product of three of them is `-2 ^ 63`. -/
theorem C83_import_partial {minExponent : Int} {data : PolyData} {T : List Cell} (h : CellData minExponent data T) (flip : Bool) :
    ∃ mesh, (∀ out, Imports data minExponent flip out ↔ out = mesh) ∧
      List.Forall₂ (fun c P => CellOf (if flip then c.flipped else c) P) T mesh := import_spec h flip

/-- C83: the imported mesh is closed if the cells are, and the winding number around a point is that of the cells, or its
opposite if the mesh is flipped. -/
theorem C83_winding_partial {minExponent : Int} {data : PolyData} {T : List Cell} (h : CellData minExponent data T) (flip : Bool) {mesh : List (Polygon Unit)}
    (hm : Imports data minExponent flip mesh) :
    (ClosedInput T → Closed mesh) ∧ ∀ q v, windingNumber mesh q v = if flip then -cellWinding T q v else cellWinding T q v := by
  obtain ⟨mesh', hu, hM⟩ := import_mesh h flip
  obtain rfl := (hu _).1 hm
  cases flip with
  | false =>
    have e : T.map (oriented false) = T := by
      conv_rhs => rw [← List.map_id T]
      rfl
    rw [e] at hM
    exact ⟨hM.closed, fun q v => hM.winding q v⟩
  | true =>
    have e : T.map (oriented true) = T.map Cell.flipped := rfl
    rw [e] at hM
    exact ⟨fun hc => hM.closed (closed_flipped hc), fun q v => by rw [hM.winding, winding_flipped h.convex]; rfl⟩

/-- C83: the filter as a whole.  If the inputs are closed meshes of strictly convex polygons, the result is a closed mesh of convex
polygons, every half-edge of it is linked to one between the same points in the opposite direction, and around every
point on no facet the winding number is 1 if the point is in the union, the intersection, or in the first input and in
none of the others, and 0 otherwise; a point is inside of an input if the winding number of its rounded polygons is
positive.

Partial: as for the import; no input of a difference is empty (`C83_empty_false`); no normal has a component `2^63` or
`-2^63`, and the direction of no edge has a component `-2^63`. -/
theorem C83_filter_partial {aabb : Bool} {minExponent : Int} {op : Operation} {inputs : List PolyData} {Ts : List (List Cell)}
    (hT : List.Forall₂ (CellData minExponent) inputs Ts) (hcl : ∀ T ∈ Ts, ClosedInput T) (hne : inputs ≠ []) (hdiff : op = .difference → ∀ T ∈ Ts, T ≠ [])
    {choose : Choose} {group : Group} (hg : Grouping group) {pfuel fuel : Nat} {t' : Node} {tr : List Visit}
    (hr : FilterTraverse aabb minExponent op inputs choose group pfuel fuel t' tr) (hord : ∀ Q ∈ output tr, Ordinary Q.plane.n)
    (hmin : ∀ Q ∈ output tr, ∀ e ∈ Q.edges, NoMin3 e.line.d) {T : SortFn} {o : HeapFns} {D : EntrySort} (hT' : SortOk T) (ho : HeapOk o) (hD : EntrySortOk D) :
    ∃ s M, connRun tr {} = some s ∧ visitCalls T o D (edgeNum (output tr)) s.calls (facets (output tr)) = some (M, 0) ∧
      Poly.Linked M.world ∧ NoOpenEdge M.world ∧ (∀ p, M.size ≤ p → (M.world.polys p).edges = []) ∧ (∀ P ∈ M.remaining.map plain, IsConvexPolygon P) ∧ Closed (M.remaining.map plain) ∧
      ∀ q : Q3, (∀ T ∈ Ts, ∀ t ∈ T, q ∉ t.region) → (∀ P ∈ M.remaining.map plain, q ∉ P.region) → ∀ u, Transversal (M.remaining.map plain) q u →
        ∀ u' : ℕ → Q3, (∀ i T, Ts[i]? = some T → Generic T q (u' i)) →
          windingNumber (M.remaining.map plain) q u = one (InResult op inputs.length fun i => 0 < cellWinding (Ts.getD i []) q (u' i)) := by
  obtain ⟨t, hadd, htr⟩ := hr
  obtain ⟨d, S, rfl, hR, hS, -, hmesh⟩ := inputs_spec hT hadd .empty (by simp)
  simp only [Nat.zero_add] at hS hmesh
  have hlen := hT.length_eq
  have hget : ∀ i < inputs.length, Ts[i]? = some (Ts.getD i []) := by
    intro i hi
    rw [List.getD_eq_getElem?_getD, List.getElem?_eq_getElem (by omega)]; rfl
  have hclosed : ∀ id, Closed (meshOf S id) := by
    intro id
    by_cases hid : id < inputs.length
    · have hg := hget id hid
      have hm := hmesh id _ hg
      have hc := hcl _ (List.mem_of_getElem? hg)
      refine hm.closed ?_
      unfold oriented
      split
      · exact closed_flipped hc
      · simpa using hc
    · rw [meshOf_above hS (by omega)]
      intro a b; rfl
  have hknown : op = .difference → ∀ i < inputs.length, i < d.info.length := by
    intro hop i hi
    have hg := hget i hi
    have hm := hmesh i _ hg
    have hne := hdiff hop _ (List.mem_of_getElem? hg)
    obtain ⟨t0, rest, ht0⟩ := List.exists_cons_of_ne_nil hne
    rw [ht0] at hm
    have : meshOf S i ≠ [] := by
      intro e; rw [e] at hm; cases hm
    obtain ⟨P, rest', hP⟩ := List.exists_cons_of_ne_nil this
    have hmem : P ∈ meshOf S i := by rw [hP]; simp
    obtain ⟨s, hs, rfl⟩ := List.mem_map.1 hmem
    obtain ⟨hs1, hs2⟩ := List.mem_filter.1 hs
    have := leaf_known hR s hs1
    simp at hs2
    omega
  obtain ⟨n, hn⟩ : ∃ n, inputs.length = n + 1 := ⟨inputs.length - 1, by have := List.length_pos_iff.2 hne; omega⟩
  -- the set that the filter computes, for the winding numbers of the stored meshes
  have hset : ∃ K, IdSet d.info.length (selectFilter op inputs.length) K ∧ ∀ w w' : Nat → Int,
      (∀ i < inputs.length, w i = if flipInput op i then -w' i else w' i) → (K w ↔ InResult op inputs.length fun i => 0 < w' i) := by
    cases op with
    | union =>
      refine ⟨_, .union _ (by simp [hn]), fun w w' hw => ?_⟩
      simp only [flipInput, reduceCtorEq, decide_false, Bool.false_and, Bool.false_eq_true, if_false] at hw
      constructor
      · rintro ⟨i, hi, h⟩
        exact ⟨i, List.mem_range.1 hi, by show 0 < w' i; rw [← hw i (List.mem_range.1 hi)]; exact h⟩
      · rintro ⟨i, hi, h⟩
        exact ⟨i, List.mem_range.2 hi, by rw [hw i hi]; exact h⟩
    | intersection =>
      refine ⟨_, .inter _ (by simp [hn]), fun w w' hw => ?_⟩
      simp only [flipInput, reduceCtorEq, decide_false, Bool.false_and, Bool.false_eq_true, if_false] at hw
      constructor
      · exact fun h i hi => by show 0 < w' i; rw [← hw i hi]; exact h i (List.mem_range.2 hi)
      · exact fun h i hi => by rw [hw i (List.mem_range.1 hi)]; exact h i (List.mem_range.1 hi)
    | difference =>
      have e : selectFilter .difference inputs.length = subtractIds (0 :: (List.range n).map Nat.succ) := by
        unfold selectFilter
        rw [hn, List.range_succ_eq_map]
      rw [e]
      refine ⟨_, .sub _ ?_, fun w w' hw => ?_⟩
      · intro id hid
        obtain ⟨j, hj, rfl⟩ := List.mem_map.1 hid
        have := List.mem_range.1 hj
        exact hknown rfl _ (by omega)
      · have h0 : w 0 = w' 0 := by
          rw [hw 0 (by omega)]; simp [flipInput]
        have h1 : ∀ i < inputs.length, 0 < i → w i = -w' i := by
          intro i hi hp
          rw [hw i hi]; simp [flipInput, hp]
        constructor
        · rintro ⟨a, b⟩
          refine ⟨by show 0 < w' 0; rw [← h0]; exact a, fun i hi hp => ?_⟩
          have := b i (List.mem_map.2 ⟨i - 1, List.mem_range.2 (by omega), by simp; omega⟩)
          have := h1 i hi hp
          omega
        · rintro ⟨a, b⟩
          refine ⟨by rw [h0]; exact a, fun i hi => ?_⟩
          obtain ⟨j, hj, rfl⟩ := List.mem_map.1 hi
          have hj' := List.mem_range.1 hj
          have := b (j + 1) (by omega) (by omega)
          have := h1 (j + 1) (by omega) (by omega)
          show ¬ w (j + 1) < 0
          omega
  obtain ⟨K, hK, hKw⟩ := hset
  obtain ⟨s, M, h1, h2, h3, h4, h8, h5, h6, h7⟩ := C80_ids_partial hR .leaf hK hg htr hclosed hord hmin hT' ho hD
  refine ⟨s, M, h1, h2, h3, h4, h8, h5, h6, fun q q1 q2 u hu u' hu' => ?_⟩
  have hreg : ∀ s ∈ S, q ∉ s.poly.region := by
    intro s hs
    have hid := hS s hs
    have hg := hget s.id hid
    have hm := hmesh s.id _ hg
    have hmem : s.poly ∈ meshOf S s.id := List.mem_map.2 ⟨s, List.mem_filter.2 ⟨hs, by simp⟩, rfl⟩
    obtain ⟨t, ht, hP⟩ := hm.region _ hmem
    rw [hP.region]
    obtain ⟨t0, ht0, rfl⟩ := List.mem_map.1 ht
    have := q1 _ (List.mem_of_getElem? hg) t0 ht0
    unfold oriented
    split
    · rwa [region_flipped]
    · exact this
  have hgen : ∀ i < inputs.length, Generic ((Ts.getD i []).map (oriented (flipInput op i))) q (u' i) := by
    intro i hi
    have := hu' i _ (hget i hi)
    unfold oriented
    split
    · exact generic_flipped this
    · simpa using this
  have hconv : ∀ i < inputs.length, ∀ c ∈ Ts.getD i [], StrictlyConvex c := by
    intro i hi
    have h := (List.forall₂_iff_get.1 hT).2 i hi (by omega)
    have e : Ts.getD i [] = Ts.get ⟨i, by omega⟩ := by
      have := hget i hi
      rw [List.getElem?_eq_getElem (by omega)] at this
      exact (Option.some.inj this).symm
    rw [e]
    exact h.convex
  have hconv' : ∀ i < inputs.length, ∀ c ∈ (Ts.getD i []).map (oriented (flipInput op i)), StrictlyConvex c := by
    intro i hi c hc
    obtain ⟨c', hc', rfl⟩ := List.mem_map.1 hc
    exact oriented_convex (hconv i hi c' hc') _
  have hwind : ∀ i < inputs.length, windingNumber (meshOf S i) q (u' i) = if flipInput op i then -cellWinding (Ts.getD i []) q (u' i) else cellWinding (Ts.getD i []) q (u' i) := by
    intro i hi
    rw [(hmesh i _ (hget i hi)).winding]
    unfold oriented
    split
    · exact winding_flipped (hconv i hi) _ _
    · simp
  rw [h7 q hreg q2 u hu (fun i => if i < inputs.length then u' i else ![0, 0, 1]) ?_]
  · congr 1
    refine propext (hKw _ _ fun i hi => ?_)
    rw [if_pos hi]
    exact hwind i hi
  · intro id
    by_cases hid : id < inputs.length
    · rw [if_pos hid]
      exact (hmesh id _ (hget id hid)).transversal (hconv' id hid) (hgen id hid)
    · rw [if_neg hid, meshOf_above hS (by omega)]
      refine ⟨fun e => ?_, by simp⟩
      have := congrFun e 2
      simp at this

theorem subtract_unknown {c : List Info} (h : c.length ≤ 1) : (subtractIds [0, 1] c).2 = false := by
  match c, h with
  | [], _ => rfl
  | [i], _ => simp [subtractIds, subtractIdsStep]

/-- C83 fails for differences with an empty input: whatever the first input is, the filter returns, and the result is
empty although nothing was subtracted. -/
theorem C83_empty_false {minExponent : Int} {data : PolyData} {T : List Cell} (h : CellData minExponent data T) (choose : Choose) (group : Group) (pfuel fuel : Nat) :
    (∃ t' tr, FilterTraverse false minExponent .difference [data, ⟨[], [], []⟩] choose group pfuel fuel t' tr) ∧
    ∀ aabb t' tr, FilterTraverse aabb minExponent .difference [data, ⟨[], [], []⟩] choose group pfuel fuel t' tr → output tr = [] := by
  obtain ⟨mesh, hmesh, -⟩ := import_mesh h (flipInput .difference 0)
  have hempty : ∀ out, Imports ⟨[], [], []⟩ minExponent (flipInput .difference 1) out ↔ out = [] := by
    intro out
    constructor
    · rintro ⟨pts, polys, strips, -, h2, h3, rfl⟩
      cases h2
      cases h3
      rfl
    · rintro rfl
      exact ⟨[], [], [], rfl, .nil, rfl, rfl⟩
  have key : ∀ d : NodeData, d.info.length ≤ 1 → Bsp.traverse (selectFilter .difference 2) choose group pfuel fuel (.leaf d) = some (.leaf d, []) := by
    intro d hd
    have e : (selectFilter .difference 2 d.info).2 = false := subtract_unknown hd
    unfold Bsp.traverse run
    rw [show (Node.leaf d).data = d from rfl, e]
    rfl
  constructor
  · obtain ⟨t, ht⟩ := addContents_defined (id := 0) mesh {}
    obtain ⟨d, rfl, hl, -⟩ := addContents_info mesh ht
    have hl : d.info.length ≤ 1 := hl
    refine ⟨.leaf d, [], .leaf d, .cons ((hmesh _).2 rfl) ht (.cons ((hempty _).2 rfl) ?_ .nil), key d hl⟩
    show (Node.leaf d).pushToLeaves [] = _
    unfold Node.pushToLeaves
    simp [Node.pushDown, Node.data]
  · rintro aabb t' tr ⟨t, hadd, htr⟩
    cases hadd with
    | cons hm ha hr =>
      obtain ⟨d, rfl, hl, -⟩ := addContents_info _ ha
      cases hr with
      | cons hm' ha' hr' =>
        obtain rfl := (hempty _).1 hm'
        obtain ⟨d', rfl, -, hd⟩ := addContents_info _ ha'
        obtain rfl := hd rfl
        cases hr'
        have htr' : Bsp.traverse (selectFilter .difference 2) choose group pfuel fuel (.leaf d') = some (t', tr) := htr
        rw [key d' hl] at htr'
        cases htr'
        rfl

/-- C83 fails for triangle strips: all polygons made of a strip are copies of its first triangle. -/
theorem C83_strip_false {minExponent : Int} {data : PolyData} {strip : List Nat} (hp : data.polys = []) (hs : data.strips = [strip]) (h3 : 3 ≤ strip.length)
    {flip : Bool} {out : List (Polygon Unit)} (h : Imports data minExponent flip out) : ∃ P, out = List.replicate (strip.length - 2) P := by
  obtain ⟨pts, polys, strips, -, h2, h3', rfl⟩ := h
  rw [hp] at h2
  cases h2
  rw [hs] at h3'
  have same : ∀ i, stripTriangle minExponent flip data strip i = stripTriangle minExponent flip data strip 0 := by
    intro i
    unfold stripTriangle
    simp
  simp only [importStrips, Option.bind_eq_bind, Option.bind_eq_some_iff] at h3'
  obtain ⟨ts, hts, rest, hrest, e⟩ := h3'
  cases hrest
  cases e
  have key : ∀ (l : List Nat) (ts : List Mono.OutPoly), l.mapM (stripTriangle minExponent flip data strip) = some ts → ∀ P ∈ ts, stripTriangle minExponent flip data strip 0 = some P := by
    intro l
    induction l with
    | nil => intro ts h; cases h; simp
    | cons i l ih =>
      intro ts h
      rw [List.mapM_cons] at h
      simp only [Option.bind_eq_bind, Option.bind_eq_some_iff] at h
      obtain ⟨P, hP, rest, hrest, e⟩ := h
      cases e
      intro Q hQ
      rcases List.mem_cons.1 hQ with rfl | hQ
      · rw [← same i]; exact hP
      · exact ih rest hrest Q hQ
  have hlen : ts.length = strip.length - 2 := by
    have : ∀ (l : List Nat) (ts : List Mono.OutPoly), l.mapM (stripTriangle minExponent flip data strip) = some ts → ts.length = l.length := by
      intro l
      induction l with
      | nil => intro ts h; cases h; rfl
      | cons i l ih =>
        intro ts h
        rw [List.mapM_cons] at h
        simp only [Option.bind_eq_bind, Option.bind_eq_some_iff] at h
        obtain ⟨P, hP, rest, hrest, e⟩ := h
        cases e
        simp [ih rest hrest]
    simpa using this _ _ hts
  cases ts with
  | nil => simp at hlen; omega
  | cons P ts =>
    refine ⟨ofOut P, ?_⟩
    rw [← hlen]
    have h0 := key _ _ hts P (by simp)
    simp only [List.nil_append, List.append_nil, List.map_cons]
    rw [List.eq_replicate_iff]
    refine ⟨by simp, fun Q hQ => ?_⟩
    rw [← List.map_cons] at hQ
    obtain ⟨Q', hQ', rfl⟩ := List.mem_map.1 hQ
    have h1 := key _ _ hts Q' hQ'
    rw [h0] at h1
    rw [Option.some.inj h1]

/-! ### Examples -/

/-- Bits of the doubles 0, 1, 4 and 5. -/
def d0 : BitVec 64 := 0
def d1 : BitVec 64 := 0x3FF0000000000000#64
def d4 : BitVec 64 := 0x4010000000000000#64
def d5 : BitVec 64 := 0x4014000000000000#64

/-- A tetrahedron, and one that is moved by 1. -/
def vtkTetra : PolyData := ⟨[(d0, d0, d0), (d4, d0, d0), (d0, d4, d0), (d0, d0, d4)], [[0, 2, 1], [0, 1, 3], [0, 3, 2], [1, 2, 3]], []⟩
def vtkMoved : PolyData := ⟨[(d1, d0, d0), (d5, d0, d0), (d1, d4, d0), (d1, d0, d4)], [[0, 2, 1], [0, 1, 3], [0, 3, 2], [1, 2, 3]], []⟩

/-- The triangles of a tetrahedron with three edges along the axes. -/
def cornerTris (x : ℚ) : List Cell :=
  [[![x, 0, 0], ![x, 4, 0], ![x + 4, 0, 0]], [![x, 0, 0], ![x + 4, 0, 0], ![x, 0, 4]], [![x, 0, 0], ![x, 0, 4], ![x, 4, 0]],
    [![x + 4, 0, 0], ![x, 4, 0], ![x, 0, 4]]]

/-- Triangles are strictly convex. -/
theorem triangle_convex {x y z : Q3} (h : normal3 x y z ≠ 0) : StrictlyConvex [x, y, z] where
  three := by simp
  normal := h
  turns := by
    intro a b c hs
    have := hs.eq_of_length rfl
    cases this
    exact ⟨1, one_pos, by rw [one_smul]; rfl⟩

theorem corner_data (data : PolyData) (x : ℚ) (hs : data.strips = []) (hp : data.polys = [[0, 2, 1], [0, 1, 3], [0, 3, 2], [1, 2, 3]])
    (h : data.points.map (roundedPoint 0) = [some ![x, 0, 0], some ![x + 4, 0, 0], some ![x, 4, 0], some ![x, 0, 4]]) : CellData 0 data (cornerTris x) where
  finite := by
    intro p hm e
    have : none ∈ data.points.map (roundedPoint 0) := List.mem_map.2 ⟨p, hm, e⟩
    rw [h] at this
    simp at this
  strips := hs
  cells := by
    have hpt : ∀ i, pointOf 0 data i = ((data.points.map (roundedPoint 0))[i]?).bind id := by
      intro i
      unfold pointOf
      rw [List.getElem?_map]
      cases data.points[i]? <;> rfl
    have hf : pointOf 0 data = fun i => ([some ![x, 0, 0], some ![x + 4, 0, 0], some ![x, 4, 0], some ![x, 0, 4]][i]?).bind id := by
      funext i; rw [hpt, h]
    rw [hp, hf]
    exact .cons rfl (.cons rfl (.cons rfl (.cons rfl .nil)))
  convex := by
    intro t ht
    simp only [cornerTris, List.mem_cons, List.not_mem_nil, or_false] at ht
    rcases ht with rfl | rfl | rfl | rfl <;> refine triangle_convex fun e => ?_ <;> have e0 := congrFun e 0 <;> have e1 := congrFun e 1 <;> have e2 := congrFun e 2 <;>
      simp [normal3, crossQ, subQ] at e0 e1 e2
  minFree := by
    intro cell hc
    rw [hp] at hc
    simp only [List.mem_cons, List.not_mem_nil, or_false] at hc
    left
    rcases hc with rfl | rfl | rfl | rfl <;> rfl

theorem corner_closed (x : ℚ) : ClosedInput (cornerTris x) := by
  intro a b
  simp only [cornerTris, Vtk.sides, Cell.sides, List.rotate_cons_succ, List.rotate_zero, List.zip_cons_cons, List.zip_nil_left, List.flatMap_cons, List.flatMap_nil, List.append_nil, List.cons_append, List.nil_append, List.count_cons, List.count_nil,
    beq_iff_eq, Prod.mk.injEq]
  generalize (![x, 0, 0] : Q3) = A
  generalize (![x + 4, 0, 0] : Q3) = B
  generalize (![x, 4, 0] : Q3) = C
  generalize (![x, 0, 4] : Q3) = D
  simp only [and_comm]
  ring

theorem vtkTetra_data : CellData 0 vtkTetra (cornerTris 0) := corner_data _ 0 rfl rfl (by decide +kernel)

theorem vtkMoved_data : CellData 0 vtkMoved (cornerTris 1) := corner_data _ 1 rfl rfl (by decide +kernel)
set_option synthInstance.maxSize 1000 in
set_option synthInstance.maxHeartbeats 200000 in
/-- The hypotheses of `C83_filter_partial` are met by the difference of two tetrahedra. -/
theorem vtk_example : ∃ t' tr, List.Forall₂ (CellData 0) [vtkTetra, vtkMoved] [cornerTris 0, cornerTris 1] ∧
    (∀ T ∈ [cornerTris 0, cornerTris 1], ClosedInput T ∧ T ≠ []) ∧ Grouping groupByKey ∧
    FilterTraverse false 0 .difference [vtkTetra, vtkMoved] chooseFirst groupByKey 20 20 t' tr ∧ (∀ Q ∈ output tr, Ordinary Q.plane.n) ∧
    (∀ Q ∈ output tr, ∀ e ∈ Q.edges, NoMin3 e.line.d) ∧ SortOk insertionSort ∧ HeapOk sortHeap ∧ EntrySortOk entrySort ∧ output tr ≠ [] := by
  have h : ((runInputs false 20 0 .difference 0 [vtkTetra, vtkMoved] (.leaf {})).bind fun t => (Bsp.traverse (selectFilter .difference 2) chooseFirst groupByKey 20 20 t).map fun r =>
      ((output r.2).all (fun Q => [0, 1, 2].all fun i => Q.plane.n.comp i ≠ 2 ^ 63 ∧ Q.plane.n.comp i ≠ -2 ^ 63),
        (output r.2).all (fun Q => Q.edges.all fun e => e.line.d.x ≠ -2 ^ 63 ∧ e.line.d.y ≠ -2 ^ 63 ∧ e.line.d.z ≠ -2 ^ 63),
        (output r.2).isEmpty)) = some (true, true, false) := by decide +kernel
  obtain ⟨t, ht, h'⟩ := Option.bind_eq_some_iff.1 h
  obtain ⟨⟨t', tr⟩, hr, e⟩ := Option.map_eq_some_iff.1 h'
  simp only [Prod.mk.injEq] at e
  obtain ⟨e2, e3, e4⟩ := e
  refine ⟨t', tr, .cons vtkTetra_data (.cons vtkMoved_data .nil), ?_, groupByKey_ok, ⟨t, runInputs_sound _ ht, hr⟩, ?_, ?_, insertionSort_ok, sortHeap_ok, entrySort_ok, ?_⟩
  · intro T hT
    simp only [List.mem_cons, List.not_mem_nil, or_false] at hT
    rcases hT with rfl | rfl <;> exact ⟨corner_closed _, by simp [cornerTris]⟩
  · intro Q hQ i
    have := List.all_eq_true.1 e2 Q hQ
    have := List.all_eq_true.1 this i (by fin_cases i <;> simp)
    exact of_decide_eq_true this
  · intro Q hQ e he
    have h3 : e.line.d.x ≠ -2 ^ 63 ∧ e.line.d.y ≠ -2 ^ 63 ∧ e.line.d.z ≠ -2 ^ 63 := of_decide_eq_true (List.all_eq_true.1 (List.all_eq_true.1 e3 Q hQ) e he)
    exact h3
  · intro e
    rw [e] at e4
    cases e4

/-- A cube whose cells are squares. -/
def vtkCube : PolyData :=
  ⟨[(d0, d0, d0), (d4, d0, d0), (d0, d4, d0), (d4, d4, d0), (d0, d0, d4), (d4, d0, d4), (d0, d4, d4), (d4, d4, d4)],
    [[0, 2, 3, 1], [4, 5, 7, 6], [0, 1, 5, 4], [2, 6, 7, 3], [0, 4, 6, 2], [1, 3, 7, 5]], []⟩

/-- The squares. -/
def cubeCells : List Cell :=
  [[![0, 0, 0], ![0, 4, 0], ![4, 4, 0], ![4, 0, 0]], [![0, 0, 4], ![4, 0, 4], ![4, 4, 4], ![0, 4, 4]], [![0, 0, 0], ![4, 0, 0], ![4, 0, 4], ![0, 0, 4]],
    [![0, 4, 0], ![0, 4, 4], ![4, 4, 4], ![4, 4, 0]], [![0, 0, 0], ![0, 0, 4], ![0, 4, 4], ![0, 4, 0]], [![4, 0, 0], ![4, 4, 0], ![4, 4, 4], ![4, 0, 4]]]

theorem parallelogram_convex {a b c d : Q3} (h : normal3 a b c ≠ 0) (h1 : normal3 a b d = normal3 a b c) (h2 : normal3 a c d = normal3 a b c)
    (h3 : normal3 b c d = normal3 a b c) : StrictlyConvex [a, b, c, d] where
  three := by simp
  normal := h
  turns := by
    intro x y z hs
    refine ⟨1, one_pos, ?_⟩
    show _ = (1 : ℚ) • normal3 a b c
    rw [one_smul]
    have : [x, y, z] ∈ [a, b, c, d].sublists' := List.mem_sublists'.2 hs
    simp [List.sublists'_cons] at this
    rcases this with ⟨rfl, rfl, rfl⟩ | ⟨rfl, rfl, rfl⟩ | ⟨rfl, rfl, rfl⟩ | ⟨rfl, rfl, rfl⟩ <;> first | rfl | assumption

theorem vtkCube_data : CellData 0 vtkCube cubeCells where
  finite := by decide +kernel
  strips := rfl
  cells := by
    have h : vtkCube.polys.map (fun cell => cell.map (pointOf 0 vtkCube)) = cubeCells.map (fun c => c.map some) := by decide +kernel
    have : ∀ (A : List (List Nat)) (B : List Cell), A.map (fun cell => cell.map (pointOf 0 vtkCube)) = B.map (fun c => c.map some) →
        List.Forall₂ (fun cell c => cell.map (pointOf 0 vtkCube) = c.map some) A B := by
      intro A
      induction A with
      | nil => intro B h; cases B <;> simp at h ⊢
      | cons a A ih =>
        intro B h
        cases B with
        | nil => simp at h
        | cons b B => simp only [List.map_cons, List.cons.injEq] at h; exact .cons h.1 (ih B h.2)
    exact this _ _ h
  convex := by
    intro c hc
    simp only [cubeCells, List.mem_cons, List.not_mem_nil, or_false] at hc
    rcases hc with rfl | rfl | rfl | rfl | rfl | rfl <;> exact parallelogram_convex (by decide +kernel) (by decide +kernel) (by decide +kernel) (by decide +kernel)
  minFree := by
    have h : (vtkCube.polys.all fun cell => cell.all fun i => cell.all fun j => cell.all fun k => [0, 1, 2].all fun drop =>
        match vtkCube.points[i]?.bind (convertPoint 0), vtkCube.points[j]?.bind (convertPoint 0), vtkCube.points[k]?.bind (convertPoint 0) with
        | some p, some q, some r => decide (p.twistCross drop q r ≠ -2 ^ 63)
        | _, _, _ => true) = true := by decide +kernel
    intro cell hc
    right
    intro i hi j hj k hk p q r hp hq hr drop
    have := List.all_eq_true.1 (List.all_eq_true.1 (List.all_eq_true.1 (List.all_eq_true.1 (List.all_eq_true.1 h cell hc) i hi) j hj) k hk) drop (by fin_cases drop <;> simp)
    rw [hp, hq, hr] at this
    exact of_decide_eq_true this

theorem cube_closed : ClosedInput cubeCells := by
  intro a b
  simp only [cubeCells, Vtk.sides, Cell.sides, List.rotate_cons_succ, List.rotate_zero, List.cons_append, List.nil_append, List.zip_cons_cons, List.zip_nil_left, List.flatMap_cons, List.flatMap_nil,
    List.append_nil, List.count_cons, List.count_nil, beq_iff_eq, Prod.mk.injEq]
  generalize (![0, 0, 0] : Q3) = A
  generalize (![4, 0, 0] : Q3) = B
  generalize (![0, 4, 0] : Q3) = C
  generalize (![4, 4, 0] : Q3) = D
  generalize (![0, 0, 4] : Q3) = E
  generalize (![4, 0, 4] : Q3) = F
  generalize (![0, 4, 4] : Q3) = G
  generalize (![4, 4, 4] : Q3) = H
  simp only [and_comm]
  ring

/-- A square given as a strip of two triangles. -/
def vtkStrip : PolyData := ⟨[(d0, d0, d0), (d4, d0, d0), (d0, d4, d0), (d4, d4, d0)], [], [[0, 1, 2, 3]]⟩

/-- `C83_strip_false` for a square: the fourth corner is on no polygon. -/
example : ∃ out, Imports vtkStrip 0 false out ∧ out.length = 2 ∧ ∀ P ∈ out, ∀ e ∈ P.edges, e.vertex ≠ ⟨⟨4, 4, 0⟩, 1⟩ := by
  have h : (runImport 20 vtkStrip 0 false).map (fun out => (out.length, out.all fun P => P.edges.all fun e => e.vertex ≠ ⟨⟨4, 4, 0⟩, 1⟩)) = some (2, true) := by decide +kernel
  obtain ⟨out, ho, e⟩ := Option.map_eq_some_iff.1 h
  simp only [Prod.mk.injEq] at e
  refine ⟨out, runImport_sound ho, e.1, fun P hP e' he => ?_⟩
  exact of_decide_eq_true (List.all_eq_true.1 (List.all_eq_true.1 e.2 P hP) e' he)

/-- `C83_import_partial` and `C83_winding_partial` for a cube: it is imported as six polygons with four vertices. -/
example : CellData 0 vtkCube cubeCells ∧ ClosedInput cubeCells ∧ ∃ mesh, Imports vtkCube 0 true mesh ∧ mesh.map (·.count) = [4, 4, 4, 4, 4, 4] := by
  refine ⟨vtkCube_data, cube_closed, ?_⟩
  obtain ⟨mesh, h1, h2⟩ := C83_import_partial vtkCube_data true
  refine ⟨mesh, (h1 _).2 rfl, ?_⟩
  have : ∀ {T : List Cell} {M : List (Polygon Unit)}, List.Forall₂ (fun c P => CellOf (if true then c.flipped else c) P) T M → M.map (·.count) = T.map List.length := by
    intro T M h
    induction h with
    | nil => rfl
    | cons h _ ih =>
      rw [List.map_cons, List.map_cons, ih, h.count]
      simp [Cell.flipped]
  exact this h2

/-- `C83_import_partial` and `C83_empty_false` for a tetrahedron. -/
example : CellData 0 vtkTetra (cornerTris 0) ∧ ClosedInput (cornerTris 0) := ⟨vtkTetra_data, corner_closed 0⟩

end Walnut.Props
