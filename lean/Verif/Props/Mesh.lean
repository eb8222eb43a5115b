/-
Properties C33 and C34: centroid and extreme points of a mesh.
-/
import Verif.Poly.MeshProof
import Verif.Props.Rational

namespace Walnut.Props
open Walnut.Geom Walnut.Poly

variable {D : Type}

/-- All vertices of the mesh's polygons. -/
def meshVertices (mesh : List (Polygon D)) : List HP3 := mesh.flatMap Polygon.verts

/-! ### C34 -/

theorem topLt_trans {a b c : Q3} (h1 : ¬ TopLt a b) (h2 : ¬ TopLt b c) : ¬ TopLt a c := by
  unfold TopLt at *
  intro h
  rcases lt_trichotomy (a 2) (b 2) with x | x | x
  · exact h1 (Or.inl x)
  · rcases lt_trichotomy (a 1) (b 1) with y | y | y
    · exact h1 (Or.inr ⟨x, Or.inl y⟩)
    · rcases lt_trichotomy (a 0) (b 0) with z | z | z
      · exact h1 (Or.inr ⟨x, Or.inr ⟨y, z⟩⟩)
      · rw [x, y, z] at h; exact h2 h
      · rw [x, y] at h
        rcases h with h | ⟨h3, h | ⟨h4, h⟩⟩
        · exact h2 (Or.inl h)
        · exact h2 (Or.inr ⟨h3, Or.inl h⟩)
        · exact h2 (Or.inr ⟨h3, Or.inr ⟨h4, z.trans h⟩⟩)
    · rw [x] at h
      rcases h with h | ⟨h3, h | ⟨h4, h⟩⟩
      · exact h2 (Or.inl h)
      · exact h2 (Or.inr ⟨h3, Or.inl (y.trans h)⟩)
      · exact h2 (Or.inr ⟨h3, Or.inl (h4 ▸ y)⟩)
  · rcases h with h | ⟨h3, _⟩
    · exact h2 (Or.inl (x.trans h))
    · exact h2 (Or.inl (h3 ▸ x))

theorem topLt_asym {a b : Q3} (h : TopLt a b) : ¬ TopLt b a := by
  unfold TopLt at *
  rintro g
  rcases h with h | ⟨h1, h | ⟨h2, h⟩⟩ <;> rcases g with g | ⟨g1, g | ⟨g2, g⟩⟩ <;> linarith

/-- C34: `GetTopPoint` returns a vertex that no vertex of the mesh exceeds (in z, then
y, then x); for a mesh without vertices the result is not a finite point. -/
theorem C34_top (mesh : List (Polygon D)) (hw : ∀ p ∈ meshVertices mesh, p.w ≠ 0) :
    (meshVertices mesh = [] → topPoint mesh = ⟨⟨0, 0, 0⟩, 0⟩) ∧
    (meshVertices mesh ≠ [] → topPoint mesh ∈ meshVertices mesh ∧
      ∀ p ∈ meshVertices mesh, ¬ TopLt (topPoint mesh).pt p.pt) := by
  have e : topPoint mesh = (meshVertices mesh).foldl
      (fun top p => if top.w = 0 ∨ HP3.topnessLt top p = true then p else top) ⟨⟨0, 0, 0⟩, 0⟩ := foldl_flat _ _ _ _
  have T : ∀ a b : HP3, a.w ≠ 0 → b.w ≠ 0 → (HP3.topnessLt a b = false ↔ ¬ TopLt a.pt b.pt) := by
    intro a b ha hb
    rw [← C21_topness_lt a b ha hb]; simp
  constructor
  · intro h0; rw [e, h0]; rfl
  · intro hne
    obtain ⟨h1, h2⟩ := fold_max_start (B := HP3.topnessLt)
      (fun a b c ha hb hc h1 h2 => (T a c ha hc).mpr (topLt_trans ((T a b ha hb).mp h1) ((T b c hb hc).mp h2)))
      (fun a b ha hb h => (T b a hb ha).mpr (topLt_asym ((C21_topness_lt a b ha hb).mp h)))
      (fun a ha => (T a a ha ha).mpr (fun h => topLt_asym h h))
      (meshVertices mesh) hw hne ⟨⟨0, 0, 0⟩, 0⟩ rfl
    rw [← e] at h1 h2
    exact ⟨h1, fun p hp => (T _ p (hw _ h1) (hw p hp)).mp (h2 p hp)⟩

/-- C34: `GetFarthest` returns a vertex of maximal distance in the direction; for a
mesh without vertices the result is not a finite point. -/
theorem C34_farthest (mesh : List (Polygon D)) (v : V3) (hw : ∀ p ∈ meshVertices mesh, p.w ≠ 0) :
    (meshVertices mesh = [] → farthest mesh v = ⟨⟨0, 0, 0⟩, 0⟩) ∧
    (meshVertices mesh ≠ [] → farthest mesh v ∈ meshVertices mesh ∧
      ∀ p ∈ meshVertices mesh, dotQ v.q p.pt ≤ dotQ v.q (farthest mesh v).pt) := by
  have e : farthest mesh v = (meshVertices mesh).foldl
      (fun top p => if top.w = 0 ∨ Rational.isLessThan (top.v.dot v) top.w (p.v.dot v) p.w = true then p else top)
      ⟨⟨0, 0, 0⟩, 0⟩ := by
    unfold farthest farthestLoop
    rw [foldl_flat (fun (s : HP3 × Int) p => if s.1.w = 0 ∨ Rational.isLessThan s.2 s.1.w (p.v.dot v) p.w = true then
      (p, p.v.dot v) else s) Polygon.verts mesh]
    exact farthest_fold v _ _ (Or.inl rfl)
  have K : ∀ a : HP3, ((a.v.dot v : Int) : ℚ) / a.w = dotQ v.q a.pt := by
    intro a
    unfold dotQ V3.q HP3.pt V3.dot V3.comp
    push_cast
    ring
  have T : ∀ a b : HP3, a.w ≠ 0 → b.w ≠ 0 →
      (Rational.isLessThan (a.v.dot v) a.w (b.v.dot v) b.w = true ↔ dotQ v.q a.pt < dotQ v.q b.pt) := by
    intro a b ha hb
    rw [C16_is_less_than ha hb, K, K]
  have T' : ∀ a b : HP3, a.w ≠ 0 → b.w ≠ 0 →
      (Rational.isLessThan (a.v.dot v) a.w (b.v.dot v) b.w = false ↔ dotQ v.q b.pt ≤ dotQ v.q a.pt) := by
    intro a b ha hb
    rw [← not_lt, ← T a b ha hb]; simp
  constructor
  · intro h0; rw [e, h0]; rfl
  · intro hne
    obtain ⟨h1, h2⟩ := fold_max_start (B := fun a b => Rational.isLessThan (a.v.dot v) a.w (b.v.dot v) b.w)
      (fun a b c ha hb hc h1 h2 => (T' a c ha hc).mpr (((T' b c hb hc).mp h2).trans ((T' a b ha hb).mp h1)))
      (fun a b ha hb h => (T' b a hb ha).mpr ((T a b ha hb).mp h).le)
      (fun a ha => (T' a a ha ha).mpr le_rfl)
      (meshVertices mesh) hw hne ⟨⟨0, 0, 0⟩, 0⟩ rfl
    rw [← e] at h1 h2
    exact ⟨h1, fun p hp => (T' _ p (hw _ h1) (hw p hp)).mp (h2 p hp)⟩

/-! ### C33 -/

/-- The directed edges of all polygons, as pairs of points. -/
def meshEdges (mesh : List (Polygon D)) : List (Q3 × Q3) :=
  mesh.flatMap fun P => loopEdges (P.verts.map HP3.pt)

/-- The mesh is the border of a solid: every directed edge occurs as often as the
opposite one. -/
def ClosedMesh (mesh : List (Polygon D)) : Prop := (meshEdges mesh).Perm ((meshEdges mesh).map Prod.swap)

/-- The triangles of the mesh. -/
def meshTriangles (mesh : List (Polygon D)) : List (HP3 × HP3 × HP3) := mesh.flatMap fun P => fan P.verts

/-- Signed volume of the tetrahedron with apex `o` over the triangle `a b c`. -/
def tetVolume (o a b c : Q3) : ℚ :=
  det3 (fun k => a k - o k) (fun k => b k - o k) (fun k => c k - o k) / 6

/-- The volume of the solid: the tetrahedra from an apex to all triangles. -/
def meshVolume (o : Q3) (mesh : List (Polygon D)) : ℚ := triSum (tetVolume o) (meshTriangles mesh)

/-- The first moment of the solid: the volume of the tetrahedra times their
centroids. -/
def meshMoment (o : Q3) (mesh : List (Polygon D)) (k : Fin 3) : ℚ :=
  triSum (fun a b c => tetVolume o a b c * ((o k + a k + b k + c k) / 4)) (meshTriangles mesh)

theorem closed_zero {mesh : List (Polygon D)} (hc : ClosedMesh mesh) (f : Q3 → Q3 → ℚ) (h0 : ∀ a b, f a b = -f b a) :
    triSum (fun a b c => f a b + f b c + f c a) (meshTriangles mesh) = 0 := by
  unfold meshTriangles
  rw [triSum_flat]
  have : (mesh.map fun P => triSum (fun a b c => f a b + f b c + f c a) (fan P.verts)).sum =
      ((meshEdges mesh).map fun e => f e.1 e.2).sum := by
    unfold meshEdges
    clear hc
    induction mesh with
    | nil => rfl
    | cons P mesh ih => rw [List.map_cons, List.sum_cons, ih, List.flatMap_cons, List.map_append, List.sum_append, fan_edges f h0]
  rw [this]
  have e1 := (hc.map fun e => f e.1 e.2).sum_eq
  rw [List.map_map] at e1
  have e2 : ∀ l : List (Q3 × Q3), (l.map ((fun e => f e.1 e.2) ∘ Prod.swap)).sum = -(l.map fun e => f e.1 e.2).sum := by
    intro l
    induction l with
    | nil => simp
    | cons e l ih => simp only [List.map_cons, List.sum_cons, ih, Function.comp, Prod.fst_swap, Prod.snd_swap]; rw [h0 e.2 e.1]; ring
  rw [e2] at e1
  linarith

/-- C33: the volume of a closed mesh does not depend on the apex. -/
theorem C33_volume_apex {mesh : List (Polygon D)} (hc : ClosedMesh mesh) (o : Q3) :
    meshVolume o mesh = triSum det3 (meshTriangles mesh) / 6 := by
  have e := closed_zero hc (fun a b => -(dotQ o (crossQ a b)) / 6)
    (fun a b => by simp [dotQ, crossQ]; ring)
  have h : ∀ a b c, tetVolume o a b c = 1 / 6 * det3 a b c +
      (-(dotQ o (crossQ a b)) / 6 + -(dotQ o (crossQ b c)) / 6 + -(dotQ o (crossQ c a)) / 6) := by
    intro a b c
    simp [tetVolume, det3, dotQ, crossQ]; ring
  unfold meshVolume
  rw [show tetVolume o = fun a b c => 1 / 6 * det3 a b c +
    (-(dotQ o (crossQ a b)) / 6 + -(dotQ o (crossQ b c)) / 6 + -(dotQ o (crossQ c a)) / 6) from by
      funext a b c; exact h a b c]
  rw [triSum_add, e, triSum_mul]
  ring

theorem moment_apex {mesh : List (Polygon D)} (hc : ClosedMesh mesh) (o : Q3) (k : Fin 3) :
    meshMoment o mesh k = triSum (fun a b c => momTerm a b c k) (meshTriangles mesh) / 48 := by
  have e := closed_zero hc (fun a b => -(momTerm o a b k) / 48)
    (fun a b => by
      rcases fin3 k with rfl | rfl | rfl <;> simp [momTerm, areaVec, crossQ] <;> ring)
  have h : ∀ a b c, tetVolume o a b c * ((o k + a k + b k + c k) / 4) = 1 / 48 * momTerm a b c k +
      (-(momTerm o a b k) / 48 + -(momTerm o b c k) / 48 + -(momTerm o c a k) / 48) := by
    intro a b c
    rcases fin3 k with rfl | rfl | rfl <;> simp [tetVolume, det3, dotQ, momTerm, areaVec, crossQ] <;> ring
  unfold meshMoment
  simp only [h]
  rw [triSum_add, e, triSum_mul]
  ring

/-- C33: `GetCentroid` of a closed mesh returns the centroid of the solid it bounds:
the average of the centroids of tetrahedra from any apex, weighted by their signed
volumes.  The result is not a finite point exactly when the volume is 0. -/
theorem C33_centroid (mesh : List (Polygon D)) (hw : ∀ p ∈ meshVertices mesh, p.w ≠ 0) (hc : ClosedMesh mesh) {c : HP3}
    (h : meshCentroid mesh = some c) (o : Q3) :
    (c.w = 0 ↔ meshVolume o mesh = 0) ∧
    (c.w ≠ 0 → ∀ k, c.pt k = meshMoment o mesh k / meshVolume o mesh) := by
  rw [C33_volume_apex hc o]
  simp only [moment_apex hc o]
  have hf : ∀ t ∈ meshTriangles mesh, FiniteTri t := by
    intro t ht
    obtain ⟨P, hP, ht⟩ := List.mem_flatMap.mp ht
    exact fan_finite (fun p hp => hw p (List.mem_flatMap.mpr ⟨P, hP, hp⟩)) t ht
  unfold meshCentroid at h
  simp only [Option.bind_eq_bind, Option.bind_eq_some_iff] at h
  obtain ⟨s, hs, h⟩ := h
  obtain ⟨inv, _, is, hi, hF⟩ := denomLoop_spec (meshTriangles mesh) hs
    ⟨rfl, fun e he => by simp at he, one_ne_zero⟩ hf
  split at h
  · cases h
  · simp only [Option.bind_eq_some_iff, Option.pure_def, Option.some.injEq] at h
    obtain ⟨t, ht, rfl⟩ := h
    rw [List.nil_append] at hi
    obtain ⟨r, e, r1, r2⟩ := centroidSum_spec (meshTriangles mesh) is (0, V3.zero) hF hf
    rw [hi] at ht
    obtain rfl : r = t := by
      have := e.symm.trans ht
      exact Option.some.inj this
    rw [multiples_prod]
    have L0 : contrib s.values ≠ 0 := by rw [← inv.lcm]; exact inv.ne
    have L0q : (contrib s.values : ℚ) ≠ 0 := by exact_mod_cast L0
    have r1' : (r.1 : ℚ) = contrib s.values * triSum det3 (meshTriangles mesh) := by simpa using r1
    have r2' : ∀ k, (r.2.comp k : ℚ) = (contrib s.values : ℚ) ^ 3 * triSum (fun a b c => momTerm a b c k) (meshTriangles mesh) := by
      intro k
      rw [r2 k]
      have : V3.zero.comp k = 0 := by rcases fin3 k with rfl | rfl | rfl <;> rfl
      rw [this]; simp
    constructor
    · simp only
      constructor
      · intro h0
        have : r.1 = 0 := by
          rcases mul_eq_zero.mp h0 with h0 | h0
          · rcases mul_eq_zero.mp h0 with h0 | h0
            · omega
            · exact absurd h0 L0
          · exact absurd h0 L0
        rw [this] at r1'
        simp only [Int.cast_zero] at r1'
        rw [(mul_eq_zero.mp r1'.symm).resolve_left L0q]; simp
      · intro h0
        have : triSum det3 (meshTriangles mesh) = 0 := by linarith
        rw [this, mul_zero] at r1'
        have : r.1 = 0 := by exact_mod_cast r1'
        rw [this]; ring
    · intro h0 k
      have hV : triSum det3 (meshTriangles mesh) ≠ 0 := by
        intro hv
        apply h0
        rw [hv, mul_zero] at r1'
        have : r.1 = 0 := by exact_mod_cast r1'
        simp only [this]; ring
      unfold HP3.pt
      simp only
      rw [r2' k]
      push_cast
      rw [r1']
      generalize triSum (fun a b c => momTerm a b c k) (meshTriangles mesh) = M
      generalize triSum det3 (meshTriangles mesh) = V at hV
      field_simp
      ring

/-- C33: with positive denominators the computation is defined; in particular its
internal assertion never fails. -/
theorem C33_defined (mesh : List (Polygon D)) (hw : ∀ p ∈ meshVertices mesh, 0 < p.w) : ∃ c, meshCentroid mesh = some c := by
  have hp : ∀ t ∈ meshTriangles mesh, 0 < t.1.w ∧ 0 < t.2.1.w ∧ 0 < t.2.2.w := by
    intro t ht
    obtain ⟨P, hP, ht⟩ := List.mem_flatMap.mp ht
    exact fan_positive (fun p hp => hw p (List.mem_flatMap.mpr ⟨P, hP, hp⟩)) t ht
  have hf : ∀ t ∈ meshTriangles mesh, FiniteTri t := fun t ht => ⟨(hp t ht).1.ne', (hp t ht).2.1.ne', (hp t ht).2.2.ne'⟩
  obtain ⟨s, hs⟩ := denomLoop_defined (meshTriangles mesh) (s := ⟨[], [], [], 1⟩) hp one_pos
  obtain ⟨inv, _, is, hi, hF⟩ := denomLoop_spec (meshTriangles mesh) hs
    ⟨rfl, fun e he => by simp at he, one_ne_zero⟩ hf
  rw [List.nil_append] at hi
  obtain ⟨r, e, _⟩ := centroidSum_spec (meshTriangles mesh) is (0, V3.zero) hF hf
  unfold meshCentroid
  have hs' : denomLoop (mesh.flatMap fun P => fan P.verts) ⟨[], [], [], 1⟩ = some s := hs
  have e' : centroidSum (multiples s.values).1 (mesh.flatMap fun P => fan P.verts) is (0, V3.zero) = some r := e
  simp only [hs', Option.bind_eq_bind, Option.bind_some, multiples_prod, inv.lcm, ne_eq, not_true, if_false, hi, e']
  exact ⟨_, rfl⟩

/-! ### Example: a tetrahedron -/

/-- A triangle without lines. -/
def exTri (a b c : HP3) : Polygon Unit :=
  ⟨⟨⟨0, 0, 1⟩, 0⟩, 2, [⟨a, ⟨⟨0, 0, 0⟩, ⟨0, 0, 0⟩⟩, ()⟩, ⟨b, ⟨⟨0, 0, 0⟩, ⟨0, 0, 0⟩⟩, ()⟩, ⟨c, ⟨⟨0, 0, 0⟩, ⟨0, 0, 0⟩⟩, ()⟩]⟩

/-- The corners of the tetrahedron. -/
def exPt (i : Nat) : HP3 :=
  match i with
  | 0 => ⟨⟨0, 0, 0⟩, 1⟩
  | 1 => ⟨⟨4, 0, 0⟩, 1⟩
  | 2 => ⟨⟨0, 8, 0⟩, 2⟩
  | _ => ⟨⟨0, 0, 12⟩, 3⟩

/-- A tetrahedron with its faces oriented outwards. -/
def exTet : List (Polygon Unit) :=
  [exTri (exPt 0) (exPt 2) (exPt 1), exTri (exPt 0) (exPt 1) (exPt 3), exTri (exPt 1) (exPt 2) (exPt 3),
   exTri (exPt 2) (exPt 0) (exPt 3)]

theorem exTet_closed : ClosedMesh exTet := by
  have h : meshEdges exTet = ([(0, 2), (2, 1), (1, 0), (0, 1), (1, 3), (3, 0), (1, 2), (2, 3), (3, 1), (2, 0), (0, 3), (3, 2)] :
      List (Nat × Nat)).map fun e => ((exPt e.1).pt, (exPt e.2).pt) := by
    simp [meshEdges, exTet, exTri, Polygon.verts, loopEdges]
  unfold ClosedMesh
  rw [h, List.map_map]
  have p : ([(0, 2), (2, 1), (1, 0), (0, 1), (1, 3), (3, 0), (1, 2), (2, 3), (3, 1), (2, 0), (0, 3), (3, 2)] :
      List (Nat × Nat)).Perm (([(0, 2), (2, 1), (1, 0), (0, 1), (1, 3), (3, 0), (1, 2), (2, 3), (3, 1), (2, 0), (0, 3), (3, 2)] :
      List (Nat × Nat)).map Prod.swap) := by decide
  have := p.map fun e => ((exPt e.1).pt, (exPt e.2).pt)
  rw [List.map_map] at this
  exact this

example : ∃ c, meshCentroid exTet = some c ∧ c.w ≠ 0 ∧ c.pt 2 = 1 := by
  have hw : ∀ p ∈ meshVertices exTet, 0 < p.w := by decide
  obtain ⟨c, hc⟩ := C33_defined exTet hw
  obtain ⟨h1, h2⟩ := C33_centroid exTet (fun p hp => (hw p hp).ne') exTet_closed hc (exPt 0).pt
  have hV : meshVolume (exPt 0).pt exTet = 32 / 3 := by
    norm_num [meshVolume, meshTriangles, exTet, exTri, Polygon.verts, fan, triSum, tetVolume, det3, dotQ, crossQ, HP3.pt, exPt, V3.comp]
  have hM : meshMoment (exPt 0).pt exTet 2 = 32 / 3 := by
    norm_num [meshMoment, meshTriangles, exTet, exTri, Polygon.verts, fan, triSum, tetVolume, det3, dotQ, crossQ, HP3.pt, exPt, V3.comp]
  have hw0 : c.w ≠ 0 := fun h0 => by have := h1.mp h0; rw [hV] at this; norm_num at this
  refine ⟨c, hc, hw0, ?_⟩
  rw [h2 hw0 2, hV, hM]; norm_num

example : farthest exTet ⟨1, 1, 2⟩ = ⟨⟨0, 0, 12⟩, 3⟩ := by decide
example : topPoint exTet = ⟨⟨0, 0, 12⟩, 3⟩ := by decide

/-! ### Negative denominators -/

/-- The corners of a tetrahedron with large negative denominators. -/
def badPt (i : Nat) : HP3 :=
  match i with
  | 0 => ⟨⟨0, 0, 0⟩, -(2 ^ 63 + 1)⟩
  | 1 => ⟨⟨4, 0, 0⟩, 1⟩
  | 2 => ⟨⟨0, 4, 0⟩, 1⟩
  | _ => ⟨⟨0, 0, -2 ^ 65⟩, -2 ^ 63⟩

/-- The tetrahedron. -/
def badTet : List (Polygon Unit) :=
  [exTri (badPt 0) (badPt 2) (badPt 1), exTri (badPt 1) (badPt 2) (badPt 3), exTri (badPt 0) (badPt 1) (badPt 3),
   exTri (badPt 2) (badPt 0) (badPt 3)]

/-- C33_defined is false without the sign condition: the centroid of a tetrahedron with the
corners (0, 0, 0), (4, 0, 0), (0, 4, 0), (0, 0, 4) is undefined for some denominators,
because `-2^63 % -1` is computed. -/
theorem C33_undefined : ClosedMesh badTet ∧ (∀ p ∈ meshVertices badTet, p.w ≠ 0) ∧
    (∀ p ∈ meshVertices badTet, ∀ k, p.pt k = 0 ∨ p.pt k = 4) ∧ meshCentroid badTet = none := by
  refine ⟨?_, by decide +kernel, by decide +kernel, by decide +kernel⟩
  have h : meshEdges badTet = ([(0, 2), (2, 1), (1, 0), (1, 2), (2, 3), (3, 1), (0, 1), (1, 3), (3, 0), (2, 0), (0, 3), (3, 2)] :
      List (Nat × Nat)).map fun e => ((badPt e.1).pt, (badPt e.2).pt) := by
    simp [meshEdges, badTet, exTri, Polygon.verts, loopEdges]
  unfold ClosedMesh
  rw [h, List.map_map]
  have p : ([(0, 2), (2, 1), (1, 0), (1, 2), (2, 3), (3, 1), (0, 1), (1, 3), (3, 0), (2, 0), (0, 3), (3, 2)] :
      List (Nat × Nat)).Perm (([(0, 2), (2, 1), (1, 0), (1, 2), (2, 3), (3, 1), (0, 1), (1, 3), (3, 0), (2, 0), (0, 3), (3, 2)] :
      List (Nat × Nat)).map Prod.swap) := by decide
  have := p.map fun e => ((badPt e.1).pt, (badPt e.2).pt)
  rw [List.map_map] at this
  exact this

end Walnut.Props
