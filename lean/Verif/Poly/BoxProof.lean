/- Polygons over rectangles. -/
import Verif.Poly.Box
import Verif.Poly.SplitProof
import Verif.Props.Boxes
import Verif.Props.Split

namespace Walnut.Poly
open Walnut.Geom Walnut.Props

variable {D : Type}

/-- Corner `k` of the rectangle `[x0, x1] × [y0, y1]`, counter-clockwise from the lower left. -/
def rectX (x0 x1 : ℚ) (k : Nat) : ℚ := if k % 4 = 0 ∨ k % 4 = 3 then x0 else x1
def rectY (y0 y1 : ℚ) (k : Nat) : ℚ := if k % 4 = 0 ∨ k % 4 = 1 then y0 else y1

/-- The vertices of the polygon are over the corners of the rectangle, starting with corner `r`. -/
structure OverRect (P : Polygon D) (x0 x1 y0 y1 : ℚ) (r : Nat) : Prop where
  count : P.count = 4
  drop : P.plane.n.comp P.drop ≠ 0
  finite : ∀ k < 4, (P.vertexD k).w ≠ 0
  onPlane : ∀ k < 4, P.plane.side (P.pt k) = 0
  x : ∀ k < 4, px P.drop (P.pt k) = rectX x0 x1 (k + r)
  y : ∀ k < 4, py P.plane P.drop (P.pt k) = rectY y0 y1 (k + r)
  hx : x0 < x1
  hy : y0 < y1

variable {P : Polygon D} {x0 x1 y0 y1 : ℚ} {r : Nat}

theorem lt4 {k : Nat} (h : k < 4) : k = 0 ∨ k = 1 ∨ k = 2 ∨ k = 3 := by omega

theorem OverRect.reduce (h : OverRect P x0 x1 y0 y1 r) : OverRect P x0 x1 y0 y1 (r % 4) := by
  refine ⟨h.count, h.drop, h.finite, h.onPlane, fun k hk => ?_, fun k hk => ?_, h.hx, h.hy⟩
  · rw [h.x k hk]; unfold rectX; rw [Nat.add_mod_mod]
  · rw [h.y k hk]; unfold rectY; rw [Nat.add_mod_mod]

theorem OverRect.convex2 (h : OverRect P x0 x1 y0 y1 r) :
    Convex2 P.count (fun i => px P.drop (P.pt i)) (fun i => py P.plane P.drop (P.pt i)) := by
  have h' := h.reduce
  have hr : r % 4 < 4 := Nat.mod_lt _ (by decide)
  generalize r % 4 = s at h' hr
  clear h
  rename' h' => h
  have dx := sub_pos.2 h.hx
  have dy := sub_pos.2 h.hy
  have pos := mul_pos dx dy
  rw [h.count]
  refine ⟨?_, ?_, 0, 1, 2, by decide, by decide, by decide, ?_⟩
  · intro i j k h1 h2 h3
    unfold area2
    simp only
    rw [h.x i (by omega), h.x j (by omega), h.x k h3, h.y i (by omega), h.y j (by omega), h.y k h3]
    rcases lt4 h3 with rfl | rfl | rfl | rfl <;> rcases lt4 (show j < 4 by omega) with rfl | rfl | rfl | rfl <;>
      rcases lt4 (show i < 4 by omega) with rfl | rfl | rfl | rfl <;> (first | omega | skip) <;>
      rcases lt4 hr with rfl | rfl | rfl | rfl <;> simp [rectX, rectY] <;> nlinarith
  · intro i j h1 h2
    rw [h.x i (by omega), h.x j h2, h.y i (by omega), h.y j h2]
    have e1 := h.hx.ne
    have e2 := h.hy.ne
    rcases lt4 h2 with rfl | rfl | rfl | rfl <;> rcases lt4 (show i < 4 by omega) with rfl | rfl | rfl | rfl <;> (first | omega | skip) <;>
      rcases lt4 hr with rfl | rfl | rfl | rfl <;> simp [rectX, rectY, e1, e2, e1.symm, e2.symm]
  · unfold area2
    simp only
    rw [h.x 0 (by omega), h.x 1 (by omega), h.x 2 (by omega), h.y 0 (by omega), h.y 1 (by omega), h.y 2 (by omega)]
    rcases lt4 hr with rfl | rfl | rfl | rfl <;> simp [rectX, rectY] <;> nlinarith

theorem OverRect.isConvex (h : OverRect P x0 x1 y0 y1 r)
    (line : ∀ k < 4, EdgeLine (P.lineD k) (P.pt k) (P.pt ((k + 1) % 4))) : IsConvexPolygon P := by
  refine isConvex_of_convex2 h.drop ?_ ?_ ?_ h.convex2 <;> rw [h.count]
  exacts [h.finite, h.onPlane, line]

/-- The points of the polygon are those of the plane over the rectangle. -/
theorem OverRect.region (h : OverRect P x0 x1 y0 y1 r) :
    P.region = {q | P.plane.side q = 0 ∧ (x0 ≤ px P.drop q ∧ px P.drop q ≤ x1) ∧ y0 ≤ py P.plane P.drop q ∧ py P.plane P.drop q ≤ y1} := by
  have affx : Affine fun q => px P.drop q := by intro a b x y _; simp [px]
  have affy : Affine fun q => py P.plane P.drop q := by intro a b x y _; simp [py]; ring
  have affx' : ∀ (a b : ℚ) (x y : Q3), a + b = 1 → px P.drop (a • x + b • y) = a * px P.drop x + b * px P.drop y := affx
  have affy' : ∀ (a b : ℚ) (x y : Q3), a + b = 1 → py P.plane P.drop (a • x + b • y) = a * py P.plane P.drop x + b * py P.plane P.drop y := affy
  have shift : ∀ {φ : Q3 → ℚ} (_ : Affine φ) (c : ℚ), Affine fun q => φ q - c := by
    intro φ hφ c a b x y hab
    simp only [hφ a b x y hab]
    linear_combination c * hab
  apply Set.Subset.antisymm
  · apply convexHull_min
    · rintro q ⟨i, hi, rfl⟩
      rw [h.count] at hi
      refine ⟨h.onPlane i hi, ?_, ?_⟩
      · rw [h.x i hi]; unfold rectX; have := h.hx; split <;> constructor <;> linarith
      · rw [h.y i hi]; unfold rectY; have := h.hy; split <;> constructor <;> linarith
    · have c1 := (affine_side P.plane).convex_le.inter (affine_side P.plane).convex_ge
      have c2 := ((shift affx x0).convex_ge).inter ((shift affx x1).convex_le)
      have c3 := ((shift affy y0).convex_ge).inter ((shift affy y1).convex_le)
      have := c1.inter (c2.inter c3)
      refine Eq.mp (congrArg (Convex ℚ) (Set.ext fun q => ?_)) this
      simp only [Set.mem_ofPred_eq, Set.mem_inter_iff, sub_nonneg, sub_nonpos]
      constructor
      · rintro ⟨a, b⟩; exact ⟨le_antisymm a.1 a.2, b⟩
      · rintro ⟨a, b⟩; exact ⟨⟨a.le, a.ge⟩, b⟩
  · rintro q ⟨q0, ⟨qx0, qx1⟩, qy0, qy1⟩
    -- the vertex over a corner
    have corner : ∀ c < 4, ∃ v ∈ P.region, P.plane.side v = 0 ∧ px P.drop v = rectX x0 x1 c ∧ py P.plane P.drop v = rectY y0 y1 c := by
      intro c hc
      have hm : (c + 3 * r) % 4 < 4 := Nat.mod_lt _ (by decide)
      have hk : ((c + 3 * r) % 4 + r) % 4 = c % 4 := by omega
      refine ⟨P.pt ((c + 3 * r) % 4), subset_convexHull _ _ ⟨_, by rw [h.count]; exact hm, rfl⟩, h.onPlane _ hm, ?_, ?_⟩
      · rw [h.x _ hm]; unfold rectX; rw [hk]
      · rw [h.y _ hm]; unfold rectY; rw [hk]
    obtain ⟨a, a1, a2, a3, a4⟩ := corner 0 (by decide)
    obtain ⟨b, b1, b2, b3, b4⟩ := corner 1 (by decide)
    obtain ⟨c, c1, c2, c3, c4⟩ := corner 2 (by decide)
    obtain ⟨d, d1, d2, d3, d4⟩ := corner 3 (by decide)
    simp [rectX, rectY] at a3 a4 b3 b4 c3 c4 d3 d4
    have dx := sub_pos.2 h.hx
    have dy := sub_pos.2 h.hy
    obtain ⟨s, hs⟩ : ∃ s, s = (px P.drop q - x0) / (x1 - x0) := ⟨_, rfl⟩
    obtain ⟨t, ht⟩ : ∃ t, t = (py P.plane P.drop q - y0) / (y1 - y0) := ⟨_, rfl⟩
    have s0 : 0 ≤ s := by rw [hs]; exact div_nonneg (by linarith) dx.le
    have s1 : s ≤ 1 := by rw [hs, div_le_one dx]; linarith
    have t0 : 0 ≤ t := by rw [ht]; exact div_nonneg (by linarith) dy.le
    have t1 : t ≤ 1 := by rw [ht, div_le_one dy]; linarith
    have sx : s * (x1 - x0) = px P.drop q - x0 := by rw [hs]; exact div_mul_cancel₀ _ dx.ne'
    have ty : t * (y1 - y0) = py P.plane P.drop q - y0 := by rw [ht]; exact div_mul_cancel₀ _ dy.ne'
    have cv : Convex ℚ P.region := convex_convexHull ℚ _
    have u1 : (1 - s) • a + s • b ∈ P.region := cv a1 b1 (by linarith) s0 (by ring)
    have u2 : (1 - s) • d + s • c ∈ P.region := cv d1 c1 (by linarith) s0 (by ring)
    have u3 := cv u1 u2 (show 0 ≤ 1 - t by linarith) t0 (by ring)
    have e : q = (1 - t) • ((1 - s) • a + s • b) + t • ((1 - s) • d + s • c) := by
      apply plane_ext P.plane h.drop q0
      · rw [affine_side P.plane _ _ _ _ (by ring), affine_side P.plane _ _ _ _ (by ring), affine_side P.plane _ _ _ _ (by ring), a2, b2, c2, d2]
        ring
      · rw [affx' _ _ _ _ (by ring), affx' _ _ _ _ (by ring), affx' _ _ _ _ (by ring), a3, b3, c3, d3]
        linear_combination -sx
      · rw [affy' _ _ _ _ (by ring), affy' _ _ _ _ (by ring), affy' _ _ _ _ (by ring), a4, b4, c4, d4]
        linear_combination -ty
    rw [e]
    exact u3

/-! ### The parallelogram -/

/-- The common point of three planes. -/
theorem three_planes (a b c : HS3) (hw : c.n.dot (a.n.cross b.n) ≠ 0) :
    ((PL.ofPlanes a b).intersect c).w ≠ 0 ∧ a.side ((PL.ofPlanes a b).intersect c).pt = 0 ∧
      b.side ((PL.ofPlanes a b).intersect c).pt = 0 ∧ c.side ((PL.ofPlanes a b).intersect c).pt = 0 := by
  have hq : ((c.n.dot (a.n.cross b.n) : Int) : ℚ) ≠ 0 := by exact_mod_cast hw
  simp only [V3.dot, V3.cross] at hq
  push_cast at hq
  obtain ⟨W, hW⟩ : ∃ W : ℚ, W = (c.n.x : ℚ) * (a.n.y * b.n.z - a.n.z * b.n.y) + c.n.y * (a.n.z * b.n.x - a.n.x * b.n.z) +
    c.n.z * (a.n.x * b.n.y - a.n.y * b.n.x) := ⟨_, rfl⟩
  rw [← hW] at hq
  have hw' : (((PL.ofPlanes a b).intersect c).w : ℚ) = W := by
    rw [hW]; simp [PL.ofPlanes, PL.intersect, V3.dot, V3.cross]
  refine ⟨hw, ?_, ?_, ?_⟩ <;> rw [HS3.side_eq] <;> simp only [HP3.pt, hw'] <;> field_simp <;>
    simp [PL.ofPlanes, PL.intersect, V3.cross, V3.add, V3.scale, V3.dot, V3.sub, V3.comp] <;> rw [hW] <;> ring

/-- The line of two planes runs from `p` to `q` if it does so over the plane of the coordinates that are kept. -/
theorem edgeLine_ofPlanes {a b : HS3} {i : Fin 3} (hi : a.n.comp i ≠ 0) (hn : a.n.cross b.n ≠ ⟨0, 0, 0⟩) {p q : Q3} (ap : a.side p = 0)
    (bp : b.side p = 0) (aq : a.side q = 0) {s : ℚ} (hs : 0 < s) (hx : px i (PL.ofPlanes a b).d.q = s * (px i q - px i p))
    (hy : py a i (PL.ofPlanes a b).d.q = s * (py a i q - py a i p)) : EdgeLine (PL.ofPlanes a b) p q := by
  refine ⟨((C26_of_planes a b hn p).mp ⟨ap, bp⟩).2, s, hs, fun j => ?_⟩
  refine congrFun (?_ : (PL.ofPlanes a b).d.q = fun j => s * (q j - p j)) j
  refine vec_ext a hi ?_ ?_ ?_ ?_
  · simp [dotQ, PL.ofPlanes, V3.cross]; ring
  · rw [HS3.side_eq] at ap aq
    simp only [dotQ, V3.q_zero, V3.q_one, V3.q_two]
    linear_combination s * (aq - ap)
  · rw [hx]; simp only [px]
  · rw [hy]; simp only [py]; ring

/-- What the planes of the parallelogram are. -/
theorem sidePlane_side (b : AABB) (i : Fin 3) (j : Fin 4) (q : Q3) : (sidePlane b i j).side q =
    match j with
    | 0 => b.lo.comp (i + 1) - b.den * q (i + 1)
    | 1 => b.lo.comp (i + 2) - b.den * q (i + 2)
    | 2 => b.den * q (i + 1) - b.hi.comp (i + 1)
    | 3 => b.den * q (i + 2) - b.hi.comp (i + 2) := by
  obtain rfl | rfl | rfl := fin3 i <;> fin_cases j <;>
    simp [sidePlane, HS3.side_eq, V3.neg, V3.set, V3.zero, V3.comp, fin3_eqs] <;> ring

theorem sidePlane_dot (b : AABB) (n : V3) (i : Fin 3) (j k : Fin 4) : (sidePlane b i k).n.dot (n.cross (sidePlane b i j).n) =
    match j, k with
    | 0, 1 | 1, 2 | 2, 3 | 3, 0 => n.comp i * b.den * b.den
    | 1, 0 | 2, 1 | 3, 2 | 0, 3 => -(n.comp i * b.den * b.den)
    | _, _ => 0 := by
  obtain rfl | rfl | rfl := fin3 i <;> fin_cases j <;> fin_cases k <;>
    simp [sidePlane, V3.dot, V3.cross, V3.neg, V3.set, V3.zero, V3.comp, fin3_eqs] <;> ring

/-- The direction of an edge of the parallelogram. -/
theorem sidePlane_dir (b : AABB) (pl : HS3) (i : Fin 3) (j : Fin 4) :
    px i (PL.ofPlanes pl (sidePlane b i j)).d.q = (match j with
      | 0 => 0 | 1 => pl.n.comp i * b.den | 2 => 0 | 3 => -(pl.n.comp i * b.den) : ℚ) ∧
    py pl i (PL.ofPlanes pl (sidePlane b i j)).d.q = sg pl i * (match j with
      | 0 => -(pl.n.comp i * b.den) | 1 => 0 | 2 => pl.n.comp i * b.den | 3 => 0 : ℚ) := by
  unfold px py
  obtain rfl | rfl | rfl := fin3 i <;> fin_cases j <;>
    simp [sidePlane, PL.ofPlanes, V3.cross, V3.neg, V3.set, V3.zero, V3.q, V3.comp, fin3_eqs]

theorem par_vertex (d0 : D) (b : AABB) (pl : HS3) (i : Fin 3) (k : Fin 4) : (parallelogram d0 b pl i).vertexD k =
    (PL.ofPlanes pl (sidePlane b i (sideIndex (decide (0 ≤ pl.n.comp i)) k))).intersect
      (sidePlane b i (sideIndex (decide (0 ≤ pl.n.comp i)) (k - 1))) := by fin_cases k <;> rfl

theorem par_line (d0 : D) (b : AABB) (pl : HS3) (i : Fin 3) (k : Fin 4) : (parallelogram d0 b pl i).lineD k =
    PL.ofPlanes pl (sidePlane b i (sideIndex (decide (0 ≤ pl.n.comp i)) k)) := by fin_cases k <;> rfl

/-- The coordinates of vertex `k`. -/
def parX (b : AABB) (i : Fin 3) (k : Fin 4) : ℚ :=
  match k with
  | 0 | 1 => b.lo.comp (i + 1) / b.den
  | 2 | 3 => b.hi.comp (i + 1) / b.den

def parY (b : AABB) (i : Fin 3) (pos : Bool) (k : Fin 4) : ℚ :=
  match k with
  | 0 | 3 => if pos then b.hi.comp (i + 2) / b.den else b.lo.comp (i + 2) / b.den
  | 1 | 2 => if pos then b.lo.comp (i + 2) / b.den else b.hi.comp (i + 2) / b.den

theorem par_dot {b : AABB} (hd : 0 < b.den) {pl : HS3} {i : Fin 3} (hi : pl.n.comp i ≠ 0) (k : Fin 4) :
    (sidePlane b i (sideIndex (decide (0 ≤ pl.n.comp i)) (k - 1))).n.dot
      (pl.n.cross (sidePlane b i (sideIndex (decide (0 ≤ pl.n.comp i)) k)).n) ≠ 0 := by
  rw [sidePlane_dot]
  have := mul_ne_zero (mul_ne_zero hi hd.ne') hd.ne'
  have := neg_ne_zero.2 this
  cases decide (0 ≤ pl.n.comp i) <;> fin_cases k <;> assumption

theorem par_pt (d0 : D) {b : AABB} (hd : 0 < b.den) {pl : HS3} {i : Fin 3} (hi : pl.n.comp i ≠ 0) (k : Fin 4) :
    ((parallelogram d0 b pl i).vertexD k).w ≠ 0 ∧ pl.side ((parallelogram d0 b pl i).pt k) = 0 ∧
      (sidePlane b i (sideIndex (decide (0 ≤ pl.n.comp i)) k)).side ((parallelogram d0 b pl i).pt k) = 0 ∧
      (parallelogram d0 b pl i).pt k (i + 1) = parX b i k ∧
      (parallelogram d0 b pl i).pt k (i + 2) = parY b i (decide (0 ≤ pl.n.comp i)) k := by
  have hq : (b.den : ℚ) ≠ 0 := by exact_mod_cast hd.ne'
  unfold Polygon.pt
  rw [par_vertex]
  have hw := par_dot hd hi k
  obtain ⟨w, s1, s2, s3⟩ := three_planes _ _ _ hw
  refine ⟨w, s1, s2, ?_⟩
  clear hw w s1
  generalize ((PL.ofPlanes pl (sidePlane b i (sideIndex (decide (0 ≤ pl.n.comp i)) k))).intersect
      (sidePlane b i (sideIndex (decide (0 ≤ pl.n.comp i)) (k - 1)))).pt = q at s2 s3
  generalize decide (0 ≤ pl.n.comp i) = pos at s2 s3
  have val : ∀ j, (sidePlane b i j).side q = 0 → (match j with
      | 0 => q (i + 1) = b.lo.comp (i + 1) / b.den
      | 1 => q (i + 2) = b.lo.comp (i + 2) / b.den
      | 2 => q (i + 1) = b.hi.comp (i + 1) / b.den
      | 3 => q (i + 2) = b.hi.comp (i + 2) / b.den) := by
    intro j hj
    rw [sidePlane_side] at hj
    fin_cases j <;> simp only [eq_div_iff hq] at hj ⊢ <;> first | linear_combination hj | linear_combination -hj
  cases pos <;> fin_cases k <;> first | exact ⟨val _ s2, val _ s3⟩ | exact ⟨val _ s3, val _ s2⟩

/-- The bounds of the second coordinate, mirrored when the normal points away. -/
def lowY (b : AABB) (pl : HS3) (i : Fin 3) : ℚ := if 0 ≤ pl.n.comp i then b.lo.comp (i + 2) / b.den else -(b.hi.comp (i + 2) / b.den)
def highY (b : AABB) (pl : HS3) (i : Fin 3) : ℚ := if 0 ≤ pl.n.comp i then b.hi.comp (i + 2) / b.den else -(b.lo.comp (i + 2) / b.den)

theorem sg_eq (pl : HS3) (i : Fin 3) : sg pl i = if 0 ≤ pl.n.comp i then 1 else -1 := by
  unfold sg absMult; split <;> split <;> first | omega | simp

theorem par_over (d0 : D) {b : AABB} (hd : 0 < b.den) {pl : HS3} {i : Fin 3} (hi : pl.n.comp i ≠ 0)
    (h1 : b.lo.comp (i + 1) < b.hi.comp (i + 1)) (h2 : b.lo.comp (i + 2) < b.hi.comp (i + 2)) :
    OverRect (parallelogram d0 b pl i) (b.lo.comp (i + 1) / b.den) (b.hi.comp (i + 1) / b.den) (lowY b pl i) (highY b pl i) 3 := by
  have hq : (0 : ℚ) < b.den := by exact_mod_cast hd
  have g1 : (b.lo.comp (i + 1) : ℚ) / b.den < b.hi.comp (i + 1) / b.den := by
    rw [div_lt_div_iff_of_pos_right hq]; exact_mod_cast h1
  have g2 : (b.lo.comp (i + 2) : ℚ) / b.den < b.hi.comp (i + 2) / b.den := by
    rw [div_lt_div_iff_of_pos_right hq]; exact_mod_cast h2
  refine ⟨rfl, hi, ?_, ?_, ?_, ?_, g1, ?_⟩
  · intro k hk; exact (par_pt d0 hd hi ⟨k, hk⟩).1
  · intro k hk; exact (par_pt d0 hd hi ⟨k, hk⟩).2.1
  · intro k hk
    have := (par_pt d0 hd hi ⟨k, hk⟩).2.2.2.1
    refine this.trans ?_
    rcases lt4 hk with rfl | rfl | rfl | rfl <;> rfl
  · intro k hk
    have := (par_pt d0 hd hi ⟨k, hk⟩).2.2.2.2
    change sg pl i * (parallelogram d0 b pl i).pt k (i + 2) = _
    refine (congrArg _ this).trans ?_
    rw [sg_eq]
    unfold lowY highY
    rcases lt4 hk with rfl | rfl | rfl | rfl <;> by_cases c : 0 ≤ pl.n.comp i <;> simp [parY, rectY, c]
  · unfold lowY highY
    split <;> linarith

theorem par_lines (d0 : D) {b : AABB} (hd : 0 < b.den) {pl : HS3} {i : Fin 3} (hi : pl.n.comp i ≠ 0)
    (h1 : b.lo.comp (i + 1) < b.hi.comp (i + 1)) (h2 : b.lo.comp (i + 2) < b.hi.comp (i + 2)) (k : Nat) (hk : k < 4) :
    EdgeLine ((parallelogram d0 b pl i).lineD k) ((parallelogram d0 b pl i).pt k) ((parallelogram d0 b pl i).pt ((k + 1) % 4)) := by
  have hq : (0 : ℚ) < b.den := by exact_mod_cast hd
  have hk' : (k + 1) % 4 < 4 := Nat.mod_lt _ (by decide)
  obtain ⟨_, a1, a2, a3, a4⟩ := par_pt d0 hd hi ⟨k, hk⟩
  obtain ⟨_, c1, c2, c3, c4⟩ := par_pt d0 hd hi ⟨(k + 1) % 4, hk'⟩
  have el := par_line d0 b pl i ⟨k, hk⟩
  simp only at a1 a2 a3 a4 c1 c2 c3 c4 el
  rw [el]
  have g1 : (0 : ℚ) < b.hi.comp (i + 1) - b.lo.comp (i + 1) := by have : (b.lo.comp (i + 1) : ℚ) < b.hi.comp (i + 1) := by exact_mod_cast h1
                                                                  linarith
  have g2 : (0 : ℚ) < b.hi.comp (i + 2) - b.lo.comp (i + 2) := by have : (b.lo.comp (i + 2) : ℚ) < b.hi.comp (i + 2) := by exact_mod_cast h2
                                                                  linarith
  have hn : pl.n.cross (sidePlane b i (sideIndex (decide (0 ≤ pl.n.comp i)) ⟨k, hk⟩)).n ≠ ⟨0, 0, 0⟩ := by
    intro h0
    have := par_dot hd hi ⟨k, hk⟩
    rw [h0] at this
    simp [V3.dot] at this
  have hp := sg_mul_pos pl hi
  have ix : sideIndex true 0 = 0 ∧ sideIndex true 1 = 1 ∧ sideIndex true 2 = 2 ∧ sideIndex true 3 = 3 ∧
      sideIndex false 0 = 0 ∧ sideIndex false 1 = 3 ∧ sideIndex false 2 = 2 ∧ sideIndex false 3 = 1 := by decide
  obtain ⟨x1, x2, x3, x4, x5, x6, x7, x8⟩ := ix
  obtain ⟨d1, d2⟩ := sidePlane_dir b pl i (sideIndex (decide (0 ≤ pl.n.comp i)) ⟨k, hk⟩)
  refine edgeLine_ofPlanes (s := if k % 2 = 0 then sg pl i * pl.n.comp i * b.den * b.den / (b.hi.comp (i + 2) - b.lo.comp (i + 2))
    else sg pl i * pl.n.comp i * b.den * b.den / (b.hi.comp (i + 1) - b.lo.comp (i + 1))) hi hn a1 a2 c1 ?_ ?_ ?_
  · split
    · exact div_pos (by positivity) g2
    · exact div_pos (by positivity) g1
  all_goals
    have n1 := g1.ne'
    have n2 := g2.ne'
    have n3 := hq.ne'
  · rw [d1]; unfold px; rw [a3, c3, sg_eq]
    clear d1 d2 hp hn el a1 a2 a3 a4 c1 c2 c3 c4
    have four : (⟨k, hk⟩ : Fin 4) = 0 ∧ k = 0 ∨ (⟨k, hk⟩ : Fin 4) = 1 ∧ k = 1 ∨ (⟨k, hk⟩ : Fin 4) = 2 ∧ k = 2 ∨ (⟨k, hk⟩ : Fin 4) = 3 ∧ k = 3 := by
      rcases lt4 hk with rfl | rfl | rfl | rfl <;> simp <;> rfl
    rcases four with ⟨e1, e2⟩ | ⟨e1, e2⟩ | ⟨e1, e2⟩ | ⟨e1, e2⟩ <;> rw [e1] <;> subst e2 <;>
      by_cases c : 0 ≤ pl.n.comp i <;> simp [c, x1, x2, x3, x4, x5, x6, x7, x8, parX] <;> field_simp <;> ring
  · rw [d2]; unfold py; rw [a4, c4, sg_eq]
    clear d1 d2 hp hn el a1 a2 a3 a4 c1 c2 c3 c4
    have four : (⟨k, hk⟩ : Fin 4) = 0 ∧ k = 0 ∨ (⟨k, hk⟩ : Fin 4) = 1 ∧ k = 1 ∨ (⟨k, hk⟩ : Fin 4) = 2 ∧ k = 2 ∨ (⟨k, hk⟩ : Fin 4) = 3 ∧ k = 3 := by
      rcases lt4 hk with rfl | rfl | rfl | rfl <;> simp <;> rfl
    rcases four with ⟨e1, e2⟩ | ⟨e1, e2⟩ | ⟨e1, e2⟩ | ⟨e1, e2⟩ <;> rw [e1] <;> subst e2 <;>
      by_cases c : 0 ≤ pl.n.comp i <;> simp [c, x1, x2, x3, x4, x5, x6, x7, x8, parY] <;> field_simp <;> ring

end Walnut.Poly
