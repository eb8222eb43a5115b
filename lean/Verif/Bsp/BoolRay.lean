/-
The emitted facets along a ray.
-/
import Verif.Bsp.BoolLine
import Verif.Bsp.BoolOutput
import Verif.Bsp.BoolSpec

namespace Walnut.Bsp
open Walnut.Geom Walnut.Poly Walnut.Props

theorem side_ray (g : HS3) (q u : Q3) (r : ℚ) : g.side (q + r • u) = g.side q + r * dotQ g.n.q u := by
  simp only [HS3.side, dotQ, Pi.add_apply, Pi.smul_apply, smul_eq_mul]; ring

/-- Where the ray meets the plane. -/
def root (q u : Q3) (g : HS3) : ℚ := - g.side q / dotQ g.n.q u

theorem root_iff {g : HS3} {q u : Q3} (h : dotQ g.n.q u ≠ 0) (r : ℚ) : g.side (q + r • u) = 0 ↔ r = root q u g := by
  rw [side_ray, root, eq_div_iff h]
  constructor <;> intro h <;> linarith

theorem side_root {g : HS3} {q u : Q3} (h : dotQ g.n.q u ≠ 0) (r : ℚ) : g.side (q + r • u) = (r - root q u g) * dotQ g.n.q u := by
  have := (root_iff h (root q u g)).2 rfl
  rw [side_ray] at this ⊢
  linarith

/-- The points of the ray where it meets planes of the tree or of facets. -/
def stops (t : Node) (S : List Source) (q u : Q3) : Finset ℚ :=
  ((t.planes ++ S.map fun s => s.poly.plane).map (root q u)).toFinset.filter (0 < ·)

theorem stops_plane {t : Node} {S : List Source} {q u : Q3} {g : HS3} (hg : g ∈ t.planes) (h : 0 < root q u g) : root q u g ∈ stops t S q u := by
  simp only [stops, Finset.mem_filter, List.mem_toFinset, List.mem_map, List.mem_append]
  exact ⟨⟨g, Or.inl hg, rfl⟩, h⟩

theorem stops_facet {t : Node} {S : List Source} {q u : Q3} {s : Source} (hs : s ∈ S) (h : 0 < root q u s.poly.plane) : root q u s.poly.plane ∈ stops t S q u := by
  simp only [stops, Finset.mem_filter, List.mem_toFinset, List.mem_map, List.mem_append]
  exact ⟨⟨s.poly.plane, Or.inr ⟨s, hs, rfl⟩, rfl⟩, h⟩

theorem stops_pos {t : Node} {S : List Source} {q u : Q3} {r : ℚ} (h : r ∈ stops t S q u) : 0 < r := (Finset.mem_filter.1 h).2

section
variable {t : Node} {tr : List Visit} {S : List Source} {q u : Q3}

theorem near_ray (hG : GenericRay t tr S q u) {a r : ℚ} (ha : 0 ≤ a) (hr : 0 < r) (hne : a ≠ r)
    (hgap : ∀ s ∈ stops t S q u, (a ≤ s ∧ s ≤ r) ∨ (r ≤ s ∧ s ≤ a) → s = r) : Near t S (q + r • u) (q + a • u) := by
  have key : ∀ g ∈ t.planes, 0 < root q u g → ((a ≤ root q u g ∧ root q u g ≤ r) ∨ (r ≤ root q u g ∧ root q u g ≤ a)) → root q u g = r :=
    fun g hg h0 h => hgap _ (stops_plane hg h0) h
  have hoff : ∀ g ∈ t.planes, g.side (q + a • u) ≠ 0 := by
    intro g hg h0
    have e := (root_iff (hG.cross g hg) a).1 h0
    rcases ha.lt_or_eq with h | h
    · refine hne (e.trans (key g hg (e ▸ h) ?_))
      rcases le_total a r with h' | h'
      · left; rw [← e]; exact ⟨le_rfl, h'⟩
      · right; rw [← e]; exact ⟨h', le_rfl⟩
    · apply hG.off g hg
      rw [side_ray, ← h, zero_mul, add_zero] at h0
      exact h0
  have sign : ∀ g ∈ t.planes, 0 < g.side (q + r • u) * g.side (q + a • u) ∨ g.side (q + r • u) = 0 := by
    intro g hg
    by_cases h0 : g.side (q + r • u) = 0
    · exact Or.inr h0
    · left
      have hc := hG.cross g hg
      have hx := hoff g hg
      rw [side_root hc] at h0 hx ⊢
      rw [side_root hc]
      have n1 : r - root q u g ≠ 0 := left_ne_zero_of_mul h0
      have n2 : a - root q u g ≠ 0 := left_ne_zero_of_mul hx
      have hsq : 0 < dotQ g.n.q u * dotQ g.n.q u := mul_self_pos.2 hc
      have hpos : 0 < (r - root q u g) * (a - root q u g) := by
        rcases lt_or_gt_of_ne n1 with h1 | h1 <;> rcases lt_or_gt_of_ne n2 with h2 | h2
        · exact mul_pos_of_neg_of_neg h1 h2
        · exact absurd (key g hg (by linarith) (Or.inr ⟨by linarith, by linarith⟩)) (by linarith)
        · exact absurd (key g hg (by linarith) (Or.inl ⟨by linarith, by linarith⟩)) (by linarith)
        · exact mul_pos h1 h2
      calc 0 < (r - root q u g) * (a - root q u g) * (dotQ g.n.q u * dotQ g.n.q u) := mul_pos hpos hsq
        _ = _ := by ring
  refine ⟨hoff, fun g hg h => ?_, fun g hg h => ?_, fun g hg s hs => hG.apart g (by simp [hg]) s hs r hr⟩
  · rcases sign g hg with h' | h'
    · exact pos_of_mul_pos_right h' h.le
    · exact absurd h' h.ne'
  · rcases sign g hg with h' | h'
    · by_contra hc
      push Not at hc
      nlinarith
    · exact absurd h' h.ne

theorem transversal_move {M : List (Polygon Unit)} (h : Transversal M q u) {a : ℚ} (ha : 0 ≤ a) : Transversal M (q + a • u) u := by
  refine ⟨h.1, fun P hP s hs hr => ?_⟩
  have e : q + a • u + s • u = q + (a + s) • u := by rw [add_smul, add_assoc]
  rw [e] at hr ⊢
  exact h.2 P hP (a + s) (by linarith) hr

open Classical in
theorem hits_root {D : Type} {P : Polygon D} (hp : ∀ r : ℚ, 0 < r → q + r • u ∈ P.region → P.plane.side (q + r • u) = 0) (hc : dotQ P.plane.n.q u ≠ 0) {a : ℚ}
    (ha : 0 ≤ a) : hits (q + a • u) u P =
      if q + root q u P.plane • u ∈ P.region ∧ a < root q u P.plane then (if 0 < dotQ P.plane.n.q u then 1 else -1) else 0 := by
  unfold hits
  have e : (∃ s : ℚ, 0 < s ∧ q + a • u + s • u ∈ P.region) ↔ (q + root q u P.plane • u ∈ P.region ∧ a < root q u P.plane) := by
    constructor
    · rintro ⟨s, hs, h⟩
      rw [add_assoc, ← add_smul] at h
      have := (root_iff hc _).1 (hp _ (by linarith) h)
      rw [← this]
      exact ⟨h, by linarith⟩
    · rintro ⟨h, hlt⟩
      refine ⟨root q u P.plane - a, by linarith, ?_⟩
      rw [add_assoc, ← add_smul]
      simpa using h
  by_cases h : ∃ s : ℚ, 0 < s ∧ q + a • u + s • u ∈ P.region
  · rw [if_pos h, if_pos (e.1 h)]
    rcases lt_or_gt_of_ne hc with h | h
    · rw [if_neg (not_lt.2 h.le), if_pos h, if_neg (not_lt.2 h.le)]
    · rw [if_pos h, if_pos h]
  · rw [if_neg h, if_neg fun h' => h (e.2 h')]

theorem meshOf_cons (s : Source) (S : List Source) (id : ℕ) : meshOf (s :: S) id = if s.id = id then s.poly :: meshOf S id else meshOf S id := by
  unfold meshOf
  rw [List.filter_cons]
  by_cases h : s.id = id <;> simp [h]

theorem windingNumber_cons {D : Type} (P : Polygon D) (M : List (Polygon D)) (q u : Q3) : windingNumber (P :: M) q u = hits q u P + windingNumber M q u := rfl

theorem facing_cons (s : Source) (S : List Source) (x z : Q3) (id : ℕ) [Decidable (x ∈ s.poly.region)] :
    facing (s :: S) x z id = (if s.id = id ∧ x ∈ s.poly.region ∧ s.poly.plane.side z < 0 then 1 else 0) + facing S x z id := by
  unfold facing sourceStack
  rw [List.filter_cons]
  by_cases h : x ∈ s.poly.region
  · rw [if_pos (by simpa using h), List.map_cons, List.countP_cons]
    by_cases h1 : s.id = id <;> by_cases h2 : s.poly.plane.side z < 0 <;> simp [h, h1, h2]; ring
  · rw [if_neg (by simpa using h), if_neg (fun h' => h h'.2.1), zero_add]

/-- The winding numbers before and behind a stop. -/
theorem winding_jump (hS : ∀ s ∈ S, IsConvexPolygon s.poly ∧ dotQ s.poly.plane.n.q u ≠ 0) {a b r : ℚ} (ha : 0 ≤ a) (har : a < r) (hrb : r < b)
    (hgap : ∀ s ∈ S, a < root q u s.poly.plane → root q u s.poly.plane ≤ b → root q u s.poly.plane = r) (id : ℕ) :
    windingNumber (meshOf S id) (q + a • u) u - facing S (q + r • u) (q + a • u) id =
      windingNumber (meshOf S id) (q + b • u) u - facing S (q + r • u) (q + b • u) id := by
  classical
  induction S with
  | nil => simp [meshOf, windingNumber, facing, sourceStack]
  | cons s S ih =>
    have := ih (fun x hx => hS x (by simp [hx])) fun x hx => hgap x (by simp [hx])
    rw [meshOf_cons, facing_cons, facing_cons]
    by_cases hid : s.id = id
    · obtain ⟨h1, h2⟩ := hS s (by simp)
      have hp : ∀ r : ℚ, 0 < r → q + r • u ∈ s.poly.region → s.poly.plane.side (q + r • u) = 0 := fun _ _ => side_region h1
      rw [if_pos hid, windingNumber_cons, windingNumber_cons, hits_root hp h2 ha, hits_root hp h2 (by linarith : 0 ≤ b)]
      by_cases hx : q + r • u ∈ s.poly.region
      · have e : root q u s.poly.plane = r := ((root_iff h2 r).1 (side_region h1 hx)).symm
        have s1 := side_root (q := q) h2 a
        have s2 := side_root (q := q) h2 b
        rw [e] at s1 s2
        have hf : ¬ (q + r • u ∈ s.poly.region ∧ b < r) := fun h => absurd h.2 (not_lt.2 hrb.le)
        rw [e, if_pos ⟨hx, har⟩, if_neg hf]
        rcases lt_or_gt_of_ne h2 with h | h
        · have p1 : 0 < s.poly.plane.side (q + a • u) := by rw [s1]; exact mul_pos_of_neg_of_neg (by linarith) h
          have p2 : s.poly.plane.side (q + b • u) < 0 := by rw [s2]; exact mul_neg_of_pos_of_neg (by linarith) h
          rw [if_neg (not_lt.2 h.le), if_neg (fun h => absurd h.2.2 (not_lt.2 p1.le)), if_pos ⟨hid, hx, p2⟩]
          linarith
        · have p1 : s.poly.plane.side (q + a • u) < 0 := by rw [s1]; exact mul_neg_of_neg_of_pos (by linarith) h
          have p2 : 0 < s.poly.plane.side (q + b • u) := by rw [s2]; exact mul_pos (by linarith) h
          rw [if_pos h, if_pos ⟨hid, hx, p1⟩, if_neg (fun h => absurd h.2.2 (not_lt.2 p2.le))]
          linarith
      · have e : (q + root q u s.poly.plane • u ∈ s.poly.region ∧ a < root q u s.poly.plane) ↔ (q + root q u s.poly.plane • u ∈ s.poly.region ∧ b < root q u s.poly.plane) := by
          refine and_congr_right fun hr => ⟨fun hl => ?_, fun hl => by linarith⟩
          by_contra hc
          rw [hgap s (by simp) hl (not_lt.1 hc)] at hr
          exact hx hr
        have hnx : ∀ z, ¬ (s.id = id ∧ q + r • u ∈ s.poly.region ∧ s.poly.plane.side z < 0) := fun z h => hx h.2.1
        rw [if_neg (hnx _), if_neg (hnx _)]
        simp only [e]
        linarith
    · rw [if_neg hid, if_neg (fun h => hid h.1), if_neg (fun h => hid h.1)]
      linarith

theorem winding_const (hS : ∀ s ∈ S, IsConvexPolygon s.poly ∧ dotQ s.poly.plane.n.q u ≠ 0) {a b : ℚ} (ha : 0 ≤ a) (hab : a ≤ b)
    (hgap : ∀ s ∈ S, ¬ (a < root q u s.poly.plane ∧ root q u s.poly.plane ≤ b)) (id : ℕ) :
    windingNumber (meshOf S id) (q + a • u) u = windingNumber (meshOf S id) (q + b • u) u := by
  classical
  unfold windingNumber
  congr 1
  refine List.map_congr_left fun P hP => ?_
  obtain ⟨s, hs, rfl⟩ := List.mem_map.1 hP
  have hs := List.mem_of_mem_filter hs
  obtain ⟨h1, h2⟩ := hS s hs
  have hp : ∀ r : ℚ, 0 < r → q + r • u ∈ s.poly.region → s.poly.plane.side (q + r • u) = 0 := fun _ _ => side_region h1
  rw [hits_root hp h2 ha, hits_root hp h2 (by linarith : 0 ≤ b)]
  have e : (q + root q u s.poly.plane • u ∈ s.poly.region ∧ a < root q u s.poly.plane) ↔ (q + root q u s.poly.plane • u ∈ s.poly.region ∧ b < root q u s.poly.plane) := by
    refine and_congr_right fun _ => ⟨fun hl => ?_, fun hl => by linarith⟩
    by_contra hc
    exact hgap s hs ⟨hl, not_lt.1 hc⟩
  simp only [e]

theorem winding_far (hS : ∀ s ∈ S, IsConvexPolygon s.poly ∧ dotQ s.poly.plane.n.q u ≠ 0) {b : ℚ} (hb : 0 ≤ b) (hfar : ∀ s ∈ S, root q u s.poly.plane ≤ b) (id : ℕ) :
    windingNumber (meshOf S id) (q + b • u) u = 0 := by
  classical
  unfold windingNumber
  apply List.sum_eq_zero
  intro y hy
  obtain ⟨P, hP, rfl⟩ := List.mem_map.1 hy
  obtain ⟨s, hs, rfl⟩ := List.mem_map.1 hP
  have hs := List.mem_of_mem_filter hs
  obtain ⟨h1, h2⟩ := hS s hs
  have hp : ∀ r : ℚ, 0 < r → q + r • u ∈ s.poly.region → s.poly.plane.side (q + r • u) = 0 := fun _ _ => side_region h1
  rw [hits_root hp h2 hb, if_neg fun h => absurd h.2 (not_lt.2 (hfar s hs))]

/-- How the ray crosses the facets of a stack. -/
def crossings (u : Q3) (st : List Facet) : ℤ :=
  (st.countP (fun f => decide (0 < dotQ f.2.n.q u)) : ℕ) - (st.countP (fun f => decide (dotQ f.2.n.q u < 0)) : ℕ)

/-- The winding number of a set of polygons is the number of crossings at all stops. -/
theorem winding_stops {T : Finset ℚ} : ∀ {l : List BPoly}, (∀ y ∈ l, ∀ r : ℚ, 0 < r → q + r • u ∈ y.poly.region →
      y.poly.plane.side (q + r • u) = 0 ∧ dotQ y.poly.plane.n.q u ≠ 0 ∧ r ∈ T) → (∀ r ∈ T, 0 < r) →
    windingNumber (l.map BPoly.poly) q u = ∑ r ∈ T, crossings u (stackAt (q + r • u) l) := by
  classical
  intro l
  induction l with
  | nil => intro _ _; simp [windingNumber, stackAt, crossings]
  | cons y l ih =>
    intro hl hT
    rw [List.map_cons, windingNumber_cons, ih (fun x hx => hl x (by simp [hx])) hT]
    have hy := hl y (by simp)
    have step : ∀ r : ℚ, crossings u (stackAt (q + r • u) (y :: l)) = (if q + r • u ∈ y.poly.region then
        (if 0 < dotQ y.poly.plane.n.q u then 1 else if dotQ y.poly.plane.n.q u < 0 then -1 else 0) else 0) + crossings u (stackAt (q + r • u) l) := by
      intro r
      unfold crossings stackAt
      rw [List.filter_cons]
      by_cases h : q + r • u ∈ y.poly.region
      · rw [if_pos (by simpa using h), if_pos h, List.map_cons, List.countP_cons, List.countP_cons]
        rcases lt_trichotomy (dotQ y.poly.plane.n.q u) 0 with h1 | h1 | h1
        · simp [facet, h1, not_lt.2 h1.le]; ring
        · simp [facet, h1]
        · simp [facet, h1, not_lt.2 h1.le]; ring
      · rw [if_neg (by simpa using h), if_neg h, zero_add]
    simp only [step]
    rw [Finset.sum_add_distrib]
    congr 1
    unfold hits
    by_cases h : ∃ r : ℚ, 0 < r ∧ q + r • u ∈ y.poly.region
    · rw [if_pos h]
      obtain ⟨r, hr, hreg⟩ := h
      obtain ⟨_, h2, h3⟩ := hy r hr hreg
      rw [Finset.sum_eq_single r, if_pos hreg]
      · intro s hs hne
        rw [if_neg fun h' => hne ?_]
        have a1 := (root_iff h2 r).1 (hy r hr hreg).1
        have a2 := (root_iff h2 s).1 (hy s (hT s hs) h').1
        rw [a1, a2]
      · intro h'; exact absurd h3 h'
    · rw [if_neg h]
      symm
      apply Finset.sum_eq_zero
      intro r hr
      rw [if_neg fun h' => h ⟨r, hT r hr, h'⟩]

end

end Walnut.Bsp
