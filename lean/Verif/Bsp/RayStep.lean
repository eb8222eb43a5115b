/-
Along a ray the described set does not change between emitted polygons.
-/
import Verif.Bsp.RayNear

namespace Walnut.Bsp
open Walnut.Geom Walnut.Poly Walnut.Props

theorem GenericRay.move {t : Node} {tr : List Visit} {S : List Source} {q u : Q3} (h : GenericRay t tr S q u) {a : ℚ} (ha : 0 ≤ a) (hoff : ∀ g ∈ t.planes, g.side (q + a • u) ≠ 0) :
    GenericRay t tr S (q + a • u) u := by
  refine ⟨hoff, h.cross, h.crossFacet, fun g hg s hs r hr h1 h2 => ?_, fun id => transversal_move (h.transversal id) ha⟩
  have e : q + a • u + r • u = q + (a + r) • u := by rw [add_smul, add_assoc]
  rw [e] at h1 h2
  exact h.apart g hg s hs (a + r) (by linarith) h1 h2

theorem winding_gap {D : Type} {M : List (Polygon D)} {q u : Q3} {a b : ℚ} (hab : a < b) (hno : ∀ r, a < r → r ≤ b → ∀ P ∈ M, q + r • u ∉ P.region) :
    windingNumber M (q + a • u) u = windingNumber M (q + b • u) u := by
  classical
  unfold windingNumber
  congr 1
  refine List.map_congr_left fun P hP => ?_
  have e : (∃ s : ℚ, 0 < s ∧ q + a • u + s • u ∈ P.region) ↔ ∃ s : ℚ, 0 < s ∧ q + b • u + s • u ∈ P.region := by
    have k : ∀ c s : ℚ, q + c • u + s • u = q + (c + s) • u := fun c s => by rw [add_smul, add_assoc]
    constructor
    · rintro ⟨s, hs, h⟩
      rw [k] at h
      refine ⟨a + s - b, ?_, by rw [k, show b + (a + s - b) = a + s by ring]; exact h⟩
      by_contra hc
      exact hno (a + s) (by linarith) (by linarith) P hP h
    · rintro ⟨s, hs, h⟩
      rw [k] at h
      exact ⟨b + s - a, by linarith, by rw [k, show a + (b + s - a) = b + s by ring]; exact h⟩
  unfold hits
  simp only [e]

section
variable {aabb : Bool} {d : NodeData} {S : List Source} (h : Reach aabb (.leaf d) S) {t : Node} (ht : Splits d t) {f : Filter} (hf : NoParity f)
  (hk : ∀ id ∈ invertedIds f, id < d.info.length) {choose : Choose} {group : Group} (hg : Grouping group) {pfuel fuel : Nat} {t' : Node} {tr : List Visit}
  (hr : traverse f.eval choose group pfuel fuel t = some (t', tr)) (hc : ∀ id, Closed (meshOf S id)) {q u : Q3} (hG : GenericRay t' tr S q u)
include h ht hf hk hg hr hc hG

theorem solid_const {a b : ℚ} (ha : 0 ≤ a) (hab : a < b) (h1 : ∀ g ∈ t'.planes, g.side (q + a • u) ≠ 0) (h2 : ∀ g ∈ t'.planes, g.side (q + b • u) ≠ 0)
    (hno : ∀ r, a < r → r ≤ b → ∀ P ∈ output tr, q + r • u ∉ P.region) : InSolid f S u (q + a • u) ↔ InSolid f S u (q + b • u) := by
  have e1 := C71_boolean h ht hf hk hg hr hc (hG.move ha h1)
  have e2 := C71_boolean h ht hf hk hg hr hc (hG.move (by linarith) h2)
  have e3 := winding_gap hab hno
  rw [e1, e2] at e3
  unfold InSolid
  rcases one_cases (Props.Inside f fun id => windingNumber (meshOf S id) (q + a • u) u) with ⟨i1, o1⟩ | ⟨i1, o1⟩ <;>
    rcases one_cases (Props.Inside f fun id => windingNumber (meshOf S id) (q + b • u) u) with ⟨i2, o2⟩ | ⟨i2, o2⟩
  · exact ⟨fun _ => i2, fun _ => i1⟩
  · rw [o1, o2] at e3; omega
  · rw [o1, o2] at e3; omega
  · exact ⟨fun h => absurd h i1, fun h => absurd h i2⟩

/-- Points between two places of the ray, close to them. -/
theorem ray_between {r1 r2 : ℚ} (h0 : 0 < r1) (h12 : r1 < r2) (hno : ∀ r, r1 < r → r < r2 → ∀ P ∈ output tr, q + r • u ∉ P.region) {p p' : Q3 → Prop}
    (hp : After q u r1 p) (hp' : Before q u r2 p') : ∃ z z', p z ∧ p' z' ∧ (InSolid f S u z ↔ InSolid f S u z') := by
  obtain ⟨ε, ε0, hε⟩ := hp
  obtain ⟨ε', ε0', hε'⟩ := hp'
  obtain ⟨x, x0, x1, x2, x3⟩ := ev_exists ((ev_list t'.planes (p := fun g x => g.side (q + (r1 + x) • u) ≠ 0) fun g hg =>
      (ev_line (x := g.side (q + r1 • u)) (Or.inr (hG.cross g hg))).mono fun x hx => by
        rw [side_ray] at hx ⊢
        intro e; apply hx; linarith).and
    ((ev_cont (f := fun x => ε - x) (by fun_prop) (by simpa using ε0)).and (ev_cont (f := fun x => r2 - r1 - x) (by fun_prop) (by simpa using h12))))
  obtain ⟨y, y0, y1, y2, y3⟩ := ev_exists ((ev_list t'.planes (p := fun g y => g.side (q + (r2 - y) • u) ≠ 0) fun g hg =>
      (ev_line (x := g.side (q + r2 • u)) (Or.inr (neg_ne_zero.2 (hG.cross g hg)))).mono fun x hx => by
        rw [side_ray] at hx ⊢
        intro e; apply hx; linarith).and
    ((ev_cont (f := fun x => ε' - x) (by fun_prop) (by simpa using ε0')).and (ev_cont (f := fun y => r2 - y - (r1 + x)) (by fun_prop) (by simpa using by linarith))))
  exact ⟨_, _, hε (r1 + x) (by linarith) (by linarith), hε' (r2 - y) (by linarith) (by linarith),
    solid_const h ht hf hk hg hr hc hG (by linarith) (by linarith) x1 y1 fun r l1 l2 => hno r (by linarith) (by linarith)⟩

end

end Walnut.Bsp
