/- The walls of a box. -/
import Verif.Poly.BoxCut

namespace Walnut.Poly
open Walnut.Geom Walnut.Props

variable {D : Type}

/-- The plane of wall `side`, whose normal is along dimension `i`. -/
def wallPlane (b : AABB) (side : Nat) (i : Fin 3) : HS3 :=
  ⟨V3.zero.set i (if side < 3 then -b.den else b.den), if side < 3 then -b.lo.comp i else b.hi.comp i⟩

/-- The polygon of wall `side`. -/
def wallPoly (d0 : D) (b : AABB) (side : Nat) (info : Fin 3 × List Nat) : Polygon D :=
  ofVertices d0 (wallPlane b side info.1) info.1 (info.2.map fun v => boxCorner b (boxCorners.getD v (false, false, false)))

theorem wallAt_eq (d0 : D) (b : AABB) (side : Nat) (info : Fin 3 × List Nat) : wallAt d0 b side info =
    if b.lo.comp (info.1 + 1) = b.hi.comp (info.1 + 1) then none
    else if b.lo.comp (info.1 + 2) = b.hi.comp (info.1 + 2) then none else some (wallPoly d0 b side info) := rfl

theorem wallPlane_side (b : AABB) (side : Nat) (i : Fin 3) (q : Q3) : (wallPlane b side i).side q =
    if side < 3 then b.lo.comp i - b.den * q i else b.den * q i - b.hi.comp i := by
  unfold wallPlane
  split <;> obtain rfl | rfl | rfl := fin3 i <;> simp [HS3.side_eq, V3.set, V3.zero] <;> ring

theorem wallPlane_comp (b : AABB) (side : Nat) (i : Fin 3) : (wallPlane b side i).n.comp i = if side < 3 then -b.den else b.den := by
  unfold wallPlane
  obtain rfl | rfl | rfl := fin3 i <;> simp [V3.set, V3.zero, V3.comp]

/-- The facets with the corner of the rectangle each polygon starts with. -/
def wallStarts : List Nat := [2, 1, 2, 3, 2, 3]

theorem wall_over (d0 : D) {b : AABB} (hd : 0 < b.den) (side : Nat) (hs : side < 6) (info : Fin 3 × List Nat) (hinfo : wallInfos[side]? = some info)
    (h1 : b.lo.comp (info.1 + 1) < b.hi.comp (info.1 + 1)) (h2 : b.lo.comp (info.1 + 2) < b.hi.comp (info.1 + 2)) :
    OverRect (wallPoly d0 b side info) (b.lo.comp (info.1 + 1) / b.den) (b.hi.comp (info.1 + 1) / b.den)
      (lowY b (wallPlane b side info.1) info.1) (highY b (wallPlane b side info.1) info.1) (wallStarts.getD side 0) := by
  have hq : (0 : ℚ) < b.den := by exact_mod_cast hd
  have g1 : (b.lo.comp (info.1 + 1) : ℚ) / b.den < b.hi.comp (info.1 + 1) / b.den := by
    rw [div_lt_div_iff_of_pos_right hq]; exact_mod_cast h1
  have g2 : (b.lo.comp (info.1 + 2) : ℚ) / b.den < b.hi.comp (info.1 + 2) / b.den := by
    rw [div_lt_div_iff_of_pos_right hq]; exact_mod_cast h2
  have hsg : ∀ q, py (wallPlane b side info.1) info.1 q = if side < 3 then -q (info.1 + 2) else q (info.1 + 2) := by
    intro q; unfold py; rw [sg_eq, wallPlane_comp]
    by_cases c : side < 3
    · simp only [c, if_true]; rw [if_neg (by omega)]; ring
    · simp only [c, if_false]; rw [if_pos hd.le]; ring
  have hl : lowY b (wallPlane b side info.1) info.1 = if side < 3 then -(b.hi.comp (info.1 + 2) / b.den : ℚ) else b.lo.comp (info.1 + 2) / b.den := by
    unfold lowY; rw [wallPlane_comp]
    by_cases c : side < 3
    · simp only [c, if_true]; rw [if_neg (by omega)]
    · simp only [c, if_false]; rw [if_pos hd.le]
  have hh : highY b (wallPlane b side info.1) info.1 = if side < 3 then -(b.lo.comp (info.1 + 2) / b.den : ℚ) else b.hi.comp (info.1 + 2) / b.den := by
    unfold highY; rw [wallPlane_comp]
    by_cases c : side < 3
    · simp only [c, if_true]; rw [if_neg (by omega)]
    · simp only [c, if_false]; rw [if_pos hd.le]
  have six : ∀ s, s < 6 → s = 0 ∨ s = 1 ∨ s = 2 ∨ s = 3 ∨ s = 4 ∨ s = 5 := by omega
  refine ⟨?_, ?_, ?_, ?_, ?_, ?_, g1, ?_⟩
  · rcases six side hs with rfl | rfl | rfl | rfl | rfl | rfl <;> cases hinfo <;> rfl
  · change (wallPlane b side info.1).n.comp info.1 ≠ 0
    rw [wallPlane_comp]; split <;> omega
  · intro k hk
    rcases six side hs with rfl | rfl | rfl | rfl | rfl | rfl <;> cases hinfo <;> rcases lt4 hk with rfl | rfl | rfl | rfl <;> exact hd.ne'
  · intro k hk
    change (wallPlane b side info.1).side _ = 0
    rw [wallPlane_side]
    have e : ∀ n : Int, (b.den : ℚ) * (n / b.den) = n := fun n => mul_div_cancel₀ _ hq.ne'
    rcases six side hs with rfl | rfl | rfl | rfl | rfl | rfl <;> cases hinfo <;> rcases lt4 hk with rfl | rfl | rfl | rfl <;>
      simp [wallPoly, ofVertices, Polygon.pt, Polygon.vertexD, HP3.pt, boxCorner, boxCorners, V3.comp, e]
  · intro k hk
    change (wallPoly d0 b side info).pt k (info.1 + 1) = _
    rcases six side hs with rfl | rfl | rfl | rfl | rfl | rfl <;> cases hinfo <;> rcases lt4 hk with rfl | rfl | rfl | rfl <;>
      simp [wallPoly, ofVertices, Polygon.pt, Polygon.vertexD, HP3.pt, boxCorner, boxCorners, V3.comp, rectX, wallStarts, fin3_eqs]
  · intro k hk
    change py (wallPlane b side info.1) info.1 _ = _
    rw [hsg, hl, hh]
    rcases six side hs with rfl | rfl | rfl | rfl | rfl | rfl <;> cases hinfo <;> rcases lt4 hk with rfl | rfl | rfl | rfl <;>
      simp [wallPoly, ofVertices, Polygon.pt, Polygon.vertexD, HP3.pt, boxCorner, boxCorners, V3.comp, rectY, wallStarts, fin3_eqs]
  · rw [hl, hh]; split <;> linarith

theorem wall_line (d0 : D) (b : AABB) (side : Nat) (hs : side < 6) (info : Fin 3 × List Nat) (hinfo : wallInfos[side]? = some info) (k : Nat)
    (hk : k < 4) : (wallPoly d0 b side info).lineD k =
      PL.ofHomoPoints ((wallPoly d0 b side info).vertexD k) ((wallPoly d0 b side info).vertexD ((k + 1) % 4)) := by
  have six : ∀ s, s < 6 → s = 0 ∨ s = 1 ∨ s = 2 ∨ s = 3 ∨ s = 4 ∨ s = 5 := by omega
  rcases six side hs with rfl | rfl | rfl | rfl | rfl | rfl <;> cases hinfo <;> rcases lt4 hk with rfl | rfl | rfl | rfl <;> rfl

theorem wall_convex (d0 : D) {b : AABB} (hd : 0 < b.den) (side : Nat) (hs : side < 6) (info : Fin 3 × List Nat) (hinfo : wallInfos[side]? = some info)
    (h1 : b.lo.comp (info.1 + 1) < b.hi.comp (info.1 + 1)) (h2 : b.lo.comp (info.1 + 2) < b.hi.comp (info.1 + 2)) :
    IsConvexPolygon (wallPoly d0 b side info) := by
  have ov := wall_over d0 hd side hs info hinfo h1 h2
  refine ov.isConvex fun k hk => ?_
  have hk' : (k + 1) % 4 < 4 := Nat.mod_lt _ (by decide)
  have cne := ov.convex2.ne
  rw [ov.count] at cne
  have hne : (wallPoly d0 b side info).pt k ≠ (wallPoly d0 b side info).pt ((k + 1) % 4) := by
    intro he
    rcases lt_trichotomy k ((k + 1) % 4) with c | c | c
    · rcases cne _ _ c hk' with h | h <;> rw [he] at h <;> exact h rfl
    · omega
    · rcases cne _ _ c hk with h | h <;> rw [he] at h <;> exact h rfl
  rw [wall_line d0 b side hs info hinfo k hk]
  obtain ⟨a1, a2, s, hs, a3⟩ := C26_of_points _ _ (ov.finite k hk) (ov.finite _ hk') hne
  exact ⟨a1.2, s, hs, a3⟩

theorem wall_region (d0 : D) {b : AABB} (hd : 0 < b.den) (hne : NonemptyBox b) (side : Nat) (hs : side < 6) (info : Fin 3 × List Nat)
    (hinfo : wallInfos[side]? = some info)
    (h1 : b.lo.comp (info.1 + 1) < b.hi.comp (info.1 + 1)) (h2 : b.lo.comp (info.1 + 2) < b.hi.comp (info.1 + 2)) :
    (wallPoly d0 b side info).region = {q | InBox b q ∧ q info.1 = if side < 3 then (b.lo.comp info.1 / b.den : ℚ) else b.hi.comp info.1 / b.den} := by
  have hq : (0 : ℚ) < b.den := by exact_mod_cast hd
  have hlo : (b.lo.comp info.1 : ℚ) / b.den ≤ b.hi.comp info.1 / b.den := by
    rw [div_le_div_iff_of_pos_right hq]; exact_mod_cast hne _
  rw [(wall_over d0 hd side hs info hinfo h1 h2).region]
  refine Set.ext fun q => ?_
  have e : (wallPoly d0 b side info).plane.side q = 0 ↔ q info.1 = if side < 3 then (b.lo.comp info.1 / b.den : ℚ) else b.hi.comp info.1 / b.den := by
    change (wallPlane b side info.1).side q = 0 ↔ _
    rw [wallPlane_side]
    split <;> rw [eq_div_iff hq.ne'] <;> constructor <;> intro h <;> linarith
  refine (and_congr e (over_iff b _ info.1 q)).trans ⟨fun h => ⟨fun j => ?_, h.1⟩, fun h => ⟨h.2, fun j _ => h.1 j⟩⟩
  by_cases hj : j = info.1
  · rw [hj, h.1]
    split
    · exact ⟨le_rfl, hlo⟩
    · exact ⟨hlo, le_rfl⟩
  · exact h.2 j hj

theorem mem_walls {d0 : D} {b : AABB} {P : Polygon D} : P ∈ walls d0 b ↔
    ∃ side info, side < 6 ∧ wallInfos[side]? = some info ∧ b.lo.comp (info.1 + 1) ≠ b.hi.comp (info.1 + 1) ∧
      b.lo.comp (info.1 + 2) ≠ b.hi.comp (info.1 + 2) ∧ P = wallPoly d0 b side info := by
  unfold walls
  simp only [List.mem_filterMap, List.mem_map, id]
  constructor
  · rintro ⟨_, ⟨⟨info, side⟩, hm, rfl⟩, he⟩
    rw [List.mk_mem_zipIdx_iff_getElem?] at hm
    have hs : side < 6 := (List.getElem?_eq_some_iff.1 hm).1
    simp only [wallAt_eq] at he
    split at he
    · cases he
    · split at he
      · cases he
      · exact ⟨side, info, hs, hm, by assumption, by assumption, (Option.some.inj he).symm⟩
  · rintro ⟨side, info, hs, hm, n1, n2, rfl⟩
    refine ⟨_, ⟨(info, side), List.mk_mem_zipIdx_iff_getElem?.2 hm, rfl⟩, ?_⟩
    simp only [wallAt_eq]
    rw [if_neg n1, if_neg n2]

end Walnut.Poly
