/- The vertex map of the mesh repairer: one vertex per point. -/
import Verif.Repair.Mesh
import Verif.Props.Reduce

namespace Walnut.Repair
open Walnut Walnut.Geom Walnut.Props

/-- Canonical representations. -/
def Canon (r : HP3) : Prop := 0 < r.w ∧ Coprime [r.v.x, r.v.y, r.v.z, r.w]

theorem bezout4 {x y z w : Int} (h : Coprime [x, y, z, w]) : ∃ a b c d : Int, a * x + b * y + c * z + d * w = 1 := by
  have h1 := Int.gcd_eq_gcd_ab x y
  have h2 := Int.gcd_eq_gcd_ab ((x.gcd y : Nat) : Int) z
  have h3 := Int.gcd_eq_gcd_ab ((((x.gcd y : Nat) : Int).gcd z : Nat) : Int) w
  set g1 : Int := ((x.gcd y : Nat) : Int) with hg1
  set g2 : Int := ((g1.gcd z : Nat) : Int) with hg2
  set g3 : Int := ((g2.gcd w : Nat) : Int) with hg3
  have d1 : g1 ∣ x := Int.gcd_dvd_left ..
  have d2 : g1 ∣ y := Int.gcd_dvd_right ..
  have d3 : g2 ∣ g1 := Int.gcd_dvd_left ..
  have d4 : g2 ∣ z := Int.gcd_dvd_right ..
  have d5 : g3 ∣ g2 := Int.gcd_dvd_left ..
  have d6 : g3 ∣ w := Int.gcd_dvd_right ..
  have hu : g3 ∣ 1 := h g3 (by
    intro a ha
    simp at ha
    rcases ha with rfl | rfl | rfl | rfl
    · exact d5.trans (d3.trans d1)
    · exact d5.trans (d3.trans d2)
    · exact d5.trans d4
    · exact d6)
  obtain ⟨k, hk⟩ := hu
  refine ⟨k * g2.gcdA w * g1.gcdA z * x.gcdA y, k * g2.gcdA w * g1.gcdA z * x.gcdB y, k * g2.gcdA w * g1.gcdB z, k * g2.gcdB w, ?_⟩
  rw [hk]
  linear_combination (-k) * h3 - k * g2.gcdA w * h2 - k * g2.gcdA w * g1.gcdA z * h1

/-- A point has one canonical representation. -/
theorem canon_unique {a b : HP3} (ha : Canon a) (hb : Canon b) (h : a.pt = b.pt) : a = b := by
  obtain ⟨wa, ca⟩ := ha
  obtain ⟨wb, cb⟩ := hb
  have e : ∀ i, a.v.comp i * b.w = b.v.comp i * a.w := by
    intro i
    have := congrFun h i
    simp only [HP3.pt] at this
    have h1 : (a.w : ℚ) ≠ 0 := by exact_mod_cast wa.ne'
    have h2 : (b.w : ℚ) ≠ 0 := by exact_mod_cast wb.ne'
    field_simp at this
    exact_mod_cast (by linarith : (a.v.comp i : ℚ) * b.w = b.v.comp i * a.w)
  have e0 : a.v.x * b.w = b.v.x * a.w := e 0
  have e1 : a.v.y * b.w = b.v.y * a.w := e 1
  have e2 : a.v.z * b.w = b.v.z * a.w := e 2
  obtain ⟨p, q, r, s, hp⟩ := bezout4 ca
  obtain ⟨p', q', r', s', hp'⟩ := bezout4 cb
  have d1 : a.w ∣ b.w := ⟨p * b.v.x + q * b.v.y + r * b.v.z + s * b.w, by
    linear_combination (-b.w) * hp + p * e0 + q * e1 + r * e2⟩
  have d2 : b.w ∣ a.w := ⟨p' * a.v.x + q' * a.v.y + r' * a.v.z + s' * a.w, by
    linear_combination (-a.w) * hp' - p' * e0 - q' * e1 - r' * e2⟩
  have hw : a.w = b.w := Int.le_antisymm (Int.le_of_dvd wb d1) (Int.le_of_dvd wa d2)
  rw [hw] at e0 e1 e2
  have n0 : b.w ≠ 0 := wb.ne'
  obtain ⟨⟨ax, ay, az⟩, aw⟩ := a
  obtain ⟨⟨bx, by', bz⟩, bw⟩ := b
  simp only at *
  rw [mul_right_cancel₀ n0 e0, mul_right_cancel₀ n0 e1, mul_right_cancel₀ n0 e2, hw]

theorem reduce_canon {v r : HP3} (hw : v.w ≠ 0) (h : v.reduce = some r) : Canon r ∧ r.pt = v.pt := by
  obtain ⟨h1, h2, h3⟩ := C61_point_reduce v r hw h
  exact ⟨⟨h2, h3⟩, h1⟩

theorem lookup_mem : ∀ {m : List (HP3 × Nat)} {v : HP3} {i : Nat}, m.lookup v = some i → (v, i) ∈ m := by
  intro m
  induction m with
  | nil => intro v i h; simp at h
  | cons x r ih =>
    intro v i h
    obtain ⟨k, j⟩ := x
    by_cases hv : v = k
    · subst hv; simp [List.lookup] at h; subst h; simp
    · have hb : (v == k) = false := by simpa using hv
      simp only [List.lookup, hb] at h
      simp [ih h]

theorem lookup_none : ∀ {m : List (HP3 × Nat)} {v : HP3}, m.lookup v = none → ∀ i, (v, i) ∉ m := by
  intro m
  induction m with
  | nil => intro v h; simp
  | cons x r ih =>
    intro v h i hi
    obtain ⟨k, j⟩ := x
    by_cases hv : v = k
    · subst hv; simp [List.lookup] at h
    · have hb : (v == k) = false := by simpa using hv
      simp only [List.lookup, hb] at h
      simp [hv] at hi
      exact ih h i hi

/-- The map of a repairer, with the points its vertices had when they were added. -/
structure Keyed (map : List (HP3 × Nat)) (orig : List Q3) : Prop where
  nodup : orig.Nodup
  key : ∀ k i, (k, i) ∈ map → k.w ≠ 0 ∧ orig[i]? = some k.pt
  canon : ∀ (i : Nat) (q : Q3), orig[i]? = some q → ∃ r, (r, i) ∈ map ∧ Canon r

theorem Keyed.start : Keyed [] [] := ⟨by simp, by simp, by simp⟩

theorem addVertex_spec {s s' : Repairer} {v : HP3} {i : Nat} {orig : List Q3} (hk : Keyed s.map orig)
    (hl : s.storage.length = orig.length) (hv : v.w ≠ 0) (h : addVertex s v = some (s', i)) :
    ∃ (new : List VInfo) (orig' : List Q3), s'.storage = s.storage ++ new ∧ Keyed s'.map (orig ++ orig') ∧
      s'.storage.length = (orig ++ orig').length ∧ (orig ++ orig')[i]? = some v.pt ∧
      s'.vertices = s.vertices ∧ s'.polygons = s.polygons ∧
      (∀ w ∈ new, w.adjacent = [] ∧ w.point.w ≠ 0 ∧ w.point.pt = v.pt) ∧
      (∀ j, s.storage.length ≤ j → j < s'.storage.length → j = i) := by
  unfold addVertex at h
  cases h1 : s.map.lookup v with
  | some j =>
    simp only [h1, Option.some.injEq, Prod.mk.injEq] at h
    obtain ⟨rfl, rfl⟩ := h
    refine ⟨[], [], by simp, by simpa using hk, by simpa using hl, ?_, rfl, rfl, by simp, fun j h1 h2 => by omega⟩
    simpa using (hk.key _ _ (lookup_mem h1)).2
  | none =>
    simp only [h1, Option.bind_eq_bind, Option.bind_eq_some_iff] at h
    obtain ⟨r, hr, h⟩ := h
    obtain ⟨rc, rp⟩ := reduce_canon hv hr
    cases h2 : s.map.lookup r with
    | some j =>
      simp [h2] at h
      obtain ⟨rfl, rfl⟩ := h
      have hj := (hk.key _ _ (lookup_mem h2)).2
      rw [rp] at hj
      refine ⟨[], [], by simp, ?_, by simpa using hl, by simpa using hj, rfl, rfl, by simp, fun j h1 h2 => by simp at h2; omega⟩
      rw [List.append_nil]
      refine ⟨hk.nodup, ?_, ?_⟩
      · intro k i hki
        simp at hki
        rcases hki with hki | ⟨rfl, rfl⟩
        · exact hk.key k i hki
        · exact ⟨hv, hj⟩
      · intro i q hq
        obtain ⟨r, hr, hc⟩ := hk.canon i q hq
        exact ⟨r, by simp [hr], hc⟩
    | none =>
      simp [h2] at h
      obtain ⟨rfl, rfl⟩ := h
      refine ⟨[⟨[], r⟩], [v.pt], rfl, ?_, by simp [hl], by simp [hl], rfl, rfl, ?_, fun j h1 h2 => by simp at h2; omega⟩
      · refine ⟨?_, ?_, ?_⟩
        · rw [List.nodup_append]
          refine ⟨hk.nodup, by simp, ?_⟩
          intro a ha b hb
          simp at hb; subst hb
          rintro rfl
          obtain ⟨i, hi⟩ := List.mem_iff_getElem?.1 ha
          obtain ⟨r', hm, hc⟩ := hk.canon i _ hi
          have hp := (hk.key _ _ hm).2
          rw [hi] at hp
          simp only [Option.some.injEq] at hp
          have : r' = r := canon_unique hc rc (by rw [rp, hp])
          subst this
          exact lookup_none h2 i hm
        · intro k i hki
          simp at hki
          rcases hki with hki | ⟨rfl, rfl⟩ | ⟨rfl, rfl⟩
          · obtain ⟨a, b⟩ := hk.key k i hki
            refine ⟨a, ?_⟩
            have hlt : i < orig.length := (List.getElem?_eq_some_iff.1 b).1
            rw [List.getElem?_append_left hlt]; exact b
          · exact ⟨rc.1.ne', by simp [hl, rp]⟩
          · exact ⟨hv, by simp [hl]⟩
        · intro i q hq
          by_cases hlt : i < orig.length
          · rw [List.getElem?_append_left hlt] at hq
            obtain ⟨r', hm, hc⟩ := hk.canon i q hq
            exact ⟨r', by simp [hm], hc⟩
          · have hlt' : i < (orig ++ [v.pt]).length := (List.getElem?_eq_some_iff.1 hq).1
            have : i = s.storage.length := by simp at hlt'; omega
            subst this
            exact ⟨r, by simp, rc⟩
      · intro w hw
        simp at hw; subst hw
        exact ⟨rfl, rc.1.ne', rp⟩

theorem addVertices_spec : ∀ (f : List HP3) {s s' : Repairer} {l : List Nat} {orig : List Q3}, Keyed s.map orig →
    s.storage.length = orig.length → (∀ v ∈ f, v.w ≠ 0) → addVertices s f = some (s', l) →
    ∃ (new : List VInfo) (orig' : List Q3), s'.storage = s.storage ++ new ∧ Keyed s'.map (orig ++ orig') ∧
      s'.storage.length = (orig ++ orig').length ∧ l.map (fun i => (orig ++ orig')[i]?) = f.map (fun v => some v.pt) ∧
      s'.vertices = s.vertices ∧ s'.polygons = s.polygons ∧
      (∀ w ∈ new, w.adjacent = [] ∧ w.point.w ≠ 0 ∧ ∃ v ∈ f, w.point.pt = v.pt) ∧
      (∀ j, s.storage.length ≤ j → j < s'.storage.length → j ∈ l) ∧
      (∀ (k : Nat) (w : VInfo), new[k]? = some w → (orig ++ orig')[s.storage.length + k]? = some w.point.pt) := by
  intro f
  induction f with
  | nil =>
    intro s s' l orig hk hl hv h
    simp [addVertices] at h
    obtain ⟨rfl, rfl⟩ := h
    exact ⟨[], [], by simp, by simpa using hk, by simpa using hl, by simp, rfl, rfl, by simp, fun j h1 h2 => by omega, by simp⟩
  | cons v r ih =>
    intro s s' l orig hk hl hv h
    simp only [addVertices, Option.bind_eq_bind, Option.bind_eq_some_iff] at h
    obtain ⟨⟨s1, i⟩, h1, ⟨s2, l'⟩, h2, h3⟩ := h
    simp at h3
    obtain ⟨rfl, rfl⟩ := h3
    obtain ⟨n1, o1, a1, a2, a3, a4, a5, a6, a7, a8⟩ := addVertex_spec hk hl (hv v (by simp)) h1
    obtain ⟨n2, o2, b1, b2, b3, b4, b5, b6, b7, b8, b9⟩ := ih a2 a3 (fun v hv' => hv v (by simp [hv'])) h2
    refine ⟨n1 ++ n2, o1 ++ o2, by rw [b1, a1, List.append_assoc], by rw [← List.append_assoc]; exact b2,
      by rw [← List.append_assoc]; exact b3, ?_, by rw [b5, a5], by rw [b6, a6], ?_, ?_, ?_⟩
    · have hlt : i < (orig ++ o1).length := (List.getElem?_eq_some_iff.1 a4).1
      rw [← List.append_assoc]
      simp only [List.map_cons, b4, List.getElem?_append_left hlt, a4]
    · intro w hw
      rcases List.mem_append.1 hw with hw | hw
      · exact ⟨(a7 w hw).1, (a7 w hw).2.1, v, by simp, (a7 w hw).2.2⟩
      · obtain ⟨c1, c2, u, hu, c3⟩ := b7 w hw
        exact ⟨c1, c2, u, by simp [hu], c3⟩
    · intro j h1 h2
      by_cases hj : j < s1.storage.length
      · rw [a8 j h1 hj]; simp
      · exact List.mem_cons_of_mem _ (b8 j (by omega) h2)
    · intro k w hw
      rw [← List.append_assoc]
      have hn : (s.storage ++ n1).length = s1.storage.length := by rw [a1]
      by_cases hlt : k < n1.length
      · rw [List.getElem?_append_left hlt] at hw
        have hm : w ∈ n1 := List.mem_of_getElem? hw
        have hj : s.storage.length + k = i := a8 _ (by omega) (by rw [← hn]; simp; omega)
        have : s.storage.length + k < (orig ++ o1).length := by rw [hj]; exact (List.getElem?_eq_some_iff.1 a4).1
        rw [List.getElem?_append_left this, hj, a4, (a7 w hm).2.2]
      · rw [List.getElem?_append_right (by omega)] at hw
        have := b9 _ w hw
        rw [← hn] at this
        rw [show (s.storage ++ n1).length + (k - n1.length) = s.storage.length + k by simp; omega] at this
        exact this

end Walnut.Repair
