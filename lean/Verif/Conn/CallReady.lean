/-
A call of the connector meets the conditions under which connecting half-edges in a plane
succeeds.
-/
import Verif.Conn.CallClosed
import Verif.Props.ConnectPlane

namespace Walnut.Props
open Walnut.Geom Walnut.Poly Walnut.Bsp
open Walnut.Conn (Net SameLine3 PlaneInput EdgeIn sortedDim LineAt KeyVec keyOf keyLess succIn SortOk HeapOk SortFn HeapFns PlanePiece connectUnsorted sortEdges deedLess connectCall)

theorem call_plane {aabb : Bool} {t : Node} {S : List Source} (h : Reach aabb t S) (hset : Bsp.Settled t) {v : IsInside} {choose : Choose} {group : Group}
    (hg : Grouping group) {pfuel fuel : Nat} {t' : Node} {tr : List Visit} (ht : traverse v choose group pfuel fuel t = some (t', tr))
    {s : ConnState} (hs : connRun tr {} = some s) : ∀ c ∈ s.calls, ∀ z ∈ c.2, ∀ e, EndsOf tr z e → c.1.plane.side e.1 = 0 ∧ c.1.plane.side e.2 = 0 := by
  obtain ⟨hp, s', h1, _, h2⟩ := conn_final h hset hg ht
  have : s' = s := by have := h1.run; rw [hs] at this; exact (Option.some.inj this).symm
  subst this
  intro c hc z hz e he
  obtain ⟨x, hx, rfl, hf⟩ := h1.planes c hc z hz
  obtain ⟨j, k1, k2, k3⟩ := mem_tags hx
  obtain ⟨m, hb, _⟩ := hp.accepted_ok x.p (List.mem_of_getElem? k1)
  rw [(tag_ends hx e).1 he]
  rcases (hb.edges _ _ k3).2.2.1 with ⟨h0, _⟩ | ⟨l, a, r, _, hC, _, e⟩
  · rw [hf] at h0; simp at h0
  · rw [e] at hf
    rw [← Option.some.inj hf]
    exact hC

section
variable {aabb : Bool} {d : NodeData} {S : List Source} (h : Reach aabb (.leaf d) S) {t : Node} (ht : Splits d t) {f : Filter} (hf : NoParity f)
  (hk : ∀ id ∈ invertedIds f, id < d.info.length) {choose : Choose} {group : Group} (hg : Grouping group) {pfuel fuel : Nat} {t' : Node} {tr : List Visit}
  (hr : traverse f.eval choose group pfuel fuel t = some (t', tr)) (hc : ∀ id, Closed (meshOf S id)) (hord : ∀ Q ∈ output tr, Ordinary Q.plane.n)
  {s : ConnState} (hs : connRun tr {} = some s) {c : PlaneRef × List Entry} (hcall : c ∈ s.calls) {N : Net} {num : Nat → Nat → Nat}
  (hz : ∀ z ∈ c.2, Shows tr N z (num z.poly z.edge)) (hinj : ∀ z ∈ c.2, ∀ z' ∈ c.2, num z.poly z.edge = num z'.poly z'.edge → z.poly = z'.poly ∧ z.edge = z'.edge)
include h ht hg hr hs hcall hz hinj

theorem call_input (hN : N.Ok) {drop : Fin 3} (hdrop : c.1.plane.n.comp drop ≠ 0) {range : List (Option Nat)} (hperm : range.Perm (c.2.map fun z => some (num z.poly z.edge))) :
    PlaneInput drop N range := by
  obtain ⟨a1, a2, a3, a4⟩ := splits_spec h ht
  have hcv := output_convex h ht hg hr
  obtain ⟨hnd, hall⟩ := edges_once a1 a3 hg hr hs
  have mem : ∀ e, some e ∈ range → ∃ z ∈ c.2, e = num z.poly z.edge := by
    intro e he
    obtain ⟨z, z1, z2⟩ := List.mem_map.1 (hperm.mem_iff.1 he)
    exact ⟨z, z1, (Option.some.inj z2).symm⟩
  refine ⟨hN, ?_, ?_, c.1.plane.n, c.1.plane.d, hdrop, ?_⟩
  · rw [(hperm.filterMap id).nodup_iff, List.filterMap_map]
    have e : (c.2.filterMap (id ∘ fun z => some (num z.poly z.edge))) = c.2.map fun z => num z.poly z.edge := by
      rw [← List.filterMap_eq_map]; rfl
    rw [e]
    have ndc : (c.2.map fun z => (z.poly, z.edge)).Nodup := (List.nodup_flatMap.1 hnd).1 c hcall
    refine List.Nodup.map_on ?_ (List.Nodup.of_map _ ndc)
    intro x hx y hy exy
    obtain ⟨q1, q2⟩ := hinj x hx y hy exy
    exact List.inj_on_of_nodup_map ndc hx hy (by rw [q1, q2])
  · intro e he
    obtain ⟨z, z1, rfl⟩ := mem e he
    exact (hz z z1).free
  · intro e he
    obtain ⟨z, z1, rfl⟩ := mem e he
    obtain ⟨p, e1, e2, e3, e4, e5, e6⟩ := (hz z z1).edge
    have hp := hcv _ (List.mem_of_getElem? (output_get e1))
    have hl := hp.line _ e2
    obtain ⟨σ, s0, hd⟩ := hl.dir
    obtain ⟨p1, p2⟩ := call_plane a1 a3 hg hr hs c hcall z z1 _ (hz z z1).ends
    have hm : (z.edge + 1) % p.poly.count < p.poly.count := Nat.mod_lt _ (by omega)
    have hne : p.poly.pt ((z.edge + 1) % p.poly.count) ≠ p.poly.pt z.edge := by
      have h3 := hp.three
      have hne : (z.edge + 1) % p.poly.count ≠ z.edge := by
        rcases Nat.lt_or_ge (z.edge + 1) p.poly.count with c | c
        · rw [Nat.mod_eq_of_lt c]; omega
        · rw [show z.edge + 1 = p.poly.count by omega, Nat.mod_self]; omega
      rcases lt_or_gt_of_ne hne with c | c
      · exact hp.distinct _ _ c e2
      · exact (hp.distinct _ _ c hm).symm
    refine ⟨(hz z z1).lt, (hz z z1).size, ?_, ?_, ⟨σ⁻¹, inv_pos.2 s0, fun i => ?_⟩, ?_, ?_⟩
    · intro d0
      rw [e5] at d0
      apply hne
      funext i
      have := hd i
      rw [d0] at this
      have hz : (⟨0, 0, 0⟩ : V3).q i = 0 := by fin_cases i <;> simp [V3.q, V3.comp]
      rw [hz] at this
      have := (mul_eq_zero.1 this.symm).resolve_left s0.ne'
      linarith
    · rw [e5, e3]; exact hl.on
    · rw [e3, e4, e5]
      have h1 : ((p.poly.lineD z.edge).d.comp i : ℚ) = σ * (p.poly.pt ((z.edge + 1) % p.poly.count) i - p.poly.pt z.edge i) := hd i
      rw [h1, ← mul_assoc, inv_mul_cancel₀ s0.ne', one_mul]
      show p.poly.pt _ i = p.poly.pt _ i + _
      ring
    · unfold HS3.side dotQ at p1
      linarith
    · unfold HS3.side dotQ at p2
      linarith

include hf hk hc hord in
theorem call_closed (hN : N.Ok) {drop : Fin 3} (hdrop : c.1.plane.n.comp drop ≠ 0) {range : List (Option Nat)} (hperm : range.Perm (c.2.map fun z => some (num z.poly z.edge))) :
    ∃ (R : Nat → List Nat) (Ord : Nat → ℚ → List Nat), ∀ e, some e ∈ range → (∀ x, x ∈ R e ↔ some x ∈ range ∧ SameLine3 N e x) ∧ Conn.Closed (sortedDim N drop e) (R e) N (Ord e) := by
  classical
  have hi := call_input h ht hg hr hs hcall hz hinj hN hdrop hperm
  have hcv := output_convex h ht hg hr
  have mem : ∀ e, some e ∈ range ↔ ∃ z ∈ c.2, e = num z.poly z.edge := by
    intro e
    rw [hperm.mem_iff, List.mem_map]
    constructor
    · rintro ⟨z, z1, z2⟩; exact ⟨z, z1, (Option.some.inj z2).symm⟩
    · rintro ⟨z, z1, rfl⟩; exact ⟨z, z1, rfl⟩
  have ex : ∀ e, ∃ ORD : ℚ → List Nat, some e ∈ range → ∀ loc, (∀ x, x ∈ ORD loc ↔ (∃ z ∈ c.2, x = num z.poly z.edge) ∧ SameLine3 N e x ∧ N.lo (sortedDim N drop e) x ≤ loc ∧ loc < N.hi (sortedDim N drop e) x) ∧
      ((ORD loc).Pairwise fun a b => keyLess (keyOf N (sortedDim N drop e) a) (keyOf N (sortedDim N drop e) b) = some true ∧ keyLess (keyOf N (sortedDim N drop e) b) (keyOf N (sortedDim N drop e) a) = some false) ∧
      ∀ x y, succIn (ORD loc) x = some y → N.isPositive (sortedDim N drop e) x ≠ N.isPositive (sortedDim N drop e) y := by
    intro e
    by_cases he : some e ∈ range
    · obtain ⟨z, z1, ez⟩ := (mem e).1 he
      obtain ⟨p, e1, e2, e3, e4, e5, e6⟩ := (hz z z1).edge
      rw [← ez] at e3 e4 e5 e6
      have hp := hcv _ (List.mem_of_getElem? (output_get e1))
      have hl := hp.line _ e2
      have hk0 := ((C53_order hi).2.2.2.2 e e he he fun _ => Iff.rfl).1
      generalize sortedDim N drop e = k at *
      obtain ⟨σ, s0, hd⟩ := hl.dir
      have hline : LineAt N e (p.poly.pt z.edge) (sig (N.isPositive k e) • (p.poly.pt ((z.edge + 1) % p.poly.count) - p.poly.pt z.edge)) := by
        intro q
        rw [e5, Conn.onLine_cross hl, Conn.cross_smul, smul_eq_zero_iff_right (sig_ne _)]
      have hDk : 0 < (sig (N.isPositive k e) • (p.poly.pt ((z.edge + 1) % p.poly.count) - p.poly.pt z.edge)) k := by
        rw [Pi.smul_apply, smul_eq_mul, Pi.sub_apply]
        have h1 : ((N.line e).d.comp k : ℚ) = σ * (p.poly.pt ((z.edge + 1) % p.poly.count) k - p.poly.pt z.edge k) := by rw [e5]; exact hd k
        unfold Net.isPositive
        rcases lt_or_gt_of_ne hk0 with c | c
        · rw [decide_eq_false (by linarith)]
          have cq : ((N.line e).d.comp k : ℚ) < 0 := by exact_mod_cast c
          rw [h1] at cq
          have := (pos_iff_neg_of_mul_neg cq).1 s0
          simp only [sig, Bool.false_eq_true, if_false]; linarith
        · rw [decide_eq_true c.le]
          have cq : 0 < ((N.line e).d.comp k : ℚ) := by exact_mod_cast c
          rw [h1] at cq
          have := pos_of_mul_pos_right cq s0.le
          simp only [sig, if_true]; linarith
      choose ORD hORD using over_sorted h ht hf hk hg hr hc hord hs hcall hz hinj hDk hline
      exact ⟨ORD, fun _ loc => hORD loc⟩
    · exact ⟨fun _ => [], fun hcon => absurd hcon he⟩
  choose Ord hOrd using ex
  refine ⟨fun e => (c.2.map fun z => num z.poly z.edge).filter fun x => decide (SameLine3 N e x), Ord, fun e he => ?_⟩
  have memR : ∀ x, x ∈ ((c.2.map fun z => num z.poly z.edge).filter fun x => decide (SameLine3 N e x)) ↔ some x ∈ range ∧ SameLine3 N e x := by
    intro x
    rw [List.mem_filter, List.mem_map, mem, decide_eq_true_eq]
    refine and_congr_left fun _ => ⟨?_, ?_⟩
    · rintro ⟨z, z1, rfl⟩; exact ⟨z, z1, rfl⟩
    · rintro ⟨z, z1, rfl⟩; exact ⟨z, z1, rfl⟩
  refine ⟨memR, ⟨fun loc x => ?_, fun loc => (hOrd e he loc).2.1, fun loc => (hOrd e he loc).2.2⟩⟩
  rw [(hOrd e he loc).1, memR, mem]
  tauto
end

end Walnut.Props
