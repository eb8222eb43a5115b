/-
The edges that are handed to the connector in one call form a closed surface around every line.
-/
import Verif.Conn.Calls
import Verif.Conn.KeyAngle
import Verif.Conn.OverLine
import Verif.Bsp.Alternate
import Verif.Props.Visitor
import Verif.Poly.BoxCut

namespace Walnut.Props
open Walnut.Geom Walnut.Poly Walnut.Bsp
open Walnut.Conn (Net SameLine3 PlaneInput EdgeIn sortedDim LineAt KeyVec keyOf keyLess succIn)

/-- The half-edge `e` of the net is the edge that the entry refers to. -/
structure Shows (tr : List Visit) (N : Net) (z : Entry) (e : Nat) : Prop where
  edge : ∃ p, (accepted tr)[z.poly]? = some p ∧ z.edge < p.poly.count ∧ N.vertex e = p.poly.vertexD z.edge ∧
    N.target e = p.poly.vertexD ((z.edge + 1) % p.poly.count) ∧ N.line e = p.poly.lineD z.edge ∧ N.normal (N.poly e) = p.poly.plane.n
  lt : e < N.count
  size : 3 ≤ (N.cycle (N.poly e)).length
  free : N.partner e = none

/-- No component is `2^63` or `-2^63` (see `C19_same_dir2_partial`). -/
def Ordinary (n : V3) : Prop := ∀ i, n.comp i ≠ 2 ^ 63 ∧ n.comp i ≠ -2 ^ 63

/-- The planes of the calls are planes. -/
theorem call_normal {aabb : Bool} {t : Node} {S : List Source} (h : Reach aabb t S) (hset : Bsp.Settled t) {v : IsInside} {choose : Choose} {group : Group}
    (hg : Grouping group) {pfuel fuel : Nat} {t' : Node} {tr : List Visit} (ht : traverse v choose group pfuel fuel t = some (t', tr))
    {s : ConnState} (hs : connRun tr {} = some s) : ∀ c ∈ s.calls, c.2 ≠ [] → c.1.plane.n ≠ ⟨0, 0, 0⟩ := by
  obtain ⟨hp, s', h1, _, h2⟩ := conn_final h hset hg ht
  have : s' = s := by have := h1.run; rw [hs] at this; exact (Option.some.inj this).symm
  subst this
  intro c hc hne
  obtain ⟨z, hz⟩ := List.exists_mem_of_ne_nil _ hne
  obtain ⟨x, hx, rfl, hf⟩ := h1.planes c hc z hz
  obtain ⟨j, k1, k2, k3⟩ := mem_tags hx
  obtain ⟨m, hb, _⟩ := hp.accepted_ok x.p (List.mem_of_getElem? k1)
  rcases (hb.edges _ _ k3).2.2.1 with ⟨h0, _⟩ | ⟨l, a, r, eanc, hC, _, e⟩
  · rw [hf] at h0; simp at h0
  rw [e] at hf
  rw [← Option.some.inj hf]
  intro n0
  have q0 : a.1.plane.n.q = 0 := by
    rw [n0]; funext i; fin_cases i <;> simp [V3.q, V3.comp]
  have side : ∀ q, a.1.plane.side q = -(a.1.plane.d : ℚ) := by
    intro q; unfold HS3.side; rw [q0]; simp [dotQ]
  have d0 := hC.1
  rw [side] at d0
  have thr : Through a.1.plane x.p.poly.plane := fun q _ => by rw [side, d0]
  obtain ⟨l', a', r', e', ht', hno, _, hdot⟩ := hb.on
  have ma : a ∈ l' ++ a' :: r' := by rw [← e', eanc]; simp
  have : a = a' := by
    by_contra hcon
    have : a ∈ l' ++ r' := by
      simp only [List.mem_append, List.mem_cons] at ma ⊢
      tauto
    exact hno a this thr
  subst this
  rw [q0] at hdot
  simp [dotQ] at hdot

/-- Two entries that share a call with the same entry are in the same call. -/
theorem calls_disjoint {l : List (PlaneRef × List Entry)} (hn : (l.flatMap fun c => c.2.map fun z => (z.poly, z.edge)).Nodup) {c c' : PlaneRef × List Entry} (hc : c ∈ l) (hc' : c' ∈ l)
    {z : Entry} (hz : z ∈ c.2) (hz' : z ∈ c'.2) : c = c' := by
  by_contra hne
  rw [List.nodup_flatMap] at hn
  have : Std.Symm (Function.onFun List.Disjoint fun c : PlaneRef × List Entry => c.2.map fun z => (z.poly, z.edge)) := ⟨fun a b h => List.Disjoint.symm h⟩
  have := hn.2.forall hc hc' hne
  exact this (List.mem_map_of_mem hz) (List.mem_map_of_mem hz')

theorem Shows.ends {tr : List Visit} {N : Net} {z : Entry} {e : Nat} (h : Shows tr N z e) : EndsOf tr z ((N.vertex e).pt, (N.target e).pt) := by
  obtain ⟨p, h1, h2, h3, h4, _⟩ := h.edge
  exact ⟨p, h1, h2, by rw [h3, h4]; rfl⟩

theorem ends_unique {tr : List Visit} {z : Entry} {x y : Q3 × Q3} (hx : EndsOf tr z x) (hy : EndsOf tr z y) : x = y := by
  obtain ⟨p, h1, h2, rfl⟩ := hx
  obtain ⟨p', h1', h2', rfl⟩ := hy
  rw [h1] at h1'
  rw [Option.some.inj h1']

theorem output_get {tr : List Visit} {j : Nat} {p : BPoly} (h : (accepted tr)[j]? = some p) : (output tr)[j]? = some p.poly := by
  unfold output; rw [List.getElem?_map, h]; rfl

/-- A polygon has one edge through a point in a direction. -/
theorem one_edge {Q : Polygon EdgeInfo} (hc : IsConvexPolygon Q) {P E : Q3} (hE : E ≠ 0) {i j : Nat} (hi : i < Q.count) (hj : j < Q.count)
    (ri : RunsThrough P E (Q.pt i, Q.pt ((i + 1) % Q.count))) (rj : RunsThrough P E (Q.pt j, Q.pt ((j + 1) % Q.count))) : i = j := by
  have hEE := self_pos hE
  have val : ∀ i, RunsThrough P E (Q.pt i, Q.pt ((i + 1) % Q.count)) →
      0 < (-1) * (Pl.mk E (dotQ E P)).val (Q.pt i) ∧ (-1) * (Pl.mk E (dotQ E P)).val (Q.pt ((i + 1) % Q.count)) < 0 := by
    rintro i ⟨⟨s, s0, s1, es⟩, k, k0, e⟩
    simp only at es e
    rw [e] at es
    have e1 : dotQ E P = dotQ E (Q.pt i) + s * k * dotQ E E := by
      rw [es]; unfold dotQ; simp only [Pi.add_apply, Pi.smul_apply, smul_eq_mul]; ring
    have e2 : dotQ E (Q.pt ((i + 1) % Q.count)) = dotQ E (Q.pt i) + k * dotQ E E := by
      rw [show Q.pt ((i + 1) % Q.count) = Q.pt i + k • E by rw [← e]; abel]
      unfold dotQ; simp only [Pi.add_apply, Pi.smul_apply, smul_eq_mul]; ring
    unfold Pl.val
    simp only
    have p1 := mul_pos (mul_pos s0 k0) hEE
    have p2 := mul_pos (mul_pos (sub_pos.2 s1) k0) hEE
    constructor
    · rw [e1]; linarith
    · rw [e2, e1]; linarith
  obtain ⟨a1, a2⟩ := val i ri
  obtain ⟨b1, b2⟩ := val j rj
  rcases lt_trichotomy i j with c | c | c
  · exact (up_unique hc _ _ c hj a1 a2 b1 b2).elim
  · exact c
  · exact (up_unique hc _ _ c hi b1 b2 a1 a2).elim

section
variable {aabb : Bool} {d : NodeData} {S : List Source} (h : Reach aabb (.leaf d) S) {t : Node} (ht : Splits d t) {f : Filter} (hf : NoParity f)
  (hk : ∀ id ∈ invertedIds f, id < d.info.length) {choose : Choose} {group : Group} (hg : Grouping group) {pfuel fuel : Nat} {t' : Node} {tr : List Visit}
  (hr : traverse f.eval choose group pfuel fuel t = some (t', tr)) (hc : ∀ id, Closed (meshOf S id)) (hord : ∀ Q ∈ output tr, Ordinary Q.plane.n)
  {s : ConnState} (hs : connRun tr {} = some s) {c : PlaneRef × List Entry} (hcall : c ∈ s.calls) {N : Net} {num : Nat → Nat → Nat}
  (hz : ∀ z ∈ c.2, Shows tr N z (num z.poly z.edge)) (hinj : ∀ z ∈ c.2, ∀ z' ∈ c.2, num z.poly z.edge = num z'.poly z'.edge → z.poly = z'.poly ∧ z.edge = z'.edge)
include h ht hf hk hg hr hc hord hs hcall hz hinj

/-- The edges of a call over a location of a line, sorted around it, alternate. -/
theorem over_sorted {e : Nat} {A D : Q3} {k : Fin 3} (hDk : 0 < D k) (he : LineAt N e A D) (loc : ℚ) :
    ∃ l : List Nat, (∀ x, x ∈ l ↔ (∃ z ∈ c.2, x = num z.poly z.edge) ∧ SameLine3 N e x ∧ N.lo k x ≤ loc ∧ loc < N.hi k x) ∧
      (l.Pairwise fun a b => keyLess (keyOf N k a) (keyOf N k b) = some true ∧ keyLess (keyOf N k b) (keyOf N k a) = some false) ∧
      ∀ x y, succIn l x = some y → N.isPositive k x ≠ N.isPositive k y := by
  classical
  obtain ⟨a1, a2, a3, a4⟩ := splits_spec h ht
  have hcv := output_convex h ht hg hr
  have hD : D ≠ 0 := by rintro rfl; simp at hDk
  obtain ⟨hnd, hall⟩ := edges_once a1 a3 hg hr hs
  -- the point
  have ev1 : Ev fun ε => ∀ z ∈ c.2, ∀ β : Bool, (SameLine3 N e (num z.poly z.edge) ∧ N.lo k (num z.poly z.edge) ≤ loc ∧ loc < N.hi k (num z.poly z.edge) ∧ N.isPositive k (num z.poly z.edge) = β) ↔
      RunsThrough (A + ((loc - A k) / D k) • D + ε • D) (sig β • D) ((N.vertex (num z.poly z.edge)).pt, (N.target (num z.poly z.edge)).pt) := by
    refine ev_list _ fun z hzc => ?_
    obtain ⟨p, e1, e2, e3, e4, e5, e6⟩ := (hz z hzc).edge
    have hp := hcv _ (List.mem_of_getElem? (output_get e1))
    refine Conn.ev_over hDk he ?_ rfl rfl ?_ loc
    · rw [e3, e4, e5]; exact hp.line _ e2
    · rw [e3, e4]
      intro e0
      obtain ⟨s, _, hd⟩ := (hp.line _ e2).dir
      have h3 := hp.three
      have hm : (z.edge + 1) % p.poly.count < p.poly.count := Nat.mod_lt _ (by omega)
      have hne : (z.edge + 1) % p.poly.count ≠ z.edge := by
        rcases Nat.lt_or_ge (z.edge + 1) p.poly.count with c | c
        · rw [Nat.mod_eq_of_lt c]; omega
        · rw [show z.edge + 1 = p.poly.count by omega, Nat.mod_self]; omega
      rcases lt_or_gt_of_ne hne with c | c
      · exact hp.distinct _ _ c e2 e0
      · exact hp.distinct _ _ c hm e0.symm
  obtain ⟨ε, hε, hgen⟩ := (ev1.and (ev_genericPoint (output tr) hcv (A + ((loc - A k) / D k) • D) hD)).exists
  generalize A + ((loc - A k) / D k) • D + ε • D = P at hε hgen
  have half : ∀ z ∈ c.2, SameLine3 N e (num z.poly z.edge) ∧ N.lo k (num z.poly z.edge) ≤ loc ∧ loc < N.hi k (num z.poly z.edge) → ∃ p, (accepted tr)[z.poly]? = some p ∧ z.edge < p.poly.count ∧
      RunsThrough P (sig (N.isPositive k (num z.poly z.edge)) • D) (p.poly.pt z.edge, p.poly.pt ((z.edge + 1) % p.poly.count)) ∧ N.normal (N.poly (num z.poly z.edge)) = p.poly.plane.n := by
    intro z hzc ⟨q1, q2, q3⟩
    obtain ⟨p, e1, e2, e3, e4, e5, e6⟩ := (hz z hzc).edge
    refine ⟨p, e1, e2, ?_, e6⟩
    have := (hε z hzc _).1 ⟨q1, q2, q3, rfl⟩
    rw [e3, e4] at this
    exact this
  have back : ∀ z1 ∈ c.2, SameLine3 N e (num z1.poly z1.edge) ∧ N.lo k (num z1.poly z1.edge) ≤ loc ∧ loc < N.hi k (num z1.poly z1.edge) → ∀ Q ∈ output tr, ∀ β, Half Q P D β →
      ∃ z ∈ c.2, (SameLine3 N e (num z.poly z.edge) ∧ N.lo k (num z.poly z.edge) ≤ loc ∧ loc < N.hi k (num z.poly z.edge)) ∧ N.isPositive k (num z.poly z.edge) = β ∧
        N.normal (N.poly (num z.poly z.edge)) = Q.plane.n := by
    intro z1 hz1 act Q hQ β ⟨i, hi, hrun⟩
    obtain ⟨j, hj, ej⟩ := List.getElem_of_mem hQ
    have hj' : j < (accepted tr).length := by simpa [output] using hj
    have ej' : ((accepted tr)[j]).poly = Q := by rw [← ej]; simp [output]
    have hacc : (accepted tr)[j]? = some (accepted tr)[j] := List.getElem?_eq_getElem hj'
    have hm := (hall j i).2 ⟨_, hacc, by rw [ej']; exact hi⟩
    obtain ⟨c', hc', hm⟩ := List.mem_flatMap.1 hm
    obtain ⟨z, hzc', ez⟩ := List.mem_map.1 hm
    obtain ⟨ez1, ez2⟩ := Prod.mk.inj ez
    obtain ⟨p1, f1, f2, f3, f4⟩ := half z1 hz1 act
    have ends : EndsOf tr z (Q.pt i, Q.pt ((i + 1) % Q.count)) := ⟨(accepted tr)[j], by rw [ez1]; exact hacc, by rw [ez2, ej']; exact hi, by rw [ez2, ej']⟩
    obtain ⟨c'', hc'', m1, m2⟩ := same_call a1 a3 hg hr hs hcall hc' hz1 hzc' ⟨p1, f1, f2, rfl⟩ ends f3 (by
      rcases Bool.eq_or_eq_not β (N.isPositive k (num z1.poly z1.edge)) with eb | eb
      · rw [← eb]; exact Or.inl hrun
      · right
        rw [eb] at hrun
        cases hb : N.isPositive k (num z1.poly z1.edge) <;> rw [hb] at hrun <;> simpa [sig] using hrun)
    have := calls_disjoint hnd hcall hc'' hz1 m1
    subst this
    have hends := ends_unique (hz z m2).ends ends
    have := (hε z m2 β).2 (by rw [hends]; exact hrun)
    refine ⟨z, m2, ⟨this.1, this.2.1, this.2.2.1⟩, this.2.2.2, ?_⟩
    obtain ⟨p, e1, e2, e3, e4, e5, e6⟩ := (hz z m2).edge
    rw [ez1, hacc] at e1
    rw [e6, ← Option.some.inj e1, ej']
  -- the list
  obtain ⟨act, hact⟩ : ∃ act : Entry → Prop, ∀ z, act z ↔ SameLine3 N e (num z.poly z.edge) ∧ N.lo k (num z.poly z.edge) ≤ loc ∧ loc < N.hi k (num z.poly z.edge) := ⟨_, fun _ => Iff.rfl⟩
  simp only [← hact] at half back
  let l0 : List Nat := (c.2.filter fun z => decide (act z)).map fun z => num z.poly z.edge
  have mem0 : ∀ x, x ∈ l0 ↔ ∃ z ∈ c.2, act z ∧ x = num z.poly z.edge := by
    intro x
    simp only [l0, List.mem_map, List.mem_filter, decide_eq_true_eq]
    constructor
    · rintro ⟨z, ⟨m1, m2⟩, rfl⟩; exact ⟨z, m1, m2, rfl⟩
    · rintro ⟨z, m1, m2, rfl⟩; exact ⟨z, ⟨m1, m2⟩, rfl⟩
  have ndc : (c.2.map fun z => (z.poly, z.edge)).Nodup := (List.nodup_flatMap.1 hnd).1 c hcall
  have nd0 : l0.Nodup := by
    refine List.Nodup.map_on ?_ ((List.Nodup.of_map _ ndc).filter _)
    intro x hx y hy exy
    have mx := (List.mem_filter.1 hx).1
    have my := (List.mem_filter.1 hy).1
    obtain ⟨q1, q2⟩ := hinj x mx y my exy
    exact List.inj_on_of_nodup_map ndc mx my (by rw [q1, q2])
  let m : Nat → Q3 := fun x => sig (N.isPositive k x) • (N.normal (N.poly x)).q
  have mk : ∀ x, ∀ Q : Polygon EdgeInfo, N.normal (N.poly x) = Q.plane.n → m x = mOf Q (N.isPositive k x) := by
    intro x Q hQ
    simp only [m, mOf, hQ]
  have kv : ∀ x ∈ l0, KeyVec k D (m x) (keyOf N k x).normal := by
    intro x hx
    obtain ⟨z, hzc, za, rfl⟩ := (mem0 x).1 hx
    obtain ⟨p, f1, f2, f3, f4⟩ := half z hzc za
    have hQ := List.mem_of_getElem? (output_get f1)
    have hp := hcv _ hQ
    have nn : p.poly.plane.n.q ≠ 0 := by
      intro e0
      apply hp.drop
      have := congrFun e0 p.poly.drop
      simpa [V3.q] using this
    refine ⟨?_, ?_, ?_, ?_, ?_⟩
    · simp only [m, f4]
      exact smul_ne_zero (sig_ne _) nn
    · rw [mk _ _ f4]
      exact half_flat hp ⟨z.edge, f2, f3⟩
    · have o1 := hord _ hQ (k + 1)
      have o2 := hord _ hQ (k + 2)
      unfold keyOf NoMin2
      rw [f4]
      cases N.isPositive k (num z.poly z.edge)
      · simp only [Bool.false_eq_true, if_false, V2.neg, V3.dropDimension]
        exact ⟨fun q => o1.1 (neg_injective q), fun q => o2.1 (neg_injective q)⟩
      · simp only [if_true, V3.dropDimension]
        exact ⟨o1.2, o2.2⟩
    · unfold keyOf
      simp only [m]
      cases N.isPositive k (num z.poly z.edge) <;> simp [sig, V2.neg, V3.dropDimension, V3.q]
    · unfold keyOf
      simp only [m]
      cases N.isPositive k (num z.poly z.edge) <;> simp [sig, V2.neg, V3.dropDimension, V3.q]
  refine Exists.elim (Conn.sort_around (N := N) (m := m) hDk nd0 kv ?_ ?_ ?_) ?_
  · -- no two in the same place
    intro x hx y hy hne hpos t0 dpos
    obtain ⟨z, hzc, za, rfl⟩ := (mem0 x).1 hx
    obtain ⟨z', hzc', za', rfl⟩ := (mem0 y).1 hy
    obtain ⟨p, f1, f2, f3, f4⟩ := half z hzc za
    obtain ⟨p', f1', f2', f3', f4'⟩ := half z' hzc' za'
    rw [mk _ _ f4, mk _ _ f4', ← hpos] at t0 dpos
    rw [← hpos] at f3'
    by_cases hj : z.poly = z'.poly
    · rw [hj, f1'] at f1
      have := Option.some.inj f1
      subst this
      have := one_edge (hcv _ (List.mem_of_getElem? (output_get f1'))) (smul_ne_zero (sig_ne _) hD) f2 f2' f3 f3'
      exact hne (by rw [hj, this])
    · exact no_double h ht hf hk hg hr hc hD hgen hj (output_get f1) (output_get f1') ⟨_, f2, f3⟩ ⟨_, f2', f3'⟩ t0 dpos
  · -- as many of each kind
    have hb := C73_balance h ht hf hg hr hc hs (x := P) (by
      intro x hx
      obtain ⟨Q, hQ, i, hi, rfl⟩ := mem_sides.1 hx
      intro e0
      exact hgen.vertex Q hQ i hi (by rw [← e0])) D c hcall
    have count : ∀ β : Bool, l0.countP (fun x => decide (N.isPositive k x = β)) = runsIn tr c.2 P (sig β • D) := by
      intro β
      simp only [l0]
      unfold runsIn
      rw [List.countP_map, List.countP_filter]
      refine List.countP_congr fun z hzc => ?_
      simp only [Function.comp, Bool.and_eq_true, decide_eq_true_eq]
      constructor
      · rintro ⟨q1, q2⟩
        obtain ⟨r1, r2, r3⟩ := (hact z).1 q2
        exact ⟨_, (hz z hzc).ends, (hε z hzc β).1 ⟨r1, r2, r3, q1⟩⟩
      · rintro ⟨x, q1, q2⟩
        rw [ends_unique q1 (hz z hzc).ends] at q2
        obtain ⟨r1, r2, r3, r4⟩ := (hε z hzc β).2 q2
        exact ⟨r4, (hact z).2 ⟨r1, r2, r3⟩⟩
    have c1 := count true
    have c2 := count false
    simp only [sig, if_true, one_smul, Bool.false_eq_true, if_false, neg_smul] at c1 c2
    have e1 : l0.countP (fun a => N.isPositive k a) = l0.countP fun x => decide (N.isPositive k x = true) := List.countP_congr fun x _ => by simp
    have e2 : (l0.countP fun a => !N.isPositive k a) = l0.countP fun x => decide (N.isPositive k x = false) := List.countP_congr fun x _ => by simp
    rw [e1, e2, c1, c2, hb]
  · -- between neighbours
    intro x hx y hy hpos htw hgap hsame
    obtain ⟨z, hzc, za, rfl⟩ := (mem0 x).1 hx
    obtain ⟨z', hzc', za', rfl⟩ := (mem0 y).1 hy
    obtain ⟨p, f1, f2, f3, f4⟩ := half z hzc za
    obtain ⟨p', f1', f2', f3', f4'⟩ := half z' hzc' za'
    have m1 := mk _ _ f4
    have m2 := mk _ _ f4'
    rw [← hpos] at m2 f3'
    have W : Wedge (output tr) P D p.poly p'.poly (N.isPositive k (num z.poly z.edge)) := by
      refine ⟨List.mem_of_getElem? (output_get f1), List.mem_of_getElem? (output_get f1'), ⟨_, f2, f3⟩, ⟨_, f2', f3'⟩, by rw [← m1, ← m2]; exact htw, ?_⟩
      intro Q hQ β hh g1 g2
      obtain ⟨z2, hz2, q1, q2, q3⟩ := back z hzc za Q hQ β hh
      have m3 := mk _ _ q3
      rw [q2] at m3
      rw [← m1, ← m3] at g1
      rw [← m2, ← m3] at g2
      exact hgap _ ((mem0 _).2 ⟨z2, hz2, q1, rfl⟩) g1 g2
    refine alternate h ht hf hk hg hr hc hD hgen W ?_
    intro Q hQ hh g1 g2
    obtain ⟨z2, hz2, q1, q2, q3⟩ := back z hzc za Q hQ _ hh
    have m3 := mk _ _ q3
    rw [q2] at m3
    refine hsame _ ((mem0 _).2 ⟨z2, hz2, q1, rfl⟩) q2 ?_ ?_
    · rw [m3]
      cases hb : N.isPositive k (num z.poly z.edge) <;> rw [hb] at g1 m1 m2 <;> simp only [Bool.false_eq_true, if_false, if_true] at g1 ⊢
      · rw [m2]; exact g1
      · rw [m1]; exact g1
    · rw [m3]
      cases hb : N.isPositive k (num z.poly z.edge) <;> rw [hb] at g2 m1 m2 <;> simp only [Bool.false_eq_true, if_false, if_true] at g2 ⊢
      · rw [m2]; exact g2
      · rw [m1]; exact g2
  · rintro l ⟨hperm, hpw, halt⟩
    refine ⟨l, fun x => ?_, hpw, halt⟩
    rw [hperm.mem_iff, mem0]
    constructor
    · rintro ⟨z, z1, z2, rfl⟩
      exact ⟨⟨z, z1, rfl⟩, (hact z).1 z2⟩
    · rintro ⟨⟨z, z1, rfl⟩, q⟩
      exact ⟨z, z1, (hact z).2 q, rfl⟩
end

end Walnut.Props
