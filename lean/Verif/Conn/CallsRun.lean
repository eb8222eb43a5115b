/-
The calls of the connector during a traversal connect all edges.
-/
import Verif.Conn.NetOf

namespace Walnut.Props
open Walnut.Geom Walnut.Poly Walnut.Bsp
open Walnut.Conn (Net SameLine3 PlaneInput EdgeIn sortedDim succIn SortOk HeapOk SortFn HeapFns PlanePiece connectUnsorted sortEdges deedLess deedLess_strictWeak connectCall connectCalls edgeIds edgeNum netOf)

/-- Two half-edges are partners, and run between the same points in opposite directions. -/
structure Paired (N : Net) (e f : Nat) : Prop where
  forward : N.partner e = some f
  back : N.partner f = some e
  ne : f ≠ e
  start : (N.vertex e).pt = (N.target f).pt
  stop : (N.target e).pt = (N.vertex f).pt

/-- The facets of the second net are those of the first one, with more vertices on their edges. -/
structure Refines (N N' : Net) : Prop where
  count : N.count ≤ N'.count
  normal : N'.normal = N.normal
  cycle : ∀ p, (N.cycle p).Sublist (N'.cycle p)
  same : ∀ e < N.count, N'.line e = N.line e ∧ N'.vertex e = N.vertex e ∧ N'.poly e = N.poly e
  fresh : ∀ e, N.count ≤ e → e < N'.count → ∃ r < N.count, N'.poly e = N.poly r ∧ N'.line e = N.line r ∧ OnLine (N.line r) (N'.vertex e).pt ∧
    ∃ k, (N.line r).d.comp k ≠ 0 ∧ N.lo k r < (N'.vertex e).pt k ∧ (N'.vertex e).pt k < N.hi k r

theorem first_nonzero_some {n : V3} (h : n ≠ ⟨0, 0, 0⟩) : n.firstNonzeroDimension ≠ none := by
  obtain ⟨x, y, z⟩ := n
  unfold V3.firstNonzeroDimension
  intro e
  apply h
  simp only at e
  by_cases hx : x = 0
  · by_cases hy : y = 0
    · by_cases hz : z = 0
      · rw [hx, hy, hz]
      · simp [hx, hy, hz] at e
    · simp [hx, hy] at e
  · simp [hx] at e

theorem flatMap_sublist {α β : Type} (g : α → List β) {l l' : List α} (h : l.Sublist l') : (l.flatMap g).Sublist (l'.flatMap g) := by
  induction h with
  | slnil => exact List.Sublist.refl _
  | cons a _ ih => rw [List.flatMap_cons]; exact ih.trans (List.sublist_append_right _ _)
  | cons_cons a _ ih => rw [List.flatMap_cons, List.flatMap_cons]; exact (List.Sublist.refl _).append ih

section
variable {aabb : Bool} {d : NodeData} {S : List Source} (h : Reach aabb (.leaf d) S) {t : Node} (ht : Splits d t) {f : Filter} (hf : NoParity f)
  (hk : ∀ id ∈ invertedIds f, id < d.info.length) {choose : Choose} {group : Group} (hg : Grouping group) {pfuel fuel : Nat} {t' : Node} {tr : List Visit}
  (hr : traverse f.eval choose group pfuel fuel t = some (t', tr)) (hc : ∀ id, Closed (meshOf S id)) (hord : ∀ Q ∈ output tr, Ordinary Q.plane.n)
  {s : ConnState} (hs : connRun tr {} = some s) {T : SortFn} {o : HeapFns} (hT : SortOk T) (ho : HeapOk o) {num : Nat → Nat → Nat}
include h ht hf hk hg hr hc hord hs hT ho

/-- A call connects its edges. -/
theorem call_run {c : PlaneRef × List Entry} (hcall : c ∈ s.calls) {N : Net} (hN : N.Ok)
    (hz : ∀ z ∈ c.2, Shows tr N z (num z.poly z.edge)) (hinj : ∀ z ∈ c.2, ∀ z' ∈ c.2, num z.poly z.edge = num z'.poly z'.edge → z.poly = z'.poly ∧ z.edge = z'.edge) :
    ∃ N', connectCall T o num c N = some (N', 0) ∧ N'.Ok ∧ N.count ≤ N'.count ∧ N'.normal = N.normal ∧ (∀ p, (N.cycle p).Sublist (N'.cycle p)) ∧
      (∀ e < N.count, N'.line e = N.line e ∧ N'.vertex e = N.vertex e ∧ N'.poly e = N.poly e) ∧
      (∀ e < N.count, (∀ z ∈ c.2, e ≠ num z.poly z.edge) → N'.target e = N.target e ∧ N'.partner e = N.partner e) ∧
      (∀ e, N.count ≤ e → e < N'.count → ∃ z ∈ c.2, N'.poly e = N.poly (num z.poly z.edge) ∧ N'.line e = N.line (num z.poly z.edge) ∧
        OnLine (N.line (num z.poly z.edge)) (N'.vertex e).pt ∧ ∃ k, (N.line (num z.poly z.edge)).d.comp k ≠ 0 ∧
          N.lo k (num z.poly z.edge) < (N'.vertex e).pt k ∧ (N'.vertex e).pt k < N.hi k (num z.poly z.edge)) ∧
      (∀ e, ((∃ z ∈ c.2, e = num z.poly z.edge) ∨ (N.count ≤ e ∧ e < N'.count)) → ∃ f, Paired N' e f) := by
  obtain ⟨a1, a2, a3, a4⟩ := splits_spec h ht
  unfold connectCall
  cases hd : c.1.plane.n.firstNonzeroDimension with
  | none =>
    have h0 : c.2 = [] := by
      by_contra hne
      exact first_nonzero_some (call_normal a1 a3 hg hr hs c hcall hne) hd
    simp only [if_pos h0]
    refine ⟨N, rfl, hN, le_rfl, rfl, fun _ => List.Sublist.refl _, fun _ _ => ⟨rfl, rfl, rfl⟩, fun _ _ _ => ⟨rfl, rfl⟩, fun e g1 g2 => by omega, ?_⟩
    rintro e (⟨z, hz, _⟩ | ⟨g1, g2⟩)
    · rw [h0] at hz; cases hz
    · omega
  | some drop =>
    have hdrop := first_nonzero hd
    have hi0 := call_input h ht hg hr hs hcall hz hinj hN hdrop (List.Perm.refl _)
    obtain ⟨nn, cc, hn, hp⟩ := hi0.plane
    obtain ⟨d1, d2⟩ := deedLess_strictWeak hi0.ok hn hp
    obtain ⟨hperm, _⟩ := hT _ _ d2
    have hsort : sortEdges T N drop (c.2.map fun z => some (num z.poly z.edge)) = some (T.sort (fun a b => (deedLess N drop a b).getD false) (c.2.map fun z => some (num z.poly z.edge))) := by
      unfold sortEdges; rw [if_pos d1]
    simp only [hsort]
    generalize T.sort (fun a b => (deedLess N drop a b).getD false) (c.2.map fun z => some (num z.poly z.edge)) = l at hperm
    have hi := call_input h ht hg hr hs hcall hz hinj hN hdrop hperm
    obtain ⟨R, Ord, hcl⟩ := call_closed h ht hf hk hg hr hc hord hs hcall hz hinj hN hdrop hperm
    obtain ⟨N', run, part, _⟩ := C53_plane_closed hT ho hi hcl
    obtain ⟨f1, f2, f3, f4, f5, f6, f7⟩ := C53_plane_frame hT ho hi run
    obtain ⟨p1, p2⟩ := C53_plane_partners hT ho hi run
    have mem : ∀ e, some e ∈ l ↔ ∃ z ∈ c.2, e = num z.poly z.edge := by
      intro e
      rw [hperm.mem_iff, List.mem_map]
      constructor
      · rintro ⟨z, z1, z2⟩; exact ⟨z, z1, (Option.some.inj z2).symm⟩
      · rintro ⟨z, z1, rfl⟩; exact ⟨z, z1, rfl⟩
    refine ⟨N', run, f1, f2, f3, f4, f5, ?_, ?_, ?_⟩
    · intro e he hne
      exact f6 e he fun hcon => by
        obtain ⟨z, z1, z2⟩ := (mem e).1 hcon
        exact hne z z1 z2
    · intro e g1 g2
      obtain ⟨r, r1, r2⟩ := f7 e g1 g2
      obtain ⟨z, z1, rfl⟩ := (mem r).1 r1
      exact ⟨z, z1, r2⟩
    · intro e he
      have hpc : PlanePiece N N' l e := he.imp_left (mem e).2
      obtain ⟨f, hf⟩ := part e hpc
      obtain ⟨_, q1, q2, q3⟩ := p2 e f hpc hf
      exact ⟨f, hf, p1 e f hf, q1, q2, q3⟩

/-- The remaining calls connect the remaining edges. -/
theorem calls_run (hinj : ∀ c ∈ s.calls, ∀ z ∈ c.2, ∀ c' ∈ s.calls, ∀ z' ∈ c'.2, num z.poly z.edge = num z'.poly z'.edge → z.poly = z'.poly ∧ z.edge = z'.edge) {N0 : Net} :
    ∀ (cs : List (PlaneRef × List Entry)), cs.Sublist s.calls → ∀ N : Net, N.Ok → Refines N0 N →
      (∀ c ∈ cs, ∀ z ∈ c.2, Shows tr N z (num z.poly z.edge) ∧ num z.poly z.edge < N0.count ∧ N.target (num z.poly z.edge) = N0.target (num z.poly z.edge)) →
      (∀ e < N.count, (∃ f, Paired N e f) ∨ ∃ c ∈ cs, ∃ z ∈ c.2, e = num z.poly z.edge) →
      ∃ N', connectCalls T o num cs N = some (N', 0) ∧ N'.Ok ∧ Refines N0 N' ∧ ∀ e < N'.count, ∃ f, Paired N' e f
  | [], _, N, hN, href, _, hall => ⟨N, rfl, hN, href, fun e he => (hall e he).resolve_right fun ⟨c, hc, _⟩ => by cases hc⟩
  | c :: cs, hsub, N, hN, href, hz, hall => by
    obtain ⟨a1, a2, a3, a4⟩ := splits_spec h ht
    obtain ⟨hnd, _⟩ := edges_once a1 a3 hg hr hs
    have hcall : c ∈ s.calls := hsub.subset (List.mem_cons_self ..)
    have hrest : ∀ c' ∈ cs, c' ∈ s.calls := fun c' hc' => hsub.subset (List.mem_cons_of_mem _ hc')
    have hzc : ∀ z ∈ c.2, Shows tr N z (num z.poly z.edge) := fun z hz' => (hz c (List.mem_cons_self ..) z hz').1
    obtain ⟨N1, run, ok, cnt, nrm, cyc, same, other, fresh, paired⟩ := call_run h ht hf hk hg hr hc hord hs hT ho (num := num) hcall hN hzc
      (fun z h1 z' h2 => hinj c hcall z h1 c hcall z' h2)
    have hnd' : ((c :: cs).flatMap fun c => c.2.map fun z => (z.poly, z.edge)).Nodup := by
      exact (flatMap_sublist _ hsub).nodup hnd
    have disj : ∀ c' ∈ cs, ∀ z' ∈ c'.2, ∀ z ∈ c.2, num z'.poly z'.edge ≠ num z.poly z.edge := by
      intro c' hc' z' hz' z hzz e
      obtain ⟨q1, q2⟩ := hinj c' (hrest c' hc') z' hz' c hcall z hzz e
      rw [List.flatMap_cons, List.nodup_append] at hnd'
      refine hnd'.2.2 (z.poly, z.edge) (List.mem_map_of_mem (f := fun z : Entry => (z.poly, z.edge)) hzz) (z'.poly, z'.edge) ?_ (by rw [q1, q2])
      exact List.mem_flatMap.2 ⟨c', hc', List.mem_map_of_mem (f := fun z : Entry => (z.poly, z.edge)) hz'⟩
    have href' : Refines N0 N1 := by
      refine ⟨href.count.trans cnt, nrm.trans href.normal, fun p => (href.cycle p).trans (cyc p), ?_, ?_⟩
      · intro e he
        obtain ⟨b1, b2, b3⟩ := same e (lt_of_lt_of_le he href.count)
        obtain ⟨b1', b2', b3'⟩ := href.same e he
        exact ⟨b1.trans b1', b2.trans b2', b3.trans b3'⟩
      · intro e g1 g2
        by_cases g3 : e < N.count
        · obtain ⟨r, r0, r1, r2, r3⟩ := href.fresh e g1 g3
          obtain ⟨b1, b2, b3⟩ := same e g3
          exact ⟨r, r0, b3.trans r1, b1.trans r2, by rw [b2]; exact r3⟩
        · obtain ⟨z, hzz, r1, r2, r3, k, r4, r5, r6⟩ := fresh e (not_lt.1 g3) g2
          obtain ⟨_, z0, zt⟩ := hz c (List.mem_cons_self ..) z hzz
          obtain ⟨b1, b2, b3⟩ := href.same _ z0
          refine ⟨_, z0, by rw [r1, b3], by rw [r2, b1], by rw [← b1]; exact r3, k, by rw [← b1]; exact r4, ?_, ?_⟩
          · unfold Net.lo Net.loPt at r5 ⊢
            rw [b2, zt] at r5
            simpa [Net.isPositive, b1] using r5
          · unfold Net.hi Net.hiPt at r6 ⊢
            rw [b2, zt] at r6
            simpa [Net.isPositive, b1] using r6
    obtain ⟨N', run', rest⟩ := calls_run hinj cs ((List.sublist_cons_self c cs).trans hsub) N1 ok href' (by
      intro c' hc' z hz'
      obtain ⟨zs, z0, zt⟩ := hz c' (List.mem_cons_of_mem _ hc') z hz'
      obtain ⟨t1, t2⟩ := other _ zs.lt (disj c' hc' z hz')
      obtain ⟨b1, b2, b3⟩ := same _ zs.lt
      refine ⟨⟨?_, lt_of_lt_of_le zs.lt cnt, ?_, by rw [t2]; exact zs.free⟩, z0, t1.trans zt⟩
      · obtain ⟨p, e1, e2, e3, e4, e5, e6⟩ := zs.edge
        exact ⟨p, e1, e2, b2.trans e3, t1.trans e4, b1.trans e5, by rw [nrm, b3]; exact e6⟩
      · rw [b3]; exact zs.size.trans (cyc _).length_le) (by
      intro e he
      by_cases g : e < N.count
      · by_cases hm : ∃ z ∈ c.2, e = num z.poly z.edge
        · exact Or.inl (paired e (Or.inl hm))
        · rcases hall e g with ⟨f, hp⟩ | ⟨c', hc', z, hz', rfl⟩
          · left
            have free : ∀ x y, N.partner x = some y → ∀ z ∈ c.2, x ≠ num z.poly z.edge := by
              rintro x y hx z hz' rfl
              rw [(hzc z hz').free] at hx; cases hx
            have g' : f < N.count := hN.exist f e hp.back
            obtain ⟨t1, t2⟩ := other e g (free e f hp.forward)
            obtain ⟨u1, u2⟩ := other f g' (free f e hp.back)
            exact ⟨f, t2.trans hp.forward, u2.trans hp.back, hp.ne, by rw [(same e g).2.1, u1]; exact hp.start, by rw [(same f g').2.1, t1]; exact hp.stop⟩
          · rcases List.mem_cons.1 hc' with rfl | hc''
            · exact absurd ⟨z, hz', rfl⟩ hm
            · exact Or.inr ⟨c', hc'', z, hz', rfl⟩
      · exact Or.inl (paired e (Or.inr ⟨not_lt.1 g, he⟩)))
    refine ⟨N', ?_, rest⟩
    rw [connectCalls, run]
    simp only [run', Option.map_some, Nat.zero_add]
end

end Walnut.Props
