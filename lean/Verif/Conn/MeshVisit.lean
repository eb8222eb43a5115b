/-
The calls of `LeaveInteriorNode` connect and merge without errors.
-/
import Verif.Conn.MeshClosed
import Verif.Conn.CallsRun

namespace Walnut.Conn
open Walnut.Geom Walnut.Poly Walnut.Bsp Walnut.Props

/-- What the C++ standard says about `sort`, see `SortOk`. -/
def EntrySortOk (D : EntrySort) : Prop :=
  ∀ less l, StrictWeak less l → (D.sort less l).Perm l ∧ (D.sort less l).Pairwise fun a b => less b a = false

/-- Insertion sort. -/
def entrySort : EntrySort where
  sort := sortDeeds

theorem entrySort_ok : EntrySortOk entrySort := fun _ _ h => sortDeeds_ok h

theorem depth_strictWeak (l : List Entry) : StrictWeak (fun a b => decide (b.depth < a.depth)) l := by
  refine ⟨fun a _ => by simp, fun a _ b _ c _ h1 h2 => ?_, fun a _ b _ c _ h1 h2 h3 h4 => ?_⟩
  · simp only [decide_eq_true_eq] at *; omega
  · simp only [decide_eq_false_iff_not] at *; omega

section
variable {X : Plan} {W0 : World} {m : Nat} {M : Mesh} {G org lab : Nat → Nat} {N0 : Net}

/-- A round without half-edges. -/
theorem Inv.skip {W : World} (h : X.Inv W0 m W G org lab) (he : ∀ z < X.n, X.call z ≠ m) : X.Inv W0 (m + 1) W G org lab := by
  have up : ∀ z, z < X.n → (m ≤ X.call z ↔ m + 1 ≤ X.call z) := by
    intro z hz
    have := he z hz
    omega
  refine ⟨h.linked, h.small, ?_, h.base, fun i j e => (h.group i j e).mono (Nat.le_succ m), fun i j e => (h.near i j e).mono (Nat.le_succ m), ?_, h.groups, h.planes⟩
  · intro p e hm
    obtain ⟨h1, h2, h3, h4, h5⟩ := h.orgs p e hm
    exact ⟨h1, h2, h3, h4.trans (up _ h1), h5⟩
  · have ht := h.tiled
    refine ⟨?_, fun z h1 h2 => ht.exist z h1 (by omega), fun z h1 h2 => ht.same z h1 (by omega), ht.along, ht.uniq⟩
    intro x A B hx k hk t
    rw [ht.cover x A B hx k hk t]
    constructor
    · rintro ⟨z, h1, h2, h3⟩; exact ⟨z, h1, (up z h1).1 h2, h3⟩
    · rintro ⟨z, h1, h2, h3⟩; exact ⟨z, h1, (up z h1).2 h2, h3⟩

/-- What a call is about. -/
structure Round (X : Plan) (N0 : Net) (num : Nat → Nat → Nat) (c : PlaneRef × List Entry) (m : Nat) : Prop where
  plane : InPlane X m c.1.plane.n c.1.plane.d
  labels : ∀ x, (∃ z ∈ c.2, num z.poly z.edge = x) ↔ x < X.n ∧ X.call x = m
  nodup : (c.2.map fun z => num z.poly z.edge).Nodup
  normal : c.2 ≠ [] → c.1.plane.n ≠ ⟨0, 0, 0⟩
  closed : ∀ drop, c.1.plane.n.comp drop ≠ 0 → ∃ (R : Nat → List Nat) (Ord : Nat → ℚ → List Nat), ∀ e < X.n, X.call e = m →
      (∀ x, x ∈ R e ↔ (x < X.n ∧ X.call x = m) ∧ SameLine3 N0 e x) ∧ Conn.Closed (sortedDim N0 drop e) (R e) N0 (Ord e)

theorem visit_round (hX : X.Good) (hI : X.Inv W0 m M.world G org lab) (hM : M.Good) (hcount : X.n ≤ M.count) (hO : Origin X W0 N0)
    {num : Nat → Nat → Nat} {c : PlaneRef × List Entry} (hr : Round X N0 num c m) {T : SortFn} {o : HeapFns} {D : EntrySort} (hT : SortOk T) (ho : HeapOk o) (hD : EntrySortOk D) :
    ∃ M', visitCall T o D num c M = some (M', 0) ∧ M'.Good ∧ X.n ≤ M'.count ∧ M'.size = M.size ∧ ∃ G' org' lab', X.Inv W0 (m + 1) M'.world G' org' lab' := by
  unfold visitCall
  cases hd : c.1.plane.n.firstNonzeroDimension with
  | none =>
    have h0 : c.2 = [] := by
      by_contra hne
      exact first_nonzero_some (hr.normal hne) hd
    simp only [if_pos h0]
    refine ⟨M, rfl, hM, hcount, rfl, G, org, lab, Inv.skip hI ?_⟩
    intro z z1 z2
    obtain ⟨y, hy, -⟩ := (hr.labels z).2 ⟨z1, z2⟩
    rw [h0] at hy; cases hy
  | some drop =>
    have hdrop := first_nonzero hd
    have hR := toNet_rep hM
    have hl0 : ∀ e, some e ∈ c.2.map (fun z => M.deed (num z.poly z.edge)) ↔ X.call e = m ∧ ∃ A B, Open M.world e A B := by
      intro e
      rw [List.mem_map]
      constructor
      · rintro ⟨z, hz, he⟩
        unfold Mesh.deed at he
        split_ifs at he with hs
        obtain rfl := Option.some.inj he
        obtain ⟨h1, h2⟩ := (hr.labels _).1 ⟨z, hz, rfl⟩
        obtain ⟨p, f, hf, hfe⟩ := (index_isSome hI.linked).1 hs
        refine ⟨h2, ?_⟩
        obtain ⟨o1, o2, o3, o4, o5⟩ := hI.orgs p f hf
        have hnone : M.world.partner f.data = none := by
          rw [o4, hfe, hI.base _ h1, h2]
        obtain ⟨q1, x, q2, rfl⟩ := hR.mem.1 hf
        have hx : x = num z.poly z.edge := hfe
        rw [← hx]
        exact ⟨_, _, hR.open.2 ⟨p, q1, q2, rfl, rfl, by rw [← hR.partner p q1 x q2]; exact hnone⟩⟩
      · rintro ⟨h1, A, B, h2⟩
        obtain ⟨z, hz, rfl⟩ := (hr.labels e).2 ⟨(hI.open_edge h2).1, h1⟩
        refine ⟨z, hz, ?_⟩
        unfold Mesh.deed
        obtain ⟨⟨p, hp⟩, -⟩ := h2
        obtain ⟨f, hf, hfe, -⟩ := Plan.edge_of_half hp
        rw [if_pos ((index_isSome hI.linked).2 ⟨p, f, hf, hfe⟩)]
    have hnd0 : ((c.2.map fun z => M.deed (num z.poly z.edge)).filterMap id).Nodup := by
      have e : (c.2.map fun z => M.deed (num z.poly z.edge)).filterMap id = (c.2.map fun z => num z.poly z.edge).filter fun x => (M.world.index x).isSome := by
        rw [← List.filterMap_eq_filter, List.filterMap_map, List.filterMap_map]
        congr 1
      rw [e]
      exact hr.nodup.filter _
    have hi0 := round_input hI hR hO hr.plane hdrop hnd0 hl0
    obtain ⟨nn, cc, hn, hp⟩ := hi0.plane
    obtain ⟨d1, d2⟩ := deedLess_strictWeak hi0.ok hn hp
    obtain ⟨hperm, -⟩ := hT _ _ d2
    have hsort : sortEdges T M.toNet drop (c.2.map fun z => M.deed (num z.poly z.edge)) =
        some (T.sort (fun a b => (deedLess M.toNet drop a b).getD false) (c.2.map fun z => M.deed (num z.poly z.edge))) := by
      unfold sortEdges; rw [if_pos d1]
    simp only [hsort]
    generalize T.sort (fun a b => (deedLess M.toNet drop a b).getD false) (c.2.map fun z => M.deed (num z.poly z.edge)) = l at hperm
    have hl : ∀ e, some e ∈ l ↔ X.call e = m ∧ ∃ A B, Open M.world e A B := fun e => by rw [hperm.mem_iff]; exact hl0 e
    have hi := round_input hI hR hO hr.plane hdrop ((hperm.filterMap id).nodup_iff.2 hnd0) hl
    obtain ⟨R, Ord, hcl⟩ := round_closed hI hR hO hr.plane hdrop hl (hr.closed drop hdrop)
    obtain ⟨N', run, part, -⟩ := C53_plane_closed hT ho hi hcl
    obtain ⟨good, org', hI'⟩ := connect_round hX hI hR (toNet_fin hM) (by rw [hR.count]; exact hcount) hT ho hl hi run
    simp only [run]
    obtain ⟨W', run', within, G', lab', hI''⟩ := hI'.mergeList hX hdrop ((D.sort (fun a b => decide (b.depth < a.depth)) c.2).map fun z => num z.poly z.edge) (by
      intro x hx
      obtain ⟨z, hz, rfl⟩ := List.mem_map.1 hx
      obtain ⟨h1, h2⟩ := (hr.labels _).1 ⟨z, (hD _ _ (depth_strictWeak c.2)).1.mem_iff.1 hz, rfl⟩
      refine ⟨h1, h2, ?_⟩
      obtain ⟨s, s0, hdir⟩ := (hO.edge _ h1).1.dir
      have hS := hr.plane.start _ h1 h2
      have hE := hr.plane.stop _ h1 h2
      have key : c.1.plane.n.q 0 * (X.line (num z.poly z.edge)).d.q 0 + c.1.plane.n.q 1 * (X.line (num z.poly z.edge)).d.q 1 + c.1.plane.n.q 2 * (X.line (num z.poly z.edge)).d.q 2 = 0 := by
        rw [hdir, hdir, hdir]; linear_combination s * hE - s * hS
      unfold V3.q V3.comp at key
      unfold V3.dot
      exact_mod_cast key)
    refine ⟨⟨W', M.size, N'.count⟩, by rw [run']; rfl, ⟨hI''.linked, ?_, ?_⟩, ?_, rfl, G', org', lab', hI''⟩
    · intro p e he
      obtain ⟨s', hs'⟩ := (within p e he).2
      exact good.labels s' e hs'
    · intro p hp
      by_contra hne
      obtain ⟨e, he⟩ := List.exists_mem_of_ne_nil _ hne
      exact (within p e he).1 (good.empty p hp)
    · have := (C53_plane_frame hT ho hi run).2.1
      rw [hR.count] at this
      exact hcount.trans this

/-- The calls from one on. -/
theorem visit_rounds (hX : X.Good) (hO : Origin X W0 N0) {num : Nat → Nat → Nat} {T : SortFn} {o : HeapFns} {D : EntrySort} (hT : SortOk T) (ho : HeapOk o) (hD : EntrySortOk D)
    (cs : List (PlaneRef × List Entry)) (hr : ∀ i c, cs[i]? = some c → Round X N0 num c (m + i)) (hI : X.Inv W0 m M.world G org lab) (hM : M.Good) (hcount : X.n ≤ M.count) :
    ∃ M', visitCalls T o D num cs M = some (M', 0) ∧ M'.Good ∧ M'.size = M.size ∧ ∃ G' org' lab', X.Inv W0 (m + cs.length) M'.world G' org' lab' := by
  induction cs generalizing m M G org lab with
  | nil => exact ⟨M, rfl, hM, rfl, G, org, lab, hI⟩
  | cons c cs ih =>
    obtain ⟨M1, run, good, hc, hs, G1, org1, lab1, hI1⟩ := visit_round hX hI hM hcount hO (hr 0 c rfl) hT ho hD
    obtain ⟨M2, run2, good2, hs2, G2, org2, lab2, hI2⟩ := ih (fun i c' hc' => by
      have := hr (i + 1) c' (by simpa using hc')
      rwa [show m + 1 + i = m + (i + 1) by omega]) hI1 good hc
    refine ⟨M2, ?_, good2, hs2.trans hs, G2, org2, lab2, by rw [List.length_cons, show m + (cs.length + 1) = m + 1 + cs.length by omega]; exact hI2⟩
    rw [visitCalls, run]
    simp only [run2, Option.map_some, Nat.zero_add]

end

end Walnut.Conn
