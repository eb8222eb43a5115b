/- Processing the edges that end at a location. -/
import Verif.Conn.Repartner

namespace Walnut.Conn
open Walnut.Geom Walnut.Props

/-- No element's key is less than that of its parent. -/
def HeapBy (key : Nat → ℚ) (l : List Nat) : Prop := ∀ (i a b : Nat), l[i / 2]? = some a → l[i + 1]? = some b → key a ≤ key b

theorem HeapBy.top {key : Nat → ℚ} {a : Nat} {l : List Nat} (h : HeapBy key (a :: l)) : ∀ b ∈ a :: l, key a ≤ key b := by
  have : ∀ n : Nat, ∀ b, (a :: l)[n]? = some b → key a ≤ key b := by
    intro n
    induction n using Nat.strong_induction_on with
    | _ n ih =>
      intro b hb
      cases n with
      | zero => simp at hb; rw [hb]
      | succ n =>
        have hlt : n / 2 < (a :: l).length := by
          have := (List.getElem?_eq_some_iff.1 hb).1
          omega
        have hc : (a :: l)[n / 2]? = some (a :: l)[n / 2] := List.getElem?_eq_getElem hlt
        exact (ih (n / 2) (by omega) _ hc).trans (h n _ b hc hb)
  intro b hb
  obtain ⟨n, hn⟩ := List.mem_iff_getElem?.1 hb
  exact this n b hn

section
variable {k : Fin 3} {C : HP3 → Prop} {L : PL → Prop} {R : List Nat} {N0 : Net} {s s' : St} {x y : ℚ} {loc : HP3}
  {Ord : ℚ → List Nat} {rest : List Nat} {o : HeapFns}

theorem Core.endLoc (hs : Core k C L R N0 s x) {h : Nat} (hh : h ∈ s.order) : s.net.endLoc k (s.edge h) = some (N0.hiPt k h) := by
  obtain ⟨a1, a2, a3, a4, a5, a6⟩ := hs.act h hh
  rw [hs.net.ok.endLoc a2, a6]

theorem Core.hiC (hs : Core k C L R N0 s x) {h : Nat} (hh : h ∈ s.order) : C (N0.hiPt k h) := by
  obtain ⟨a1, a2, a3, a4, a5, a6⟩ := hs.act h hh
  rw [← a6]
  obtain ⟨_, o2, o3⟩ := hs.net.on _ a1 a2
  unfold Net.hiPt
  split
  · exact o3
  · exact o2

theorem Core.endLess (hL : Lined k C L) (hs : Core k C L R N0 s x) {a b : Nat} (ha : a ∈ s.order) (hb : b ∈ s.order) :
    endLess k s a b = true ↔ N0.hi k b < N0.hi k a := by
  unfold Conn.endLess
  rw [hs.endLoc ha, hs.endLoc hb]
  exact isLocationLess_iff (hL.fin _ (hs.hiC hb)) (hL.fin _ (hs.hiC ha))

theorem Core.byKey (hL : Lined k C L) (hs : Core k C L R N0 s x) {l : List Nat} (hl : ∀ a ∈ l, a ∈ s.order) : ByKey (Conn.endLess k s) l :=
  ⟨fun a => - N0.hi k a, fun a ha b hb => by rw [hs.endLess hL (hl a ha) (hl b hb)]; constructor <;> intro h <;> linarith⟩

theorem Core.heapBy (hL : Lined k C L) (hs : Core k C L R N0 s x) {l : List Nat} (hl : ∀ a ∈ l, a ∈ s.order) :
    IsHeap (Conn.endLess k s) l ↔ HeapBy (N0.hi k) l := by
  have key : ∀ a ∈ l, ∀ b ∈ l, (Conn.endLess k s a b = false ↔ N0.hi k a ≤ N0.hi k b) := by
    intro a ha b hb
    rw [← not_lt, ← hs.endLess hL (hl a ha) (hl b hb)]
    simp
  constructor
  · intro h i a b ha hb
    exact (key a (List.mem_of_getElem? ha) b (List.mem_of_getElem? hb)).1 (h i a b ha hb)
  · intro h i a b ha hb
    exact (key a (List.mem_of_getElem? ha) b (List.mem_of_getElem? hb)).2 (h i a b ha hb)

/-- The invariant of the loop over the edges that end; `s0` is the state before it. -/
structure EndInv (k : Fin 3) (N0 : Net) (s0 s : St) (y : ℚ) (heap done : List Nat) : Prop where
  st : ∃ need mate, s = { s0 with need := need, mate := mate }
  perm : (heap ++ done).Perm s0.order
  by_ : HeapBy (N0.hi k) heap
  ge : ∀ h ∈ heap, y ≤ N0.hi k h
  fin : ∀ h ∈ done, N0.hi k h = y
  self : ∀ h ∈ done, s.mate h = some h
  mate : ∀ h ∈ heap, ((∃ p ∈ done, s0.mate h = some p) → s.mate h = none) ∧ ((¬ ∃ p ∈ done, s0.mate h = some p) → s.mate h = s0.mate h)
  need : ∀ h ∈ s.need, h ∈ s0.order
  needed : ∀ h ∈ heap, (∃ p ∈ done, s0.mate h = some p) → h ∈ s.need

theorem Core.update {s0 : St} (hs : Core k C L R N0 s0 x) (hp : ∃ need mate, s = { s0 with need := need, mate := mate }) {h : Nat}
    (hh : h ∈ s0.order) : s.net.endLoc k (s.edge h) = some (N0.hiPt k h) := by
  obtain ⟨need, mate, rfl⟩ := hp
  exact hs.endLoc hh

theorem endLoop_spec (hL : Lined k C L) (ho : HeapOk o) {s0 : St} (hs : Core k C L R N0 s0 x) (hp : ∀ h ∈ s0.order, Proper s0 h)
    (hC : C loc) (hy : loc.pt k = y) : ∀ (n : Nat) (s : St) (heap done : List Nat), n = heap.length → EndInv k N0 s0 s y heap done →
    ∃ s' heap' done', endLoop o k loc n s heap done = some (s', heap', done') ∧ EndInv k N0 s0 s' y heap' done' ∧ ∀ h ∈ heap', y < N0.hi k h := by
  intro n
  induction n with
  | zero =>
    intro s heap done hn hI
    have : heap = [] := List.eq_nil_of_length_eq_zero hn.symm
    subst this
    exact ⟨s, [], done, by unfold endLoop; rfl, hI, by simp⟩
  | succ n ih =>
    intro s heap done hn hI
    cases heap with
    | nil => simp at hn
    | cons h t =>
      have sub : ∀ g ∈ h :: t, g ∈ s0.order := fun g hg => hI.perm.mem_iff.1 (List.mem_append_left _ hg)
      have hh := sub h List.mem_cons_self
      have nd : (h :: t ++ done).Nodup := hI.perm.nodup_iff.2 hs.nodup
      have nd1 : h ∉ t ∧ h ∉ done := by
        rw [List.cons_append, List.nodup_cons, List.mem_append, not_or] at nd
        exact nd.1
      have disj : ∀ g ∈ t, g ∉ done := fun g hg hd => (List.nodup_append.1 nd).2.2 g (List.mem_cons_of_mem _ hg) g hd rfl
      unfold endLoop
      rw [if_neg (by
        simp only [Bool.not_eq_true', Bool.not_eq_false, List.all_eq_true]
        intro g hg
        rw [hs.update hI.st (sub g hg)]; rfl)]
      rw [hs.update hI.st hh]
      simp only
      obtain ⟨a1, a2, a3, a4, a5, a6⟩ := hs.act h hh
      have heq := hL.eq_iff (hs.net.on _ a1 a2).1 (hs.hiC hh) hC
      by_cases hc : (N0.hiPt k h).eq loc = true
      · rw [if_pos hc]
        have hhy : N0.hi k h = y := by rw [← hy]; exact heq.1 hc
        have nodone : (∃ p ∈ done, s0.mate h = some p) → s.mate h = none := (hI.mate h List.mem_cons_self).1
        -- the state after `unmate`
        have un : ∃ s1, unmate s h = some s1 ∧ (∃ need mate, s1 = { s0 with need := need, mate := mate }) ∧
            (∀ g ∈ done, s1.mate g = s.mate g) ∧ (∀ g ∈ s1.need, g ∈ s0.order) ∧ (∀ g ∈ s.need, g ∈ s1.need) ∧
            (∀ g ∈ t, s0.mate g = some h → s1.mate g = none ∧ g ∈ s1.need) ∧ (∀ g ∈ t, s0.mate g ≠ some h → s1.mate g = s.mate g) := by
          unfold unmate
          cases hm : s.mate h with
          | none =>
            refine ⟨s, rfl, hI.st, fun _ _ => rfl, hI.need, fun _ hg => hg, ?_, fun _ _ _ => rfl⟩
            intro g hg hgm
            have h1 := (hp g (sub g (List.mem_cons_of_mem _ hg))).2 h hgm
            by_cases hd : ∃ p ∈ done, s0.mate h = some p
            · obtain ⟨p, p1, p2⟩ := hd
              rw [h1] at p2; cases p2
              exact absurd p1 (disj g hg)
            · have := (hI.mate h List.mem_cons_self).2 hd
              rw [hm, h1] at this
              cases this
          | some p =>
            simp only
            have hnd : ¬ ∃ p ∈ done, s0.mate h = some p := fun hd => by rw [nodone hd] at hm; cases hm
            have hm0 : s0.mate h = some p := by rw [← (hI.mate h List.mem_cons_self).2 hnd]; exact hm
            have hmp0 := (hp h hh).2 p hm0
            have hpin := hs.mateIn h hh p hm0
            have hpd : p ∉ done := fun hd => hnd ⟨p, hd, hm0⟩
            have hpt : p ∈ t := by
              rcases List.mem_append.1 (hI.perm.mem_iff.2 hpin.1) with h1 | h1
              · rcases List.mem_cons.1 h1 with rfl | h1
                · exact absurd rfl hpin.2
                · exact h1
              · exact absurd h1 hpd
            have hmp : s.mate p = some h := by
              rw [(hI.mate p (List.mem_cons_of_mem _ hpt)).2, hmp0]
              rintro ⟨q, q1, q2⟩
              rw [hmp0] at q2; cases q2
              exact nd1.2 q1
            rw [if_pos hmp]
            obtain ⟨need, mate, rfl⟩ := hI.st
            refine ⟨_, rfl, ⟨_, _, rfl⟩, ?_, ?_, ?_, ?_, ?_⟩
            · intro g hg
              have : g ≠ p := by rintro rfl; exact hpd hg
              simp [this]
            · intro g hg
              simp only [List.mem_cons] at hg
              rcases hg with rfl | rfl | hg
              · exact hpin.1
              · exact hpin.1
              · exact hI.need g hg
            · intro g hg
              exact List.mem_cons_of_mem _ (List.mem_cons_of_mem _ hg)
            · intro g hg hgm
              have h1 := (hp g (sub g (List.mem_cons_of_mem _ hg))).2 h hgm
              rw [hm0] at h1; cases h1
              simp
            · intro g hg hgm
              have : g ≠ p := by rintro rfl; exact hgm hmp0
              simp [this]
        obtain ⟨s1, e1, e2, e3, e4, e5, e6, e7⟩ := un
        rw [e1]
        simp only
        obtain ⟨need1, mate1, rfl⟩ := e2
        have hless : Conn.endLess k { ({ s0 with need := need1, mate := mate1 } : St) with mate := Function.update mate1 h (some h) } = Conn.endLess k s0 := rfl
        rw [hless]
        obtain ⟨q, q1, q2, q3⟩ := ho.pop (Conn.endLess k s0) h t (hs.byKey hL sub) ((hs.heapBy hL sub).2 hI.by_)
        rw [q1]
        simp only [List.getLast?_append, List.getLast?_singleton, Option.some_or, List.dropLast_concat]
        refine ih _ q (h :: done) (by rw [q2.length_eq]; simpa using hn) ⟨⟨_, _, rfl⟩, ?_, ?_, ?_, ?_, ?_, ?_, ?_, ?_⟩
        · refine List.Perm.trans ?_ hI.perm
          refine (List.perm_middle).trans ?_
          exact (q2.append_right done).cons h
        · exact (hs.heapBy hL (fun g hg => sub g (List.mem_cons_of_mem _ (q2.mem_iff.1 hg)))).1 q3
        · intro g hg
          exact hI.ge g (List.mem_cons_of_mem _ (q2.mem_iff.1 hg))
        · intro g hg
          rcases List.mem_cons.1 hg with rfl | hg
          · exact hhy
          · exact hI.fin g hg
        · intro g hg
          rcases List.mem_cons.1 hg with rfl | hg'
          · simp
          · have : g ≠ h := by rintro rfl; exact nd1.2 hg'
            simp only [Function.update_of_ne this]
            exact (e3 g hg').trans (hI.self g hg')
        · intro g hg
          have hg := q2.mem_iff.1 hg
          have hgh : g ≠ h := by rintro rfl; exact nd1.1 hg
          simp only [Function.update_of_ne hgh]
          by_cases hgm : s0.mate g = some h
          · refine ⟨fun _ => (e6 g hg hgm).1, fun hn => absurd ⟨h, List.mem_cons_self, hgm⟩ hn⟩
          · have hiff : (∃ p ∈ h :: done, s0.mate g = some p) ↔ ∃ p ∈ done, s0.mate g = some p := by
              constructor
              · rintro ⟨p, p1, p2⟩
                rcases List.mem_cons.1 p1 with rfl | p1
                · exact absurd p2 hgm
                · exact ⟨p, p1, p2⟩
              · rintro ⟨p, p1, p2⟩
                exact ⟨p, List.mem_cons_of_mem _ p1, p2⟩
            rw [hiff, show mate1 g = s.mate g from e7 g hg hgm]
            exact hI.mate g (List.mem_cons_of_mem _ hg)
        · exact e4
        · intro g hg hd
          have hg := q2.mem_iff.1 hg
          obtain ⟨p, p1, p2⟩ := hd
          rcases List.mem_cons.1 p1 with rfl | p1
          · exact (e6 g hg p2).2
          · exact e5 g (hI.needed g (List.mem_cons_of_mem _ hg) ⟨p, p1, p2⟩)
      · rw [if_neg hc]
        refine ⟨s, h :: t, done, rfl, hI, ?_⟩
        have h1 : y < N0.hi k h := by
          refine lt_of_le_of_ne (hI.ge h List.mem_cons_self) ?_
          intro he
          exact hc (heq.2 (by rw [hy]; exact he.symm))
        intro g hg
        exact h1.trans_le (hI.by_.top g hg)

end

end Walnut.Conn
