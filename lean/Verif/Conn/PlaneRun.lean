/- Connecting the half-edges of one line after the other. -/
import Verif.Conn.PlaneLine
import Verif.Props.Connect

namespace Walnut.Conn
open Walnut.Geom Walnut.Props

/-- Sorted edges of a plane. -/
structure LinesInput (n : V3) (c : ℚ) (drop : Fin 3) (N : Net) (l : List Nat) : Prop where
  ok : N.Ok
  nodup : l.Nodup
  free : ∀ e ∈ l, N.partner e = none
  edge : ∀ e ∈ l, EdgeIn N n c e
  sorted : l.Pairwise fun a b => ¬ EdgeLt N drop b a

section
variable {n : V3} {c : ℚ} {drop : Fin 3} {N N1 N' : Net} {e : Nat} {rest l : List Nat}

theorem EdgeIn.lo_lt (h : EdgeIn N n c e) {k : Fin 3} (hk : (N.line e).d.comp k ≠ 0) : N.lo k e < N.hi k e := by
  obtain ⟨t, ht, hto⟩ := h.toNext
  have := hto k
  unfold Net.lo Net.hi Net.loPt Net.hiPt
  cases hp : N.isPositive k e
  · have : (N.line e).d.comp k < 0 := by
      unfold Net.isPositive at hp
      rw [decide_eq_false_iff_not] at hp
      omega
    have h' : ((N.line e).d.comp k : ℚ) < 0 := by exact_mod_cast this
    simp only [Bool.false_eq_true, if_false]
    nlinarith
  · have : 0 < (N.line e).d.comp k := by
      unfold Net.isPositive at hp
      rw [decide_eq_true_eq] at hp
      omega
    have h' : (0 : ℚ) < (N.line e).d.comp k := by exact_mod_cast this
    simp only [if_true]
    nlinarith

/-- The other edges of the first line, and the edges of other lines. -/
theorem LinesInput.split (h : LinesInput n c drop N (e :: rest)) (hn : n.comp drop ≠ 0) :
    (findLine N drop e rest).1 ++ (findLine N drop e rest).2 = rest ∧ (∀ f ∈ (findLine N drop e rest).1, LineEq N drop e f) ∧
    ∀ f ∈ (findLine N drop e rest).2, ¬ LineEq N drop e f := by
  unfold findLine
  rw [List.span_eq_takeWhile_dropWhile]
  have he := h.edge e (by simp)
  have hs := h.sorted
  have hE : ∀ f ∈ rest, EdgeIn N n c f := fun f hf => h.edge f (List.mem_cons_of_mem _ hf)
  refine ⟨List.takeWhile_append_dropWhile, ?_, ?_⟩
  · intro f hf
    exact (hasSameLine_iff he (hE f ((List.takeWhile_sublist _).subset hf)) hn).1 (List.all_eq_true.1 List.all_takeWhile f hf)
  · rw [List.pairwise_cons] at hs
    obtain ⟨s1, s2⟩ := hs
    clear h
    induction rest with
    | nil => simp
    | cons b rest ih =>
      rw [List.pairwise_cons] at s2
      rw [List.dropWhile_cons]
      split
      · exact ih (fun f hf => hE f (List.mem_cons_of_mem _ hf)) (fun f hf => s1 f (List.mem_cons_of_mem _ hf)) s2.2
      · rename_i hb
        have hbE := hE b (by simp)
        have nb : ¬ LineEq N drop e b := fun hc => hb ((hasSameLine_iff he hbE hn).2 hc)
        have lt : LineLt N drop e b := by
          rcases line_total he hbE hn with h | h | h
          · exact h
          · exact absurd (.inl h) (s1 b (by simp))
          · exact absurd h nb
        intro f hf
        rcases List.mem_cons.1 hf with rfl | hf'
        · exact nb
        · intro hc
          have hfE := hE f hf
          exact s2.1 f hf' (.inl (hc.symm.lt hfE he hbE hn lt))

theorem LinesInput.line (h : LinesInput n c drop N (e :: rest)) (hn : n.comp drop ≠ 0) :
    LineInput (sortedDim N drop e) N (e :: (findLine N drop e rest).1) := by
  obtain ⟨h1, h2, h3⟩ := h.split hn
  generalize findLine N drop e rest = s at *
  obtain ⟨a, b⟩ := s
  simp only at *
  have sub : (e :: a).Sublist (e :: rest) := by
    rw [← h1]; exact (List.sublist_append_left a b).cons_cons e
  have mem : ∀ f ∈ e :: a, f ∈ e :: rest := fun f hf => sub.subset hf
  have eq : ∀ f ∈ e :: a, LineEq N drop e f := by
    intro f hf
    rcases List.mem_cons.1 hf with rfl | hf
    · exact LineEq.refl
    · exact h2 f hf
  have dir : ∀ f ∈ e :: a, (N.line f).d.comp (sortedDim N drop e) ≠ 0 := by
    intro f hf
    rw [(eq f hf).1.dim]
    exact (h.edge f (mem f hf)).dim hn
  refine ⟨h.ok, h.nodup.sublist sub, fun f hf => (h.edge f (mem f hf)).lt, dir, ?_, fun f hf => (h.edge f (mem f hf)).lo_lt (dir f hf),
    fun f hf => h.free f (mem f hf), ?_⟩
  · intro f hf g hg
    have hf' := h.edge f (mem f hf)
    have hg' := h.edge g (mem g hg)
    rw [isCoincident_iff _ _ (h.ok.fin _ hg'.lt), isCoincident_iff _ _ (h.ok.next hg'.lt).2]
    exact ((eq f hf).symm.trans (eq g hg)).ends hf' hg' hn
  · refine (h.sorted.sublist sub).imp_of_mem ?_
    intro f g hf hg hfg
    by_contra hc
    refine hfg (.inr ⟨(eq g hg).symm.trans (eq f hf), ?_⟩)
    unfold low
    rw [← (eq f hf).1.dim, ← (eq g hg).1.dim]
    exact not_le.1 hc

/-- The edge has the same line and ends. -/
structure SameEdge (N N1 : Net) (e : Nat) : Prop where
  line : N1.line e = N.line e
  vertex : N1.vertex e = N.vertex e
  poly : N1.poly e = N.poly e
  target : N1.target e = N.target e

theorem SameEdge.low {f : Nat} (h : SameEdge N N1 f) (k : Fin 3) : N1.lo k f = N.lo k f ∧ N1.hi k f = N.hi k f ∧ N1.isPositive k f = N.isPositive k f := by
  unfold Net.lo Net.hi Net.loPt Net.hiPt Net.isPositive
  rw [h.line, h.vertex, h.target]
  exact ⟨rfl, rfl, rfl⟩

theorem SameEdge.lineEq {f : Nat} (h : SameEdge N N1 e) (h' : SameEdge N N1 f) : LineEq N1 drop e f ↔ LineEq N drop e f := by
  unfold LineEq Par dist2 sortedDim dir2
  rw [h.line, h'.line]

theorem SameEdge.edgeLt {f : Nat} (h : SameEdge N N1 e) (h' : SameEdge N N1 f) : EdgeLt N1 drop e f ↔ EdgeLt N drop e f := by
  unfold EdgeLt LineLt
  rw [h.lineEq h']
  unfold Conn.low
  rw [(h.low _).1, (h'.low _).1]
  unfold Half Par dist2 sortedDim dir2
  rw [h.line, h'.line]

theorem SameEdge.edgeIn (h : SameEdge N N1 e) (hs : ∀ p, (N.cycle p).Sublist (N1.cycle p)) (hc : N.count ≤ N1.count)
    (he : EdgeIn N n c e) : EdgeIn N1 n c e := by
  refine ⟨lt_of_lt_of_le he.lt hc, ?_, by rw [h.line]; exact he.dir, by rw [h.line, h.vertex]; exact he.on,
    by rw [h.line, h.vertex, h.target]; exact he.toNext, by rw [h.vertex]; exact he.inV, by rw [h.target]; exact he.inT⟩
  rw [h.poly]
  exact he.size.trans (hs _).length_le

theorem LinesInput.next {o : HeapFns} (ho : HeapOk o) (h : LinesInput n c drop N (e :: rest)) (hn : n.comp drop ≠ 0) {errors : Nat}
    (hr : connectLine o (sortedDim N drop e) N (e :: (findLine N drop e rest).1) = some (N1, errors)) :
    (∀ f ∈ (findLine N drop e rest).2, SameEdge N N1 f) ∧ LinesInput n c drop N1 (findLine N drop e rest).2 := by
  obtain ⟨f1, f2, f3, f4, f5, f6, f7⟩ := C53_frame ho (h.line hn) hr
  obtain ⟨h1, h2, h3⟩ := h.split hn
  generalize findLine N drop e rest = s at *
  obtain ⟨a, b⟩ := s
  simp only at *
  have sub : b.Sublist (e :: rest) := by
    rw [← h1]; exact (List.sublist_append_right a b).cons e
  have hE : ∀ f ∈ b, EdgeIn N n c f := fun f hf => h.edge f (sub.subset hf)
  have out : ∀ f ∈ b, f ∉ e :: a := by
    intro f hf hc
    rcases List.mem_cons.1 hc with rfl | hc
    · exact h3 _ hf LineEq.refl
    · exact h3 _ hf (h2 f hc)
  have same : ∀ f ∈ b, SameEdge N N1 f := by
    intro f hf
    obtain ⟨l1, l2, l3⟩ := f5 f (hE f hf).lt
    exact ⟨l1, l2, l3, (f6 f (hE f hf).lt (out f hf)).1⟩
  refine ⟨same, f1, h.nodup.sublist sub, ?_, ?_, ?_⟩
  · intro f hf
    rw [(f6 f (hE f hf).lt (out f hf)).2]
    exact h.free f (sub.subset hf)
  · intro f hf
    exact (same f hf).edgeIn f4 f2 (hE f hf)
  · refine (h.sorted.sublist sub).imp_of_mem ?_
    intro f g hf hg hfg
    rw [(same g hg).edgeLt (same f hf)]
    exact hfg

/-- What connecting the lines ensures. -/
structure LinesResult (drop : Fin 3) (N N' : Net) (l : List Nat) : Prop where
  ok : N'.Ok
  cnt : N.count ≤ N'.count
  normal : N'.normal = N.normal
  sub : ∀ p, (N.cycle p).Sublist (N'.cycle p)
  same : ∀ e < N.count, N'.line e = N.line e ∧ N'.vertex e = N.vertex e ∧ N'.poly e = N.poly e
  other : ∀ e < N.count, e ∉ l → N'.target e = N.target e ∧ N'.partner e = N.partner e
  fresh : ∀ e, N.count ≤ e → e < N'.count → ∃ r ∈ l, N'.poly e = N.poly r ∧ N'.line e = N.line r ∧ OnLine (N.line r) (N'.vertex e).pt ∧
    ∃ k, (N.line r).d.comp k ≠ 0 ∧ N.lo k r < (N'.vertex e).pt k ∧ (N'.vertex e).pt k < N.hi k r
  link : ∀ e f, Piece N N' l e → N'.partner e = some f → Piece N N' l f ∧
    N'.isPositive (sortedDim N' drop e) e ≠ N'.isPositive (sortedDim N' drop e) f ∧
    (N'.vertex e).pt = (N'.target f).pt ∧ (N'.target e).pt = (N'.vertex f).pt

theorem connectLines_spec {o : HeapFns} (ho : HeapOk o) (hn : n.comp drop ≠ 0) : ∀ (m : Nat) (N : Net) (l : List Nat) (N' : Net) (errors : Nat),
    LinesInput n c drop N l → connectLines o drop m N l = some (N', errors) →
    LinesResult drop N N' l ∧ (errors = 0 → ∀ e, Piece N N' l e → ∃ f, N'.partner e = some f) := by
  intro m
  induction m with
  | zero =>
    intro N l N' errors h hr
    cases l with
    | nil =>
      unfold connectLines at hr
      obtain ⟨rfl, rfl⟩ := Prod.mk.inj (Option.some.inj hr)
      refine ⟨⟨h.ok, le_refl _, rfl, fun _ => List.Sublist.refl _, fun _ _ => ⟨rfl, rfl, rfl⟩, fun _ _ _ => ⟨rfl, rfl⟩, ?_, ?_⟩, ?_⟩
      · intro e h1 h2; omega
      · rintro e f (h1 | h1) _
        · cases h1
        · omega
      · rintro _ e (h1 | h1)
        · cases h1
        · omega
    | cons e rest => unfold connectLines at hr; cases hr
  | succ m ih =>
    intro N l N' errors h hr
    cases l with
    | nil =>
      unfold connectLines at hr
      obtain ⟨rfl, rfl⟩ := Prod.mk.inj (Option.some.inj hr)
      refine ⟨⟨h.ok, le_refl _, rfl, fun _ => List.Sublist.refl _, fun _ _ => ⟨rfl, rfl, rfl⟩, fun _ _ _ => ⟨rfl, rfl⟩, ?_, ?_⟩, ?_⟩
      · intro e h1 h2; omega
      · rintro e f (h1 | h1) _
        · cases h1
        · omega
      · rintro _ e (h1 | h1)
        · cases h1
        · omega
    | cons e rest =>
      unfold connectLines at hr
      split at hr
      · cases hr
      · rename_i N1 er hr1
        obtain ⟨⟨N2, er2⟩, hr2, hr3⟩ := Option.map_eq_some_iff.1 hr
        obtain ⟨rfl, rfl⟩ := Prod.mk.inj hr3
        obtain ⟨same, hin⟩ := h.next ho hn hr1
        obtain ⟨R, Rn⟩ := ih _ _ _ _ hin hr2
        have LI := h.line hn
        obtain ⟨f1, f2, f3, f4, f5, f6, f7⟩ := C53_frame ho LI hr1
        obtain ⟨p1, p2⟩ := C53_partners ho LI hr1
        obtain ⟨h1, h2, h3⟩ := h.split hn
        have mem : ∀ f, f ∈ e :: rest ↔ f ∈ e :: (findLine N drop e rest).1 ∨ f ∈ (findLine N drop e rest).2 := by
          intro f
          conv_lhs => rw [← h1]
          simp [or_assoc]
        have hE : ∀ f ∈ e :: rest, EdgeIn N n c f := h.edge
        have out : ∀ f ∈ (findLine N drop e rest).2, f ∉ e :: (findLine N drop e rest).1 := by
          intro f hf hc
          rcases List.mem_cons.1 hc with rfl | hc
          · exact h3 _ hf LineEq.refl
          · exact h3 _ hf (h2 f hc)
        have old : ∀ f, Piece N N1 (e :: (findLine N drop e rest).1) f → f < N1.count ∧ f ∉ (findLine N drop e rest).2 := by
          rintro f (hf | hf)
          · exact ⟨lt_of_lt_of_le (hE f ((mem f).2 (.inl hf))).lt f2, fun hc => out f hc hf⟩
          · refine ⟨hf.2, fun hc => ?_⟩
            have := (hE f ((mem f).2 (.inr hc))).lt
            omega
        have keep : ∀ f, Piece N N1 (e :: (findLine N drop e rest).1) f → N2.line f = N1.line f ∧ N2.vertex f = N1.vertex f ∧
            N2.target f = N1.target f ∧ N2.partner f = N1.partner f := by
          intro f hf
          obtain ⟨o1, o2⟩ := old f hf
          exact ⟨(R.same f o1).1, (R.same f o1).2.1, (R.other f o1 o2).1, (R.other f o1 o2).2⟩
        have pieces : ∀ f, Piece N N2 (e :: rest) f ↔ Piece N N1 (e :: (findLine N drop e rest).1) f ∨ Piece N1 N2 (findLine N drop e rest).2 f := by
          intro f
          unfold Piece
          rw [mem]
          have := R.cnt
          constructor
          · rintro ((hf | hf) | hf)
            · exact .inl (.inl hf)
            · exact .inr (.inl hf)
            · by_cases hc : f < N1.count
              · exact .inl (.inr ⟨hf.1, hc⟩)
              · exact .inr (.inr ⟨by omega, hf.2⟩)
          · rintro ((hf | hf) | (hf | hf))
            · exact .inl (.inl hf)
            · exact .inr ⟨hf.1, by omega⟩
            · exact .inl (.inr hf)
            · exact .inr ⟨by omega, hf.2⟩
        have dim : ∀ f, Piece N N1 (e :: (findLine N drop e rest).1) f → sortedDim N2 drop f = sortedDim N drop e := by
          intro f hf
          have eq : ∀ r ∈ e :: (findLine N drop e rest).1, sortedDim N drop r = sortedDim N drop e := by
            intro r hr
            rcases List.mem_cons.1 hr with rfl | hr
            · rfl
            · exact (h2 r hr).1.dim.symm
          rcases hf with hf | hf
          · rw [← eq f hf]
            unfold sortedDim
            rw [(keep f (.inl hf)).1, (f5 f (hE f ((mem f).2 (.inl hf))).lt).1]
          · obtain ⟨r, r1, r2, r3, _⟩ := f7 f hf.1 hf.2
            rw [← eq r r1]
            unfold sortedDim
            rw [(keep f (.inr hf)).1, r3]
        refine ⟨⟨R.ok, f2.trans R.cnt, R.normal.trans f3, fun p => (f4 p).trans (R.sub p), ?_, ?_, ?_, ?_⟩, ?_⟩
        · intro f hf
          obtain ⟨a1, a2, a3⟩ := R.same f (lt_of_lt_of_le hf f2)
          obtain ⟨b1, b2, b3⟩ := f5 f hf
          exact ⟨a1.trans b1, a2.trans b2, a3.trans b3⟩
        · intro f hf hnot
          rw [mem, not_or] at hnot
          obtain ⟨a1, a2⟩ := R.other f (lt_of_lt_of_le hf f2) hnot.2
          obtain ⟨b1, b2⟩ := f6 f hf hnot.1
          exact ⟨a1.trans b1, a2.trans b2⟩
        · intro f hf1 hf2
          by_cases hc : f < N1.count
          · obtain ⟨r, r1, r2, r3, r4, r5, r6⟩ := f7 f hf1 hc
            obtain ⟨a1, a2, a3⟩ := R.same f hc
            exact ⟨r, (mem r).2 (.inl r1), a3.trans r2, a1.trans r3, by rw [a2]; exact r6, _, LI.dir r r1, by rw [a2]; exact r4, by rw [a2]; exact r5⟩
          · obtain ⟨r, r1, r2, r3, r4, k, r5, r6, r7⟩ := R.fresh f (by omega) hf2
            have hs := same r r1
            rw [hs.line] at r3 r4 r5
            rw [(hs.low k).1] at r6
            rw [(hs.low k).2.1] at r7
            exact ⟨r, (mem r).2 (.inr r1), r2.trans hs.poly, r3, r4, k, r5, r6, r7⟩
        · intro a b ha hab
          rcases (pieces a).1 ha with ha | ha
          · rw [(keep a ha).2.2.2] at hab
            obtain ⟨q1, q2, q3, q4⟩ := p2 a b ha hab
            obtain ⟨ka1, ka2, ka3, _⟩ := keep a ha
            obtain ⟨kb1, kb2, kb3, _⟩ := keep b q1
            refine ⟨(pieces b).2 (.inl q1), ?_, ?_, ?_⟩
            · rw [dim a ha]
              unfold Net.isPositive at q2 ⊢
              rw [ka1, kb1]
              exact q2
            · rw [ka2, kb3]; exact q3
            · rw [ka3, kb2]; exact q4
          · obtain ⟨q1, q2, q3, q4⟩ := R.link a b ha hab
            exact ⟨(pieces b).2 (.inr q1), q2, q3, q4⟩
        · intro herr a ha
          obtain ⟨rfl, rfl⟩ : er = 0 ∧ er2 = 0 := by
            simp only at herr
            omega
          rcases (pieces a).1 ha with ha | ha
          · obtain ⟨b, hb⟩ := C53_no_error ho LI hr1 a ha
            exact ⟨b, by rw [(keep a ha).2.2.2]; exact hb⟩
          · exact Rn rfl a ha

end

end Walnut.Conn
