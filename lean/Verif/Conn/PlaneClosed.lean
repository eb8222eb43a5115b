/- Connecting the half-edges of one line after the other, for closed surfaces. -/
import Verif.Conn.PlaneRun

namespace Walnut.Conn
open Walnut.Geom Walnut.Props

section
variable {n : V3} {c : ℚ} {drop : Fin 3} {N N1 N' : Net} {e : Nat} {rest l : List Nat}

theorem Closed.congr {k : Fin 3} {R R' : List Nat} {Ord : ℚ → List Nat} (h : Closed k R N Ord) (hR : ∀ f, f ∈ R' ↔ f ∈ R)
    (hs : ∀ f ∈ R, SameEdge N N1 f) (hn : N1.normal = N.normal) : Closed k R' N1 Ord := by
  have key : ∀ f ∈ R, keyOf N1 k f = keyOf N k f := by
    intro f hf
    unfold keyOf
    rw [((hs f hf).low k).2.2, hn, (hs f hf).poly]
  have mem : ∀ t, ∀ f ∈ Ord t, f ∈ R := fun t f hf => ((h.mem t f).1 hf).1
  refine ⟨?_, ?_, ?_⟩
  · intro t f
    rw [h.mem, hR]
    constructor
    · rintro ⟨h1, h2⟩
      rw [((hs f h1).low k).1, ((hs f h1).low k).2.1]
      exact ⟨h1, h2⟩
    · rintro ⟨h1, h2⟩
      rw [((hs f h1).low k).1, ((hs f h1).low k).2.1] at h2
      exact ⟨h1, h2⟩
  · intro t
    refine (h.lt t).imp_of_mem ?_
    intro a b ha hb hab
    rw [key a (mem t a ha), key b (mem t b hb)]
    exact hab
  · intro t a b hab
    have hm := succIn_mem hab
    rw [((hs a (mem t a hm.1)).low k).2.2, ((hs b (mem t b hm.2)).low k).2.2]
    exact h.alt t a b hab

/-- The relation of the partners to the order around the lines. -/
def Around (drop : Fin 3) (N N' : Net) (l : List Nat) (Ord : Nat → ℚ → List Nat) : Prop :=
  ∃ org : Nat → Nat, (∀ e, Piece N N' l e → org e ∈ l ∧ N'.poly e = N.poly (org e) ∧ N'.line e = N.line (org e) ∧
      N.lo (sortedDim N' drop e) (org e) ≤ N'.lo (sortedDim N' drop e) e ∧ N'.lo (sortedDim N' drop e) e < N'.hi (sortedDim N' drop e) e ∧
      N'.hi (sortedDim N' drop e) e ≤ N.hi (sortedDim N' drop e) (org e)) ∧
    ∀ e f, Piece N N' l e → N'.partner e = some f → ∀ t, N'.lo (sortedDim N' drop e) e ≤ t → t < N'.hi (sortedDim N' drop e) e →
      if N'.isPositive (sortedDim N' drop e) e then succIn (Ord (org e) t) (org f) = some (org e)
      else succIn (Ord (org e) t) (org e) = some (org f)

theorem connectLines_closed {o : HeapFns} (ho : HeapOk o) (hn : n.comp drop ≠ 0) (R : Nat → List Nat) (Ord : Nat → ℚ → List Nat) :
    ∀ (m : Nat) (N : Net) (l : List Nat), LinesInput n c drop N l → l.length ≤ m →
    (∀ e ∈ l, (∀ f, f ∈ R e ↔ f ∈ l ∧ LineEq N drop e f) ∧ Closed (sortedDim N drop e) (R e) N (Ord e)) →
    ∃ N', connectLines o drop m N l = some (N', 0) ∧ Around drop N N' l Ord := by
  intro m
  induction m with
  | zero =>
    intro N l h hl _
    have : l = [] := List.length_eq_zero_iff.1 (by omega)
    subst this
    refine ⟨N, by unfold connectLines; rfl, id, ?_, ?_⟩
    · rintro e (h1 | h1)
      · cases h1
      · omega
    · rintro e f (h1 | h1)
      · cases h1
      · omega
  | succ m ih =>
    intro N l h hl hcl
    cases l with
    | nil =>
      refine ⟨N, by unfold connectLines; rfl, id, ?_, ?_⟩
      · rintro e (h1 | h1)
        · cases h1
        · omega
      · rintro e f (h1 | h1)
        · cases h1
        · omega
    | cons e rest =>
      have LI := h.line hn
      obtain ⟨h1, h2, h3⟩ := h.split hn
      have mem : ∀ f, f ∈ e :: rest ↔ f ∈ e :: (findLine N drop e rest).1 ∨ f ∈ (findLine N drop e rest).2 := by
        intro f
        conv_lhs => rw [← h1]
        simp [or_assoc]
      have grp : ∀ f ∈ e :: (findLine N drop e rest).1, LineEq N drop e f := by
        intro f hf
        rcases List.mem_cons.1 hf with rfl | hf
        · exact LineEq.refl
        · exact h2 f hf
      have grpR : ∀ g ∈ e :: (findLine N drop e rest).1, ∀ f, f ∈ e :: (findLine N drop e rest).1 ↔ f ∈ R g := by
        intro g hg f
        rw [(hcl g ((mem g).2 (.inl hg))).1, mem]
        constructor
        · intro hf; exact ⟨.inl hf, (grp g hg).symm.trans (grp f hf)⟩
        · rintro ⟨hf | hf, hf'⟩
          · exact hf
          · exact absurd ((grp g hg).trans hf') (h3 f hf)
      have refl : ∀ f, SameEdge N N f := fun f => ⟨rfl, rfl, rfl, rfl⟩
      have cl : ∀ g ∈ e :: (findLine N drop e rest).1, Closed (sortedDim N drop e) (e :: (findLine N drop e rest).1) N (Ord g) := by
        intro g hg
        have := (hcl g ((mem g).2 (.inl hg))).2
        rw [← (grp g hg).1.dim] at this
        exact this.congr (grpR g hg) (fun f _ => refl f) rfl
      obtain ⟨N1, hr1, _, org1, o1, o2⟩ := C53_closed ho LI (cl e (by simp))
      obtain ⟨same, hin⟩ := h.next ho hn hr1
      obtain ⟨f1, f2, f3, f4, f5, f6, f7⟩ := C53_frame ho LI hr1
      obtain ⟨p1, p2⟩ := C53_partners ho LI hr1
      obtain ⟨N2, hr2, org2, q1, q2⟩ := ih N1 (findLine N drop e rest).2 hin (by
        have := congrArg List.length h1
        rw [List.length_append] at this
        simp only [List.length_cons] at hl
        omega) (by
        intro g hg
        obtain ⟨g1, g2⟩ := hcl g ((mem g).2 (.inr hg))
        have memR : ∀ f, f ∈ R g ↔ f ∈ (findLine N drop e rest).2 ∧ LineEq N drop g f := by
          intro f
          rw [g1, mem]
          constructor
          · rintro ⟨hf | hf, hf'⟩
            · exact absurd ((grp f hf).trans hf'.symm) (h3 g hg)
            · exact ⟨hf, hf'⟩
          · rintro ⟨hf, hf'⟩
            exact ⟨.inr hf, hf'⟩
        refine ⟨?_, ?_⟩
        · intro f
          rw [memR]
          constructor
          · rintro ⟨hf, hf'⟩; exact ⟨hf, ((same g hg).lineEq (same f hf)).2 hf'⟩
          · rintro ⟨hf, hf'⟩; exact ⟨hf, ((same g hg).lineEq (same f hf)).1 hf'⟩
        · have : sortedDim N1 drop g = sortedDim N drop g := by
            unfold sortedDim
            rw [(same g hg).line]
          rw [this]
          exact g2.congr (fun _ => Iff.rfl) (fun f hf => same f ((memR f).1 hf).1) f3)
      obtain ⟨Rs, _⟩ := connectLines_spec ho hn m N1 _ N2 0 hin hr2
      refine ⟨N2, ?_, ?_⟩
      · unfold connectLines
        rw [hr1]
        simp only [hr2]
        rfl
      have hE : ∀ f ∈ e :: rest, EdgeIn N n c f := h.edge
      have out : ∀ f ∈ (findLine N drop e rest).2, f ∉ e :: (findLine N drop e rest).1 := by
        intro f hf hc
        exact h3 _ hf (grp f hc)
      have old : ∀ f, Piece N N1 (e :: (findLine N drop e rest).1) f → f < N1.count ∧ f ∉ (findLine N drop e rest).2 := by
        rintro f (hf | hf)
        · exact ⟨lt_of_lt_of_le (hE f ((mem f).2 (.inl hf))).lt f2, fun hc => out f hc hf⟩
        · refine ⟨hf.2, fun hc => ?_⟩
          have := (hE f ((mem f).2 (.inr hc))).lt
          omega
      have new : ∀ f, Piece N1 N2 (findLine N drop e rest).2 f → ¬ (f < N1.count ∧ f ∉ (findLine N drop e rest).2) := by
        rintro f (hf | hf) hc
        · exact hc.2 hf
        · omega
      have keep : ∀ f, Piece N N1 (e :: (findLine N drop e rest).1) f → SameEdge N1 N2 f ∧ N2.partner f = N1.partner f := by
        intro f hf
        obtain ⟨u1, u2⟩ := old f hf
        obtain ⟨s1, s2, s3⟩ := Rs.same f u1
        exact ⟨⟨s1, s2, s3, (Rs.other f u1 u2).1⟩, (Rs.other f u1 u2).2⟩
      have pieces : ∀ f, Piece N N2 (e :: rest) f → Piece N N1 (e :: (findLine N drop e rest).1) f ∨ Piece N1 N2 (findLine N drop e rest).2 f := by
        intro f
        unfold Piece
        rw [mem]
        rintro ((hf | hf) | hf)
        · exact .inl (.inl hf)
        · exact .inr (.inl hf)
        · by_cases hc : f < N1.count
          · exact .inl (.inr ⟨hf.1, hc⟩)
          · exact .inr (.inr ⟨by omega, hf.2⟩)
      have dim : ∀ f, Piece N N1 (e :: (findLine N drop e rest).1) f → sortedDim N2 drop f = sortedDim N drop e := by
        intro f hf
        obtain ⟨r1, _, r3, _⟩ := o1 f hf
        rw [(grp _ r1).1.dim]
        unfold sortedDim
        rw [(keep f hf).1.line, r3]
      classical
      obtain ⟨org, horg⟩ : ∃ org : Nat → Nat, org = fun f => if f < N1.count ∧ f ∉ (findLine N drop e rest).2 then org1 f else org2 f := ⟨_, rfl⟩
      have og1 : ∀ f, Piece N N1 (e :: (findLine N drop e rest).1) f → org f = org1 f := by
        intro f hf; rw [horg]; exact if_pos (old f hf)
      have og2 : ∀ f, Piece N1 N2 (findLine N drop e rest).2 f → org f = org2 f := by
        intro f hf; rw [horg]; exact if_neg (new f hf)
      refine ⟨org, ?_, ?_⟩
      · intro f hf
        rcases pieces f hf with hf | hf
        · obtain ⟨r1, r2, r3, r4, r5, r6⟩ := o1 f hf
          have k := (keep f hf).1
          rw [og1 f hf, dim f hf, (k.low _).1, (k.low _).2.1]
          exact ⟨(mem _).2 (.inl r1), k.poly.trans r2, k.line.trans r3, r4, r5, r6⟩
        · obtain ⟨r1, r2, r3, r4, r5, r6⟩ := q1 f hf
          rw [og2 f hf]
          have k := same _ r1
          rw [(k.low _).1] at r4
          rw [(k.low _).2.1] at r6
          exact ⟨(mem _).2 (.inr r1), r2.trans k.poly, r3.trans k.line, r4, r5, r6⟩
      · intro a b ha hab t ht1 ht2
        rcases pieces a ha with ha | ha
        · have k := (keep a ha).1
          rw [(keep a ha).2] at hab
          obtain ⟨b1, _⟩ := p2 a b ha hab
          rw [dim a ha] at ht1 ht2 ⊢
          rw [(k.low _).1] at ht1
          rw [(k.low _).2.1] at ht2
          have := o2 a b ha hab t ht1 ht2
          rw [(k.low _).2.2, og1 a ha, og1 b b1]
          have r1 := (o1 a ha).1
          have eqO : Ord (org1 a) t = Ord e t := by
            refine (cl e (by simp)).eq ((cl _ r1).nodup t) (((cl _ r1).lt t).imp fun h => h.1) (fun g => ?_)
            exact (cl _ r1).mem t g
          rw [eqO]
          exact this
        · obtain ⟨b1, _⟩ := Rs.link a b ha hab
          rw [og2 a ha, og2 b b1]
          exact q2 a b ha hab t ht1 ht2

end

end Walnut.Conn
