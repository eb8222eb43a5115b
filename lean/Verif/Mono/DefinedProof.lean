/-
When the decomposer is defined: no product of a turn and an orientation overflows.
-/
import Verif.Mono.ConvexProof

namespace Walnut.Mono
open Walnut.Geom

theorem signWord_min {x : Int} (hl : (wordsOf x).length ≤ 2 ^ 63) (h : (signWord x).toInt = -2 ^ 63) : x = -2 ^ 63 := by
  have hn := (rep_wordsOf x).ne_nil
  have hpos : 0 < (wordsOf x).length := List.length_pos_iff.2 hn
  have h0 : signWord x = BitVec.intMin 64 := by
    apply BitVec.eq_of_toInt_eq
    rw [h]; decide
  unfold signWord at h0
  generalize hL : (wordsOf x).length = L at *
  have hz : BitVec.ofNat 64 (L - 1) = 0#64 := by
    apply BitVec.eq_of_getLsbD_eq
    intro i hi
    by_cases h63 : i = 63
    · subst h63
      rw [BitVec.getLsbD_ofNat, Nat.testBit_lt_two_pow (by omega)]
      simp
    · have h1 := congrArg (fun v => v.getLsbD i) h0
      simp only [BitVec.getLsbD_or, BitVec.getLsbD_intMin] at h1
      have h2 : decide (i + 1 = 64) = false := by simp; omega
      rw [h2] at h1
      simp only [Bool.or_eq_false_iff] at h1
      rw [h1.2]; simp
  have hL1 : L = 1 := by
    have := congrArg BitVec.toNat hz
    simp only [BitVec.toNat_ofNat] at this
    rw [Nat.mod_eq_of_lt (by omega)] at this
    simp at this
    omega
  rw [hL1] at hL
  obtain ⟨w, hw⟩ := List.length_eq_one_iff.1 hL
  rw [hz] at h0
  have hv := (rep_wordsOf x).2
  rw [hw] at hv h0
  have : w = BitVec.intMin 64 := by simpa [BigInt.top] using h0
  rw [this] at hv
  rw [← hv]
  decide

theorem Tame.word {drop : Fin 3} {vs : List HP3} (h : Tame drop vs) {a b c : HP3}
    (hb : b ∈ vs) (hc : c ∈ vs) : a.get2DTwistDir drop b c = signWord (a.twistCross drop b c) := by
  have h2 := h.pos b hb
  have h3 := h.pos c hc
  unfold HP3.get2DTwistDir
  rw [signExt_eq, signExt_eq, if_neg (by omega), if_neg (by omega)]
  simp

/-- No cross product of the vertices is the minimum of a 64 bit integer. -/
def MinFree (drop : Fin 3) (vs : List HP3) : Prop :=
  ∀ a ∈ vs, ∀ b ∈ vs, ∀ c ∈ vs, a.twistCross drop b c ≠ -2 ^ 63

theorem mulSign_defined {drop : Fin 3} {vs : List HP3} (hT : Tame drop vs) (hM : MinFree drop vs) {a b c : HP3}
    (ha : a ∈ vs) (hb : b ∈ vs) (hc : c ∈ vs) {o : Int} (ho : o = -1 ∨ o = 0 ∨ o = 1) :
    ∃ r, mulSign (a.get2DTwistDir drop b c) o = some r := by
  have hne : (a.get2DTwistDir drop b c).toInt ≠ -2 ^ 63 := by
    rw [hT.word hb hc]
    intro h
    exact hM a ha b hb c hc (signWord_min (hT.fits a ha b hb c hc) h)
  have h1 := BitVec.toInt_lt (x := a.get2DTwistDir drop b c)
  have h2 := BitVec.le_toInt (x := a.get2DTwistDir drop b c)
  norm_num at h1 h2 hne
  unfold mulSign
  rw [if_pos]
  · exact ⟨_, rfl⟩
  · rcases ho with rfl | rfl | rfl <;> constructor <;> norm_num <;> omega

theorem emit_defined {drop : Fin 3} {vs : List HP3} (hT : Tame drop vs) (hM : MinFree drop vs) {t : Tri}
    (h1 : t.p1 ∈ vs) (h2 : t.p2 ∈ vs) (h3 : t.p3 ∈ vs) {s : DecState} (hs : Built vs s)
    (ho : s.orientation = -1 ∨ s.orientation = 0 ∨ s.orientation = 1) :
    ∃ out s', emitTriangle drop t s = some (out, s') ∧
      (s'.orientation = -1 ∨ s'.orientation = 0 ∨ s'.orientation = 1) := by
  have hst : (startPiece drop t).orientation = -1 ∨ (startPiece drop t).orientation = 0 ∨
      (startPiece drop t).orientation = 1 := reduced_cases _ _ _ _
  obtain ⟨st, sb, so⟩ := s
  unfold emitTriangle
  cases st with
  | nil => exact ⟨_, _, rfl, hst⟩
  | cons a tr =>
    cases sb with
    | nil => exact absurd (hs.both.2 rfl) (by simp)
    | cons b br =>
      simp only
      split
      · have hon : (if so = 0 then t.p2.get2DTwistDirReduced drop t.p1 t.p3 else so) = -1 ∨
            (if so = 0 then t.p2.get2DTwistDirReduced drop t.p1 t.p3 else so) = 0 ∨
            (if so = 0 then t.p2.get2DTwistDirReduced drop t.p1 t.p3 else so) = 1 := by
          split
          · exact reduced_cases _ _ _ _
          · exact ho
        generalize (if so = 0 then t.p2.get2DTwistDirReduced drop t.p1 t.p3 else so) = o at hon
        have hpt : (match (generalizing := false) tr with | x :: _ => x | [] => (b :: br).getLastD b) ∈ vs := by
          cases tr with
          | nil =>
            refine hs.mem _ ?_
            rw [List.getLastD_cons, ← List.getLast_eq_getLastD (by simp)]
            simp only [List.mem_append]
            exact Or.inr (List.getLast_mem _)
          | cons x tr => exact hs.mem _ (by simp)
        have hpb : (match (generalizing := false) br with | x :: _ => x | [] => (a :: tr).getLastD a) ∈ vs := by
          cases br with
          | nil =>
            refine hs.mem _ ?_
            rw [List.getLastD_cons, ← List.getLast_eq_getLastD (by simp)]
            simp only [List.mem_append]
            exact Or.inl (List.getLast_mem _)
          | cons x br => exact hs.mem _ (by simp)
        have hk : ∀ P Q, P ∈ vs → Q ∈ vs → ∃ c, keepsConvex drop o P Q t = some c := by
          intro P Q hP hQ
          obtain ⟨r1, e1⟩ := mulSign_defined hT hM h1 hP h3 hon
          obtain ⟨r2, e2⟩ := mulSign_defined hT hM h2 hQ h3 hon
          unfold keepsConvex
          by_cases hle : r1 ≤ 0
          · exact ⟨decide (0 ≤ r2), by simp [e1, e2, hle]⟩
          · exact ⟨false, by simp [e1, hle]⟩
        obtain ⟨c, hk⟩ := hk _ _ hpt hpb
        have key : ∀ (k : Option Bool), k = some c → ∃ out s', (do
            if ← k then
              return (([] : List Piece), addVertex t ⟨a :: tr, b :: br, so⟩ o)
            else return ([⟨so, (DecState.mk (a :: tr) (b :: br) so).verts⟩], startPiece drop t)) = some (out, s') ∧
            (s'.orientation = -1 ∨ s'.orientation = 0 ∨ s'.orientation = 1) := by
          rintro k rfl
          cases c
          · exact ⟨_, _, rfl, hst⟩
          · refine ⟨_, _, rfl, ?_⟩
            rw [(add_verts t a b tr br so o).1]; exact hon
        exact key _ hk
      · exact ⟨_, _, rfl, hst⟩

theorem emits_defined {drop : Fin 3} {vs : List HP3} (hT : Tame drop vs) (hM : MinFree drop vs) :
    ∀ (l : List Tri) (s : DecState), (∀ t ∈ l, t.p1 ∈ vs ∧ t.p2 ∈ vs ∧ t.p3 ∈ vs) → Built vs s →
    (s.orientation = -1 ∨ s.orientation = 0 ∨ s.orientation = 1) → ∃ r, emitTriangles drop l s = some r := by
  intro l
  induction l with
  | nil => intro s _ _ _; exact ⟨_, rfl⟩
  | cons t l ih =>
    intro s hl hs ho
    obtain ⟨m1, m2, m3⟩ := hl t (by simp)
    obtain ⟨o1, s1, e1, ho1⟩ := emit_defined hT hM m1 m2 m3 hs ho
    obtain ⟨b1, _, _, _⟩ := emit_built hT m1 m2 m3 hs e1
    obtain ⟨r, hr⟩ := ih s1 (fun x hx => hl x (by simp [hx])) b1 ho1
    simp only [emitTriangles, e1, bind, Option.bind, hr]
    exact ⟨_, rfl⟩

theorem decompose_defined {drop mono : Fin 3} {top bottom : List HP3} {z : HP3} (hT : Tame drop (top ++ bottom))
    (hM : MinFree drop (top ++ bottom)) (htop : top ≠ [])
    (hz : bottom.getLast? = some z) (h3 : 3 ≤ top.length + bottom.length)
    (hmax : ∀ t ∈ top, ¬ z.compareComponent mono t < 0) : ∃ out, decompose drop mono top bottom = some out := by
  obtain ⟨tris, ht⟩ := triangulate_defined drop mono top bottom z htop hz h3 hmax
  obtain ⟨_, htl⟩ := triangulate_tiles ht
  have hB0 : Built (top ++ bottom) ⟨[], [], 0⟩ := ⟨by simp, by simp, by simp⟩
  obtain ⟨r, hr⟩ := emits_defined hT hM tris ⟨[], [], 0⟩ (fun t ht => by
    obtain ⟨a1, a2, a3⟩ := htl.verts t ht
    exact ⟨by simpa using a1, by simpa using a2, by simpa using a3⟩) hB0 (by simp)
  simp only [decompose, ht, bind, Option.bind, hr]
  exact ⟨_, rfl⟩

end Walnut.Mono
