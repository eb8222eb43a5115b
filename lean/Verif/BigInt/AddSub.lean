/- Helper lemmas for addition, subtraction, negation. -/
import Verif.BigInt.Canon

namespace Walnut

open BigInt

theorem addTailR_ne (ea eb : Word) (bs c) : addTailR ea eb bs c ≠ [] := by
  cases bs <;> simp [addTailR]

theorem addTailL_ne (ea eb : Word) (as c) : addTailL ea eb as c ≠ [] := by
  cases as <;> simp [addTailL]

theorem addLoop_ne (ea eb : Word) (as bs c) : addLoop ea eb as bs c ≠ [] := by
  cases as <;> cases bs <;> simp [addLoop, addTailR_ne, addTailL_ne]

theorem addLast (ea eb : Word) (ha : IsExt ea) (hb : IsExt eb) (c : Bool) :
    (Word.addC ea eb c).1.toInt = extInt ea + extInt eb + c.toNat := by
  rcases ha with rfl | rfl <;> rcases hb with rfl | rfl <;> cases c <;> decide

theorem subLast (ea eb : Word) (ha : IsExt ea) (hb : IsExt eb) (c : Bool) :
    (Word.subC ea eb c).1.toInt = extInt ea - extInt eb - c.toNat := by
  rcases ha with rfl | rfl <;> rcases hb with rfl | rfl <;> cases c <;> decide

theorem ext_toNat {e : Word} (h : IsExt e) : (e.toNat : Int) = extInt e - 2 ^ 64 * extInt e := by
  rcases h with rfl | rfl <;> decide

theorem addTailR_sint {ea eb : Word} (ha : IsExt ea) (hb : IsExt eb) :
    ∀ (bs : List Word) (c : Bool),
      sint (addTailR ea eb bs c) = extInt ea + xval bs (extInt eb) + c.toNat
  | [], c => by
    simp only [addTailR, sint, xval]; exact addLast ea eb ha hb c
  | b :: bs, c => by
    rw [addTailR, sint_cons _ (addTailR_ne _ _ _ _), addTailR_sint ha hb, xval]
    have h := Word.addC_spec ea b c
    have e := ext_toNat ha
    have h' : ((Word.addC ea b c).1.toNat : Int) + 2 ^ 64 * (Word.addC ea b c).2.toNat
      = ea.toNat + b.toNat + c.toNat := by exact_mod_cast h
    linarith

theorem addTailL_sint {ea eb : Word} (ha : IsExt ea) (hb : IsExt eb) :
    ∀ (as : List Word) (c : Bool),
      sint (addTailL ea eb as c) = xval as (extInt ea) + extInt eb + c.toNat
  | [], c => by
    simp only [addTailL, sint, xval]; exact addLast ea eb ha hb c
  | a :: as, c => by
    rw [addTailL, sint_cons _ (addTailL_ne _ _ _ _), addTailL_sint ha hb, xval]
    have h := Word.addC_spec a eb c
    have e := ext_toNat hb
    have h' : ((Word.addC a eb c).1.toNat : Int) + 2 ^ 64 * (Word.addC a eb c).2.toNat
      = a.toNat + eb.toNat + c.toNat := by exact_mod_cast h
    linarith

theorem addLoop_sint {ea eb : Word} (ha : IsExt ea) (hb : IsExt eb) :
    ∀ (as bs : List Word) (c : Bool),
      sint (addLoop ea eb as bs c) = xval as (extInt ea) + xval bs (extInt eb) + c.toNat
  | [], bs, c => by rw [addLoop, addTailR_sint ha hb, xval]
  | a :: as, [], c => by rw [addLoop, addTailL_sint ha hb]; simp only [xval]
  | a :: as, b :: bs, c => by
    rw [addLoop, sint_cons _ (addLoop_ne _ _ _ _ _), addLoop_sint ha hb, xval, xval]
    have h := Word.addC_spec a b c
    have h' : ((Word.addC a b c).1.toNat : Int) + 2 ^ 64 * (Word.addC a b c).2.toNat
      = a.toNat + b.toNat + c.toNat := by exact_mod_cast h
    linarith

theorem subTailR_ne (ea eb : Word) (bs c) : subTailR ea eb bs c ≠ [] := by
  cases bs <;> simp [subTailR]

theorem subTailL_ne (ea eb : Word) (as c) : subTailL ea eb as c ≠ [] := by
  cases as <;> simp [subTailL]

theorem subLoop_ne (ea eb : Word) (as bs c) : subLoop ea eb as bs c ≠ [] := by
  cases as <;> cases bs <;> simp [subLoop, subTailR_ne, subTailL_ne]

theorem subTailR_sint {ea eb : Word} (ha : IsExt ea) (hb : IsExt eb) :
    ∀ (bs : List Word) (c : Bool),
      sint (subTailR ea eb bs c) = extInt ea - xval bs (extInt eb) - c.toNat
  | [], c => by
    simp only [subTailR, sint, xval]; exact subLast ea eb ha hb c
  | b :: bs, c => by
    rw [subTailR, sint_cons _ (subTailR_ne _ _ _ _), subTailR_sint ha hb, xval]
    have h := Word.subC_spec ea b c
    have e := ext_toNat ha
    have h' : ((Word.subC ea b c).1.toNat : Int) + b.toNat + c.toNat
      = ea.toNat + 2 ^ 64 * (Word.subC ea b c).2.toNat := by exact_mod_cast h
    linarith

theorem subTailL_sint {ea eb : Word} (ha : IsExt ea) (hb : IsExt eb) :
    ∀ (as : List Word) (c : Bool),
      sint (subTailL ea eb as c) = xval as (extInt ea) - extInt eb - c.toNat
  | [], c => by
    simp only [subTailL, sint, xval]; exact subLast ea eb ha hb c
  | a :: as, c => by
    rw [subTailL, sint_cons _ (subTailL_ne _ _ _ _), subTailL_sint ha hb, xval]
    have h := Word.subC_spec a eb c
    have e := ext_toNat hb
    have h' : ((Word.subC a eb c).1.toNat : Int) + eb.toNat + c.toNat
      = a.toNat + 2 ^ 64 * (Word.subC a eb c).2.toNat := by exact_mod_cast h
    linarith

theorem subLoop_sint {ea eb : Word} (ha : IsExt ea) (hb : IsExt eb) :
    ∀ (as bs : List Word) (c : Bool),
      sint (subLoop ea eb as bs c) = xval as (extInt ea) - xval bs (extInt eb) - c.toNat
  | [], bs, c => by rw [subLoop, subTailR_sint ha hb, xval]
  | a :: as, [], c => by rw [subLoop, subTailL_sint ha hb]; simp only [xval]
  | a :: as, b :: bs, c => by
    rw [subLoop, sint_cons _ (subLoop_ne _ _ _ _ _), subLoop_sint ha hb, xval, xval]
    have h := Word.subC_spec a b c
    have h' : ((Word.subC a b c).1.toNat : Int) + b.toNat + c.toNat
      = a.toNat + 2 ^ 64 * (Word.subC a b c).2.toNat := by exact_mod_cast h
    linarith

theorem isExt_signExtension (ws : List Word) : IsExt (signExtension ws) := isExt_signExt _

theorem addSlow_spec {a b : List Word} (ha : a ≠ []) (hb : b ≠ []) :
    Canon (addSlow a b) ∧ sint (addSlow a b) = sint a + sint b := by
  refine ⟨trim_canon (addLoop_ne _ _ _ _ _), ?_⟩
  rw [addSlow, sint_trim, addLoop_sint (isExt_signExtension _) (isExt_signExtension _),
    extInt_signExtension, extInt_signExtension, sint_eq_xval ha, sint_eq_xval hb]
  simp

theorem subSlow_spec {a b : List Word} (ha : a ≠ []) (hb : b ≠ []) :
    Canon (subSlow a b) ∧ sint (subSlow a b) = sint a - sint b := by
  refine ⟨trim_canon (subLoop_ne _ _ _ _ _), ?_⟩
  rw [subSlow, sint_trim, subLoop_sint (isExt_signExtension _) (isExt_signExtension _),
    extInt_signExtension, extInt_signExtension, sint_eq_xval ha, sint_eq_xval hb]
  simp

/-! ### Half word tests -/

theorem or_shift_zero (x y : Word) : (x ||| y) >>> 32 = 0 ↔ x >>> 32 = 0 ∧ y >>> 32 = 0 := by
  rw [BitVec.ushiftRight_or_distrib]
  constructor
  · intro h
    constructor <;>
    · apply BitVec.eq_of_getLsbD_eq
      intro i hi
      have := congrArg (fun z : Word => z.getLsbD i) h
      simp only [BitVec.getLsbD_or] at this
      revert this
      simp only [BitVec.ofNat_eq_ofNat, BitVec.getLsbD_zero]
      cases (x >>> 32).getLsbD i <;> cases (y >>> 32).getLsbD i <;> simp
  · rintro ⟨h1, h2⟩; rw [h1, h2]; rfl

theorem half_range (x : Word) :
    (x + (1#64 <<< 31)) >>> 32 = 0 ↔ -2 ^ 31 ≤ x.toInt ∧ x.toInt < 2 ^ 31 := by
  have hx := x.isLt
  have e : ∀ y : Word, y >>> 32 = 0 ↔ y.toNat < 2 ^ 32 := by
    intro y
    constructor
    · intro h
      have := congrArg BitVec.toNat h
      rw [BitVec.toNat_ushiftRight, Nat.shiftRight_eq_div_pow] at this
      have h0 : (0 : Word).toNat = 0 := rfl
      omega
    · intro h
      apply BitVec.eq_of_toNat_eq
      rw [BitVec.toNat_ushiftRight, Nat.shiftRight_eq_div_pow]
      have h0 : (0 : Word).toNat = 0 := rfl
      omega
  rw [e, BitVec.toNat_add]
  have : (1#64 <<< 31).toNat = 2 ^ 31 := by decide
  rw [this]
  rcases Word.toInt_cases x with ⟨h1, h2⟩ | ⟨h1, h2⟩ <;> omega

theorem lor_eq_zero (a b : Nat) : a ||| b = 0 ↔ a = 0 ∧ b = 0 := by
  exact Nat.or_eq_zero_iff

/-- The value fits in a signed 32 bit half word. -/
def FitsHalf (x : Int) : Prop := -2 ^ 31 ≤ x ∧ x < 2 ^ 31

theorem allHalfWords_elim {a b : List Word} (h : allHalfWords a b = true) :
    ∃ x y, a = [x] ∧ b = [y] ∧ FitsHalf x.toInt ∧ FitsHalf y.toInt := by
  unfold allHalfWords at h
  split at h
  · rename_i a0 ae b0 be
    simp only [decide_eq_true_eq] at h
    obtain ⟨h1, h2⟩ := h
    rw [or_shift_zero, half_range, half_range] at h1
    rw [lor_eq_zero] at h2
    refine ⟨a0, b0, ?_, ?_, h1.1, h1.2⟩
    · rw [List.length_eq_zero_iff.mp h2.1]
    · rw [List.length_eq_zero_iff.mp h2.2]
  · simp at h

theorem allHalfWords3_elim {a b c : List Word} (h : allHalfWords3 a b c = true) :
    ∃ x y z, a = [x] ∧ b = [y] ∧ c = [z] ∧ FitsHalf x.toInt ∧ FitsHalf y.toInt ∧
      FitsHalf z.toInt := by
  unfold allHalfWords3 at h
  split at h
  · rename_i a0 ae b0 be c0 ce
    simp only [decide_eq_true_eq] at h
    obtain ⟨h1, h2⟩ := h
    rw [or_shift_zero, or_shift_zero, half_range, half_range, half_range] at h1
    rw [lor_eq_zero, lor_eq_zero] at h2
    refine ⟨a0, b0, c0, ?_, ?_, ?_, h1.1.1, h1.1.2, h1.2⟩
    · rw [List.length_eq_zero_iff.mp h2.1.1]
    · rw [List.length_eq_zero_iff.mp h2.1.2]
    · rw [List.length_eq_zero_iff.mp h2.2]
  · simp at h

theorem toInt_add_of_fits (x y : Word) (h1 : -2 ^ 63 ≤ x.toInt + y.toInt)
    (h2 : x.toInt + y.toInt < 2 ^ 63) : (x + y).toInt = x.toInt + y.toInt := by
  rw [BitVec.toInt_add, Int.bmod_def]; omega

theorem toInt_sub_of_fits (x y : Word) (h1 : -2 ^ 63 ≤ x.toInt - y.toInt)
    (h2 : x.toInt - y.toInt < 2 ^ 63) : (x - y).toInt = x.toInt - y.toInt := by
  rw [BitVec.toInt_sub, Int.bmod_def]; omega

theorem toInt_mul_of_fits (x y : Word) (h1 : -2 ^ 63 ≤ x.toInt * y.toInt)
    (h2 : x.toInt * y.toInt < 2 ^ 63) : (x * y).toInt = x.toInt * y.toInt := by
  rw [BitVec.toInt_mul, Int.bmod_def]; omega

theorem add_spec {a b : List Word} (ha : a ≠ []) (hb : b ≠ []) :
    Canon (add a b) ∧ sint (add a b) = sint a + sint b := by
  unfold add
  split
  · rename_i h
    obtain ⟨x, y, rfl, rfl, ⟨hx1, hx2⟩, ⟨hy1, hy2⟩⟩ := allHalfWords_elim h
    refine ⟨canon_singleton _, ?_⟩
    simp only [first, sint]
    exact toInt_add_of_fits x y (by omega) (by omega)
  · exact addSlow_spec ha hb

theorem sub_spec {a b : List Word} (ha : a ≠ []) (hb : b ≠ []) :
    Canon (sub a b) ∧ sint (sub a b) = sint a - sint b := by
  unfold sub
  split
  · rename_i h
    obtain ⟨x, y, rfl, rfl, ⟨hx1, hx2⟩, ⟨hy1, hy2⟩⟩ := allHalfWords_elim h
    refine ⟨canon_singleton _, ?_⟩
    simp only [first, sint]
    exact toInt_sub_of_fits x y (by omega) (by omega)
  · exact subSlow_spec ha hb

theorem canTrimLastHalf_fits {w : Word} (h : canTrimLastHalf w = true) : FitsHalf w.toInt := by
  simp only [canTrimLastHalf, decide_eq_true_eq] at h
  have := BitVec.le_toInt (w.setWidth 32)
  have := BitVec.toInt_lt (x := w.setWidth 32)
  rw [h] at *
  constructor <;> omega

theorem ofInt32_toInt (v : BitVec 32) : (v.signExtend 64).toInt = v.toInt :=
  BitVec.toInt_signExtend_of_le (by decide)

theorem int32_bounds (v : BitVec 32) : FitsHalf v.toInt := by
  have := BitVec.le_toInt v
  have := BitVec.toInt_lt (x := v)
  constructor <;> omega

theorem sint_ofInt32 (v : BitVec 32) : sint (ofInt32 v) = v.toInt := ofInt32_toInt v

theorem isHalfWord_elim {a : List Word} (h : isHalfWord a = true) :
    ∃ x, a = [x] ∧ FitsHalf x.toInt := by
  unfold isHalfWord at h
  split at h
  · rename_i w; exact ⟨w, rfl, canTrimLastHalf_fits h⟩
  · simp at h

theorem addAssignHalf_spec {a : List Word} (ha : a ≠ []) (v : BitVec 32) :
    Canon (addAssignHalf a v) ∧ sint (addAssignHalf a v) = sint a + v.toInt := by
  unfold addAssignHalf
  split
  · rename_i h
    obtain ⟨x, rfl, ⟨hx1, hx2⟩⟩ := isHalfWord_elim h
    refine ⟨canon_singleton _, ?_⟩
    simp only [first, sint]
    have hv := int32_bounds v
    rw [← ofInt32_toInt v] at *
    obtain ⟨h1, h2⟩ := hv
    exact toInt_add_of_fits _ _ (by omega) (by omega)
  · have := add_spec ha (b := ofInt32 v) (by simp [ofInt32])
    rw [sint_ofInt32] at this
    exact this

theorem subAssignHalf_spec {a : List Word} (ha : a ≠ []) (v : BitVec 32) :
    Canon (subAssignHalf a v) ∧ sint (subAssignHalf a v) = sint a - v.toInt := by
  unfold subAssignHalf
  split
  · rename_i h
    obtain ⟨x, rfl, ⟨hx1, hx2⟩⟩ := isHalfWord_elim h
    refine ⟨canon_singleton _, ?_⟩
    simp only [first, sint]
    have hv := int32_bounds v
    rw [← ofInt32_toInt v] at *
    obtain ⟨h1, h2⟩ := hv
    exact toInt_sub_of_fits _ _ (by omega) (by omega)
  · have := sub_spec ha (b := ofInt32 v) (by simp [ofInt32])
    rw [sint_ofInt32] at this
    exact this

/-! ### Negate -/

theorem negLoop_spec : ∀ (ws : List Word) (c : Bool),
    (negLoop ws c).1.length = ws.length ∧
    unat (negLoop ws c).1 + 2 ^ (64 * ws.length) * (negLoop ws c).2.toNat + unat ws + 1
      = 2 ^ (64 * ws.length) + c.toNat
  | [], c => by simp [negLoop, unat]; omega
  | w :: ws, c => by
    have ih := negLoop_spec ws (Word.addB (~~~w) c).2
    have h := Word.addB_spec (~~~w) c
    have hn : (~~~w).toNat = 2 ^ 64 - 1 - w.toNat := by simp [BitVec.toNat_not]
    have hw := w.isLt
    simp only [negLoop, unat, List.length_cons]
    refine ⟨by rw [ih.1], ?_⟩
    rw [show 64 * (ws.length + 1) = 64 * ws.length + 64 by ring, pow_add]
    have ih2 := ih.2
    generalize (negLoop ws (Word.addB (~~~w) c).2).1 = r1 at *
    generalize (negLoop ws (Word.addB (~~~w) c).2).2 = r2 at *
    generalize Word.addB (~~~w) c = s at *
    generalize 2 ^ (64 * ws.length) = p at *
    rw [hn] at h
    have e : p * 2 ^ 64 * r2.toNat = 2 ^ 64 * (p * r2.toNat) := by ring
    rw [e]
    generalize p * r2.toNat = q at *
    omega

theorem top_snoc (ws : List Word) (w : Word) : top (ws ++ [w]) = w := by
  induction ws with
  | nil => rfl
  | cons a as ih => rw [List.cons_append, top_cons _ (by simp), ih]

theorem sign_changed_zero (x y : Word) (c : Bool) :
    (Word.lo32 ((x ^^^ y) >>> 63) ||| BitVec.ofNat 64 c.toNat) = 0 ↔
      x.msb = y.msb ∧ c = false := by
  have e : (x ^^^ y) >>> 63 = BitVec.ofNat 64 (x ^^^ y).msb.toNat := by
    apply BitVec.eq_of_toNat_eq
    rw [BitVec.toNat_ushiftRight, Nat.shiftRight_eq_div_pow, Word.toNat_ofBool]
    have := (x ^^^ y).isLt
    rw [BitVec.msb_eq_decide]
    by_cases h : 2 ^ (64 - 1) ≤ (x ^^^ y).toNat
    · simp only [h, decide_true, Bool.toNat_true]; omega
    · simp only [h, decide_false, Bool.toNat_false]; omega
  rw [e, BitVec.msb_xor]
  cases x.msb <;> cases y.msb <;> cases c <;> decide

theorem negate_spec {a : List Word} (ha : a ≠ []) :
    Canon (negate a) ∧ sint (negate a) = - sint a := by
  obtain ⟨hlen, hv⟩ := negLoop_spec a true
  unfold negate
  simp only [sign_changed_zero]
  generalize (negLoop a true).1 = r at *
  generalize (negLoop a true).2 = c at *
  have hr : r ≠ [] := by
    intro h; rw [h] at hlen
    exact ha (List.length_eq_zero_iff.mp hlen.symm)
  have hl0 : a.length ≠ 0 := by simpa using ha
  refine ⟨trim_canon (by split <;> simp [hr]), ?_⟩
  rw [sint_trim]
  have hsa := sint_eq ha
  obtain ⟨b1, b2⟩ := sint_bounds ha
  have hmsb : ∀ {ws : List Word}, ws ≠ [] → ((top ws).msb = true ↔ sint ws < 0) := by
    intro ws h; rw [sint_neg_iff h, toInt_neg_iff_msb]
  have hur := unat_lt r
  have hua := unat_lt a
  rw [hlen] at hur
  have hvI : (unat r : Int) + 2 ^ (64 * a.length) * c.toNat + unat a = 2 ^ (64 * a.length) := by
    have := hv
    simp only [Bool.toNat_true] at this
    have : unat r + 2 ^ (64 * a.length) * c.toNat + unat a = 2 ^ (64 * a.length) := by omega
    exact_mod_cast this
  have hurI : (unat r : Int) < 2 ^ (64 * a.length) := by exact_mod_cast hur
  have huaI : (unat a : Int) < 2 ^ (64 * a.length) := by exact_mod_cast hua
  have hsr := sint_eq hr
  rw [hlen] at hsr
  obtain ⟨c1, c2⟩ := sint_bounds hr
  rw [hlen] at c1 c2
  have eP : (2 : Int) ^ (64 * a.length) = 2 * 2 ^ (64 * a.length - 1) := by
    rw [← pow_succ']; congr 1; omega
  have hp : (0 : Int) < 2 ^ (64 * a.length - 1) := by positivity
  have hra : sint (r ++ [0#64]) = unat r := by
    rw [sint_snoc]; simp
  have h1 := hmsb ha
  have h2 := hmsb hr
  have hga := sgn_eq ha
  have hgr := sgn_eq hr
  rw [eP] at hsa hvI hurI huaI hsr
  generalize (2 : Int) ^ (64 * a.length - 1) = p at *
  have hsame : (top a).msb = (top r).msb ↔ (sint a < 0 ↔ sint r < 0) := by
    rw [← h1, ← h2]
    cases (top a).msb <;> cases (top r).msb <;> simp
  simp only [hsame]
  have nn1 : (0 : Int) ≤ unat r := Int.natCast_nonneg _
  have nn2 : (0 : Int) ≤ unat a := Int.natCast_nonneg _
  generalize (unat r : Int) = ur at nn1 hsr hra hvI hurI
  generalize (unat a : Int) = ua at nn2 hsa hvI huaI
  cases c
  · simp only [Bool.toNat_false, Nat.cast_zero, mul_zero, add_zero] at hvI
    by_cases n1 : sint a < 0 <;> by_cases n2 : sint r < 0
    · rw [if_pos ⟨by simp [n1, n2], rfl⟩, hra]
      rw [if_pos n1] at hga
      rw [hsa, hga]; linarith
    · rw [if_neg (by simp [n1, n2])]
      rw [if_pos n1] at hga; rw [if_neg n2] at hgr
      rw [hsa, hsr, hga, hgr]; linarith
    · rw [if_neg (by simp [n1, n2])]
      rw [if_neg n1] at hga; rw [if_pos n2] at hgr
      rw [hsa, hsr, hga, hgr]; linarith
    · rw [if_neg n1] at hga; rw [if_neg n2] at hgr
      rw [hga] at hsa; rw [hgr] at hsr
      exfalso; linarith
  · simp only [Bool.toNat_true, Nat.cast_one, mul_one] at hvI
    rw [if_neg (by simp)]
    have z1 : ur = 0 := by linarith
    have z2 : ua = 0 := by linarith
    rcases sgn_cases a with g1 | g1 <;> rcases sgn_cases r with g2 | g2 <;>
      rw [g1] at hsa <;> rw [g2] at hsr <;> rw [hsa, hsr, z1, z2] <;> linarith

end Walnut
