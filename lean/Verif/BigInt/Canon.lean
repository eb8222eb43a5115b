/- `Trim` and the canonical (trimmed) form. -/
import Verif.BigInt.Value

namespace Walnut

open BigInt

/-- Trimmed form, on the words from most to least significant. -/
def CanonRev : List Word → Prop
  | [] => False
  | [_] => True
  | high :: low :: _ => canTrim low high = false

/-- The words are in the form `Trim` leaves behind. -/
def Canon (ws : List Word) : Prop := CanonRev ws.reverse

instance : DecidablePred CanonRev := fun ws => by
  unfold CanonRev
  split <;> infer_instance

instance : DecidablePred Canon := fun ws => inferInstanceAs (Decidable (CanonRev ws.reverse))

theorem Canon.ne_nil {ws : List Word} (h : Canon ws) : ws ≠ [] := by
  rintro rfl; exact h

theorem sint_snoc (ws : List Word) (w : Word) :
    sint (ws ++ [w]) = unat ws + 2 ^ (64 * ws.length) * w.toInt := by
  induction ws with
  | nil => simp [sint, unat]
  | cons a as ih =>
    rw [List.cons_append, sint_cons a (by simp), ih, unat, List.length_cons,
      show 64 * (as.length + 1) = 64 * as.length + 64 by ring, pow_add]
    push_cast; ring

theorem sint_snoc2 (ws : List Word) (l h : Word) :
    sint (ws ++ [l] ++ [h]) = unat ws + 2 ^ (64 * ws.length) * (l.toNat + 2 ^ 64 * h.toInt) := by
  rw [sint_snoc, unat_append, List.length_append, List.length_singleton,
    show 64 * (ws.length + 1) = 64 * ws.length + 64 by ring, pow_add]
  simp only [unat]
  push_cast; ring

theorem canTrim_value (l h : Word) :
    canTrim l h = true ↔ -2 ^ 63 ≤ (l.toNat : Int) + 2 ^ 64 * h.toInt ∧
      (l.toNat : Int) + 2 ^ 64 * h.toInt < 2 ^ 63 := by
  rw [canTrim_iff]
  have hl := l.isLt
  have e0 : h = 0 ↔ h.toInt = 0 := by
    constructor
    · rintro rfl; rfl
    · intro e; exact BitVec.eq_of_toInt_eq e
  have e1 : h = BitVec.allOnes 64 ↔ h.toInt = -1 := by
    constructor
    · rintro rfl; rfl
    · intro e; exact BitVec.eq_of_toInt_eq e
  rw [e0, e1]
  rcases Word.toInt_cases l with ⟨h1, h2⟩ | ⟨h1, h2⟩ <;> omega

theorem canTrim_toInt {l h : Word} (hc : canTrim l h = true) :
    (l.toNat : Int) + 2 ^ 64 * h.toInt = l.toInt := by
  rw [canTrim_value] at hc
  have hl := l.isLt
  rcases Word.toInt_cases l with ⟨h1, h2⟩ | ⟨h1, h2⟩ <;> omega

theorem trimRev_ne_nil : ∀ {ws : List Word}, ws ≠ [] → trimRev ws ≠ []
  | [], h => absurd rfl h
  | [w], _ => by simp [trimRev]
  | high :: low :: rest, _ => by
    unfold trimRev
    split
    · exact trimRev_ne_nil (by simp)
    · simp

theorem trimRev_canon : ∀ {ws : List Word}, ws ≠ [] → CanonRev (trimRev ws)
  | [], h => absurd rfl h
  | [w], _ => by simp [trimRev, CanonRev]
  | high :: low :: rest, _ => by
    unfold trimRev
    split
    · exact trimRev_canon (by simp)
    · rename_i h; simpa [CanonRev] using h

theorem trimRev_sint : ∀ (ws : List Word), sint (trimRev ws).reverse = sint ws.reverse
  | [] => rfl
  | [w] => by simp [trimRev]
  | high :: low :: rest => by
    unfold trimRev
    split
    · rename_i h
      rw [trimRev_sint]
      simp only [List.reverse_cons]
      rw [sint_snoc2, canTrim_toInt h, sint_snoc]
    · rfl

theorem trimRev_length_le : ∀ (ws : List Word), (trimRev ws).length ≤ ws.length
  | [] => by simp [trimRev]
  | [w] => by simp [trimRev]
  | high :: low :: rest => by
    unfold trimRev
    split
    · exact le_trans (trimRev_length_le _) (by simp)
    · exact le_refl _

theorem trim_ne_nil {ws : List Word} (h : ws ≠ []) : trim ws ≠ [] := by
  unfold trim
  simpa using trimRev_ne_nil (ws := ws.reverse) (by simpa using h)

theorem trim_canon {ws : List Word} (h : ws ≠ []) : Canon (trim ws) := by
  unfold Canon trim
  rw [List.reverse_reverse]
  exact trimRev_canon (by simpa using h)

theorem sint_trim (ws : List Word) : sint (trim ws) = sint ws := by
  unfold trim
  rw [trimRev_sint, List.reverse_reverse]

theorem trim_of_canon {ws : List Word} (h : Canon ws) : trim ws = ws := by
  have key : ∀ l, CanonRev l → trimRev l = l := by
    intro l hl
    match l, hl with
    | [w], _ => rfl
    | high :: low :: rest, hl =>
      unfold trimRev
      rw [if_neg]
      simp only [CanonRev] at hl
      simp [hl]
  unfold trim
  rw [key _ h, List.reverse_reverse]

/-- A canonical value of `n + 2` words does not fit in `n + 1` words. -/
theorem Canon.large {ws : List Word} (h : Canon ws) (h2 : 2 ≤ ws.length) :
    sint ws < -2 ^ (64 * (ws.length - 1) - 1) ∨ 2 ^ (64 * (ws.length - 1) - 1) ≤ sint ws := by
  obtain ⟨r, hr⟩ : ∃ r, r = ws.reverse := ⟨_, rfl⟩
  have hw : ws = r.reverse := by rw [hr, List.reverse_reverse]
  unfold Canon at h
  rw [← hr] at h
  subst hw
  match r, h, h2 with
  | [], h, _ => exact absurd h (by simp [CanonRev])
  | [w], _, h2 => simp at h2
  | high :: low :: rest, h, _ =>
    simp only [CanonRev] at h
    have hv := (canTrim_value low high).not.mp (by simp [h])
    simp only [List.reverse_cons]
    rw [sint_snoc2]
    have hp := unat_lt rest.reverse
    have hlen : 64 * ((rest.reverse ++ [low] ++ [high]).length - 1) - 1
        = 64 * rest.reverse.length + 63 := by
      simp only [List.length_append, List.length_singleton, List.length_reverse]; omega
    rw [hlen, pow_add]
    have hpos : (0 : Int) < 2 ^ (64 * rest.reverse.length) := by positivity
    have hp' : (unat rest.reverse : Int) < 2 ^ (64 * rest.reverse.length) := by exact_mod_cast hp
    have hnn : (0 : Int) ≤ unat rest.reverse := Int.natCast_nonneg _
    generalize (2 : Int) ^ (64 * rest.reverse.length) = p at *
    generalize (low.toNat : Int) + 2 ^ 64 * high.toInt = y at *
    generalize (unat rest.reverse : Int) = u at *
    by_cases hy : y < -2 ^ 63
    · left
      have : p * y ≤ p * (-2 ^ 63 - 1) := mul_le_mul_of_nonneg_left (by omega) (by omega)
      linarith
    · right
      have : p * y ≥ p * (2 ^ 63) := mul_le_mul_of_nonneg_left (by omega) (by omega)
      linarith

theorem Canon.length_le {ws ws' : List Word} (h : Canon ws) (h' : ws' ≠ [])
    (he : sint ws' = sint ws) : ws.length ≤ ws'.length := by
  by_contra hlt
  have hl : ws'.length ≠ 0 := by simpa using h'
  have hbig := h.large (by omega)
  obtain ⟨b1, b2⟩ := sint_bounds h'
  have hmono : (2 : Int) ^ (64 * ws'.length - 1) ≤ 2 ^ (64 * (ws.length - 1) - 1) :=
    pow_le_pow_right₀ (by norm_num) (by omega)
  rw [he] at b1 b2
  rcases hbig with hb | hb <;> linarith

theorem unat_inj : ∀ {as bs : List Word}, as.length = bs.length → unat as = unat bs → as = bs
  | [], [], _, _ => rfl
  | [], _ :: _, h, _ => by simp at h
  | _ :: _, [], h, _ => by simp at h
  | a :: as, b :: bs, h, e => by
    simp only [unat] at e
    have ha := a.isLt
    have hb := b.isLt
    have e1 : a.toNat = b.toNat := by omega
    have e2 : unat as = unat bs := by omega
    rw [BitVec.eq_of_toNat_eq e1, unat_inj (by simpa using h) e2]

theorem sint_inj_of_length {as bs : List Word} (h : as.length = bs.length)
    (e : sint as = sint bs) : as = bs := by
  by_cases ha : as = []
  · subst ha
    cases bs with
    | nil => rfl
    | cons b bs => simp at h
  · have hb : bs ≠ [] := by
      rintro rfl
      cases as with
      | nil => exact ha rfl
      | cons a as => simp at h
    have hs : sgn as = sgn bs := by rw [sgn_eq ha, sgn_eq hb, e]
    rw [sint_eq ha, sint_eq hb, h, hs] at e
    apply unat_inj h
    have : (unat as : Int) = unat bs := by linarith
    exact_mod_cast this

/-- Canonical forms are unique. -/
theorem Canon.unique {as bs : List Word} (ha : Canon as) (hb : Canon bs)
    (e : sint as = sint bs) : as = bs :=
  sint_inj_of_length
    (Nat.le_antisymm (ha.length_le hb.ne_nil e.symm) (hb.length_le ha.ne_nil e)) e

theorem canon_iff_minimal (ws : List Word) : Canon ws ↔ Minimal ws := by
  constructor
  · intro h
    exact ⟨h.ne_nil, fun ws' h' e => h.length_le h' e⟩
  · rintro ⟨hne, hmin⟩
    have h1 := hmin (trim ws) (trim_ne_nil hne) (sint_trim ws)
    have hlen : (trim ws).length ≤ ws.length := by
      unfold trim
      have := trimRev_length_le ws.reverse
      simpa using this
    have : trim ws = ws := sint_inj_of_length (by omega) (sint_trim ws)
    rw [← this]
    exact trim_canon hne

theorem canon_singleton (w : Word) : Canon [w] := by
  simp [Canon, CanonRev]

theorem sint_singleton (w : Word) : sint [w] = w.toInt := rfl

theorem canon_length_one {ws : List Word} (h : Canon ws)
    (h1 : -2 ^ 63 ≤ sint ws) (h2 : sint ws < 2 ^ 63) : ws.length = 1 := by
  have hne : ws.length ≠ 0 := by simpa using h.ne_nil
  by_contra hlt
  have hbig := h.large (by omega)
  have hmono : (2 : Int) ^ 63 ≤ 2 ^ (64 * (ws.length - 1) - 1) :=
    pow_le_pow_right₀ (by norm_num) (by omega)
  rcases hbig with hb | hb <;> linarith

end Walnut
