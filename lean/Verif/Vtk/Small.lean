/-
Points that come from doubles are small enough for the arithmetic of the polygon factory.
-/
import Verif.Vtk.Model
import Verif.Props.Double

namespace Walnut.Vtk
open Walnut.Geom Walnut.Poly Walnut.Mono Walnut.Bsp Walnut.Util Walnut.Props

theorem encode_len (n : Nat) : ∀ x : Int, (encode x n).length = n + 1 := by
  induction n with
  | zero => intro x; rfl
  | succ n ih => intro x; simp [encode, ih]

theorem words_small {x : Int} {k : Nat} (hx : |x| ≤ 2 ^ k) (hk : k ≤ 2 ^ 62) : (wordsOf x).length ≤ 2 ^ 63 := by
  have h1 : (wordsOf x).length ≤ Nat.log2 x.natAbs / 64 + 1 + 1 := by
    unfold wordsOf BigInt.trim
    rw [List.length_reverse]
    refine (trimRev_length_le _).trans ?_
    rw [List.length_reverse, encode_len]
  have h2 : Nat.log2 x.natAbs ≤ k := by
    rcases Nat.eq_zero_or_pos x.natAbs with h | h
    · rw [h]; simp
    · rw [Nat.log2_eq_log_two]
      have : x.natAbs ≤ 2 ^ k := by
        have : ((x.natAbs : Nat) : Int) ≤ 2 ^ k := by rw [Int.natCast_natAbs]; exact hx
        exact_mod_cast this
      calc Nat.log 2 x.natAbs ≤ Nat.log 2 (2 ^ k) := Nat.log_mono_right this
        _ = k := Nat.log_pow (by norm_num) k
  omega

/-- The coordinates are at most `2 ^ k`. -/
def Bounded (k : Nat) (p : HP3) : Prop := (∀ i, |p.v.comp i| ≤ 2 ^ k) ∧ |p.w| ≤ 2 ^ k

theorem cross_bound {a b c d u v e f M : Int} (ha : |a| ≤ M) (hb : |b| ≤ M) (hc : |c| ≤ M) (hd : |d| ≤ M) (hu : |u| ≤ M) (hv : |v| ≤ M) (he : |e| ≤ M)
    (hf : |f| ≤ M) : |a * b - c * d| ≤ 2 * (M * M) ∧ |(a * b - c * d) * (u * v - e * f)| ≤ 2 * (M * M) * (2 * (M * M)) := by
  have m : ∀ {x y : Int}, |x| ≤ M → |y| ≤ M → |x * y| ≤ M * M := fun hx hy => by
    rw [abs_mul]; exact mul_le_mul hx hy (abs_nonneg _) ((abs_nonneg _).trans hx)
  have s : ∀ {x y z w : Int}, |x| ≤ M → |y| ≤ M → |z| ≤ M → |w| ≤ M → |x * y - z * w| ≤ 2 * (M * M) := fun h1 h2 h3 h4 => by
    refine (abs_sub _ _).trans ?_
    have := m h1 h2
    have := m h3 h4
    linarith
  refine ⟨s ha hb hc hd, ?_⟩
  rw [abs_mul]
  exact mul_le_mul (s ha hb hc hd) (s hu hv he hf) (abs_nonneg _) ((abs_nonneg _).trans (s ha hb hc hd))

theorem twist_bound {k : Nat} {a b c : HP3} (ha : Bounded k a) (hb : Bounded k b) (hc : Bounded k c) (drop : Fin 3) :
    |a.twistCross drop b c| ≤ 2 ^ (4 * k + 3) := by
  have e : a.twistCross drop b c = (b.v.comp (drop + 1) * a.w - a.v.comp (drop + 1) * b.w) * (c.v.comp (drop + 2) * a.w - a.v.comp (drop + 2) * c.w) -
      (b.v.comp (drop + 2) * a.w - a.v.comp (drop + 2) * b.w) * (c.v.comp (drop + 1) * a.w - a.v.comp (drop + 1) * c.w) := by
    simp [HP3.twistCross, V3.dropDimension, V2.scale, V2.sub, V2.cross]
  rw [e]
  refine (abs_sub _ _).trans ?_
  have h1 := (cross_bound (hb.1 (drop + 1)) ha.2 (ha.1 (drop + 1)) hb.2 (hc.1 (drop + 2)) ha.2 (ha.1 (drop + 2)) hc.2).2
  have h2 := (cross_bound (hb.1 (drop + 2)) ha.2 (ha.1 (drop + 2)) hb.2 (hc.1 (drop + 1)) ha.2 (ha.1 (drop + 1)) hc.2).2
  have : (2 : Int) ^ (4 * k + 3) = 2 * (2 ^ k * 2 ^ k) * (2 * (2 ^ k * 2 ^ k)) + 2 * (2 ^ k * 2 ^ k) * (2 * (2 ^ k * 2 ^ k)) := by ring
  rw [this]
  exact add_le_add h1 h2

theorem usable_of_bounded {k : Nat} (hk : k ≤ 2 ^ 32) {vs : List HP3} (hw : ∀ v ∈ vs, 0 < v.w) (hb : ∀ v ∈ vs, Bounded k v) : Usable vs := by
  intro drop
  refine ⟨hw, fun a ha b hb' c hc => words_small (twist_bound (hb a ha) (hb b hb') (hb c hc) drop) ?_⟩
  omega

theorem shift_bound {m e d : Int} (hm : |m| < 2 ^ 53) (he : e ≤ 1023) (hd : -1074 ≤ d) : |safeShiftLeft m (e - d)| ≤ 2 ^ 3000 := by
  unfold safeShiftLeft
  have h53 : (2 : Int) ^ 54 ≤ 2 ^ 3000 := pow_le_pow_right₀ (by norm_num) (by norm_num)
  split_ifs with h1 h2
  · rw [abs_mul, abs_pow, abs_two]
    have e1 : (2 : Int) ^ (e - d).toNat ≤ 2 ^ 2900 := pow_le_pow_right₀ (by norm_num) (by omega)
    calc |m| * 2 ^ (e - d).toNat ≤ 2 ^ 53 * 2 ^ 2900 := mul_le_mul hm.le e1 (by positivity) (by positivity)
      _ = 2 ^ (53 + 2900) := (pow_add _ _ _).symm
      _ ≤ 2 ^ 3000 := pow_le_pow_right₀ (by norm_num) (by norm_num)
  · rw [abs_zero]; positivity
  · refine le_trans ?_ h53
    have h0 := abs_lt.1 hm
    generalize (-(e - d)).toNat = s
    generalize (-(e - d) - 1).toNat = r
    simp only
    have hs : |m >>> s| ≤ 2 ^ 53 := by
      rw [Int.shiftRight_eq_div_pow]
      have hp : (0 : Int) < ((2 ^ s : Nat) : Int) := by positivity
      rw [abs_le]
      constructor
      · rw [Int.le_ediv_iff_mul_le hp]
        have : (1 : Int) ≤ ((2 ^ s : Nat) : Int) := by omega
        nlinarith
      · apply Int.ediv_le_of_le_mul hp
        have : (1 : Int) ≤ ((2 ^ s : Nat) : Int) := by omega
        nlinarith
    have hr : |(m >>> r) % 2| ≤ 1 := by
      have := Int.emod_nonneg (m >>> r) (show (2 : Int) ≠ 0 by norm_num)
      have := Int.emod_lt_of_pos (m >>> r) (show (0 : Int) < 2 by norm_num)
      rw [abs_le]; constructor <;> omega
    refine (abs_add_le _ _).trans ?_
    have : (2 : Int) ^ 54 = 2 ^ 53 + 2 ^ 53 := by norm_num
    rw [this]
    have : (1 : Int) ≤ 2 ^ 53 := by norm_num
    linarith

/-- The point of three doubles is rounded, and it is small. -/
theorem fromDoubles_bounded (minExponent : Int) {bx by' bz : BitVec 64} {x y z : ℚ} (hx : doubleValue bx = some x)
    (hy : doubleValue by' = some y) (hz : doubleValue bz = some z) {p : HP3} (hp : fromDoubles minExponent x y z = some p) : Bounded 3000 p := by
  obtain ⟨mx, ex, x1, -, -, -, x5, x6, x7⟩ := decompose_spec hx
  obtain ⟨my, ey, y1, -, -, -, y5, y6, y7⟩ := decompose_spec hy
  obtain ⟨mz, ez, z1, -, -, -, z5, z6, z7⟩ := decompose_spec hz
  unfold fromDoubles at hp
  simp only [x1, y1, z1, Option.bind_eq_bind, Option.bind_some] at hp
  generalize hd : min 0 (max minExponent (min ex (min ey ez))) = d at hp
  have hd' : -1074 ≤ d := by omega
  cases hp
  refine ⟨fun i => ?_, ?_⟩
  · fin_cases i
    · exact shift_bound x5 x7 hd'
    · exact shift_bound y5 y7 hd'
    · exact shift_bound z5 z7 hd'
  · show |1 * 2 ^ (-d).toNat| ≤ (2 : Int) ^ 3000
    rw [one_mul, abs_pow, abs_two]
    exact pow_le_pow_right₀ (by norm_num) (by omega)

end Walnut.Vtk
