/- Bridge between the specification predicate `Rep` and `Canon`; every integer
is represented. -/
import Verif.BigInt.Canon

namespace Walnut
open BigInt

theorem Rep.canon {ws : List Word} {x : Int} (h : Rep ws x) : Canon ws :=
  (canon_iff_minimal ws).mpr h.1

theorem rep_of_canon {ws : List Word} {x : Int} (h : Canon ws) (e : sint ws = x) : Rep ws x :=
  ⟨(canon_iff_minimal ws).mp h, e⟩

theorem Rep.ne_nil {ws : List Word} {x : Int} (h : Rep ws x) : ws ≠ [] := h.1.1

/-- Two's complement digits of an integer. -/
def encode (x : Int) : Nat → List Word
  | 0 => [BitVec.ofInt 64 x]
  | n + 1 => BitVec.ofInt 64 x :: encode (x / 2 ^ 64) n

theorem encode_ne_nil (x : Int) (n : Nat) : encode x n ≠ [] := by
  cases n <;> simp [encode]

theorem sint_encode (n : Nat) : ∀ (x : Int), -2 ^ (64 * n + 63) ≤ x → x < 2 ^ (64 * n + 63) →
    sint (encode x n) = x := by
  induction n with
  | zero =>
    intro x h1 h2
    rw [show 64 * 0 + 63 = 63 from rfl] at h1 h2
    simp only [encode, sint, BitVec.toInt_ofInt]
    rw [Int.bmod_eq_of_le (by norm_num; omega) (by norm_num; omega)]
  | succ n ih =>
    intro x h1 h2
    have hp : (2 : Int) ^ (64 * (n + 1) + 63) = 2 ^ 64 * 2 ^ (64 * n + 63) := by
      rw [← pow_add]; congr 1; omega
    rw [hp] at h1 h2
    have ih := ih (x / 2 ^ 64) (by
      rw [Int.le_ediv_iff_mul_le (by norm_num)]; linarith) (by
      rw [Int.ediv_lt_iff_lt_mul (by norm_num)]; linarith)
    rw [encode, sint_cons _ (encode_ne_nil _ _), ih, BitVec.toNat_ofInt]
    have h3 := Int.emod_add_mul_ediv x (2 ^ 64)
    have h0 : 0 ≤ x % 2 ^ 64 := Int.emod_nonneg _ (by norm_num)
    push_cast
    rw [Int.toNat_of_nonneg (by simpa using h0)]
    simpa using h3

/-- Every integer is held by some `BigInt`. -/
theorem exists_rep (x : Int) : ∃ ws, Rep ws x := by
  obtain ⟨n, hn⟩ : ∃ n : Nat, x.natAbs < 2 ^ (64 * n + 63) :=
    ⟨x.natAbs, lt_of_lt_of_le Nat.lt_two_pow_self (Nat.pow_le_pow_right (by norm_num) (by omega))⟩
  have hn' : |x| < 2 ^ (64 * n + 63) := by
    rw [Int.abs_eq_natAbs]; exact_mod_cast hn
  have hb := abs_lt.mp hn'
  refine ⟨trim (encode x n), rep_of_canon (trim_canon (encode_ne_nil _ _)) ?_⟩
  rw [sint_trim, sint_encode n x hb.1.le hb.2]

/-- The held integer and the words determine each other. -/
theorem rep_unique {a b : List Word} {x : Int} (ha : Rep a x) (hb : Rep b x) : a = b :=
  ha.canon.unique hb.canon (ha.2.trans hb.2.symm)

end Walnut
