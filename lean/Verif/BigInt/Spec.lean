/-
Specification side of the `BigInt` / `BigUInt` layer: what number a sequence of
words denotes.  Nothing here mentions how the code computes.
-/
import Verif.BigInt.Word

namespace Walnut

/-- The integer a little-endian two's complement word sequence denotes: the
last word is read as signed, the others as unsigned.  The empty sequence never
occurs (`BigIntWords` always has at least one word). -/
def sint : List Word → Int
  | [] => 0
  | [w] => w.toInt
  | w :: w' :: ws => w.toNat + 2 ^ 64 * sint (w' :: ws)

/-- The number a little-endian unsigned word sequence denotes. -/
def unat : List Word → Nat
  | [] => 0
  | w :: ws => w.toNat + 2 ^ 64 * unat ws

/-- `ws` is a word sequence of minimal length among the nonempty sequences that
denote the same integer. -/
def Minimal (ws : List Word) : Prop :=
  ws ≠ [] ∧ ∀ ws', ws' ≠ [] → sint ws' = sint ws → ws.length ≤ ws'.length

/-- Unsigned counterpart of `Minimal`. -/
def UMinimal (ws : List Word) : Prop :=
  ws ≠ [] ∧ ∀ ws', ws' ≠ [] → unat ws' = unat ws → ws.length ≤ ws'.length

/-- The object with words `ws` holds the integer `x` in its unique shortest
form.  This is the specification of a `BigInt` value. -/
def Rep (ws : List Word) (x : Int) : Prop := Minimal ws ∧ sint ws = x

/-- The `BigUInt` with words `ws` holds the natural number `n` in shortest
form. -/
def URep (ws : List Word) (n : Nat) : Prop := UMinimal ws ∧ unat ws = n

end Walnut
