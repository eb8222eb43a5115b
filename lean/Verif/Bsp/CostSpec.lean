/-
Specification of the split that `GetLowestCost` looks for.
-/
import Verif.Bsp.EventsSpec
import Mathlib.Data.Finset.Card

namespace Walnut.Bsp
open Walnut.Geom

/-- The estimate of `m * log2 n` that `C42` gives for `MLogNEstimator`. -/
def estCost (m n : Nat) : Nat := m * n / 2 ^ Nat.log2 n + m * Nat.log2 n - m

/-- The number of polygons `i` with the property. -/
noncomputable def cnt (n : Nat) (P : Nat → Prop) : Nat := by
  classical exact ((Finset.range n).filter P).card

/-- Polygon `i` does not belong to the excluded mesh. -/
def Other (excl : Option Nat) (polys : List EPoly) (i : Nat) : Prop := ∃ q, polys[i]? = some q ∧ some q.id ≠ excl

/-- A split is tried after event `k` if it is an end and a start or nothing follows. -/
def Candidate (ev : List EP) (k : Nat) : Prop :=
  ∃ e, ev[k]? = some e ∧ e.start = false ∧ ∀ e', ev[k + 1]? = some e' → e'.start = true

/-- The cost of the split after event `k`: the polygons that start at or before it, and those that end after it. -/
noncomputable def negCost (excl : Option Nat) (polys : List EPoly) (s : Nat → Nat) (k : Nat) : Nat :=
  estCost (cnt polys.length fun i => s i ≤ k) (cnt polys.length (fun i => s i ≤ k ∧ Other excl polys i) + 1)

noncomputable def posCost (excl : Option Nat) (polys : List EPoly) (t : Nat → Nat) (k : Nat) : Nat :=
  estCost (cnt polys.length fun i => k < t i) (cnt polys.length (fun i => k < t i ∧ Other excl polys i) + 1)

/-- `r` describes the split of the least cost, and the first of those. -/
structure LowestOk (excl : Option Nat) (polys : List EPoly) (ev : List EP) (s t : Nat → Nat) (r : EPart) : Prop where
  candidate : Candidate ev r.split.toNat
  neg : r.neg = cnt polys.length fun i => s i ≤ r.split.toNat
  pos : r.pos = cnt polys.length fun i => r.split.toNat < t i
  border : r.border = 0
  negCost : r.negCost.toNat = negCost excl polys s r.split.toNat
  posCost : r.posCost.toNat = posCost excl polys t r.split.toNat
  cost : r.cost.toNat = r.negCost.toNat + r.posCost.toNat
  least : ∀ k, Candidate ev k → r.cost.toNat ≤ Bsp.negCost excl polys s k + Bsp.posCost excl polys t k
  first : ∀ k < r.split.toNat, Candidate ev k → r.cost.toNat < Bsp.negCost excl polys s k + Bsp.posCost excl polys t k

/-- `r` has the numbers of polygons for a split at `L` and the range of the events there. -/
structure DiscountOk (dim : Fin 3) (polys : List EPoly) (loc : Nat → ℚ) (L : ℚ) (r : EPart) : Prop where
  neg : r.neg = polys.countP fun p => decide (p.lo.pt dim < L)
  pos : r.pos = polys.countP fun p => decide (L < p.hi.pt dim)
  border : r.border = polys.countP fun p => decide (p.lo.pt dim = L ∧ p.hi.pt dim = L)
  range : ∀ j < 2 * polys.length, (r.locBegin ≤ j ∧ j < r.locEnd ↔ loc j = L)
  bounds : r.locBegin < r.locEnd ∧ r.locEnd ≤ 2 * polys.length

end Walnut.Bsp
