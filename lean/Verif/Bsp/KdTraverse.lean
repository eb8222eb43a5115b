/-
Model of `BSPTraverser::Run` (bsp_traverser.h) with its split strategy.

Bsp/Traverse.lean has the same recursion with an arbitrary choice of planes for ordinary splits; here the leaves are split
by `Strategy.split`.  `none` is a failed assertion, an access outside of an array, a null pointer or not enough fuel.
-/
import Verif.Bsp.KdStrategy

namespace Walnut.Bsp
open Walnut.Geom Walnut.Poly

/-- `RunLeaf` (bsp_traverser.h 182-206). -/
def kdRunLeaf (v : IsInside) (E : KdEnv) (group : Group) (pfuel kfuel : Nat) : Nat → Strategy → List Bool → NodeData → Option (Node × List Visit)
  | 0, _, _, _ => none
  | fuel + 1, Z, path, d =>
    if !(v d.info).2 then some (.leaf d, [])
    else if !d.contents.isEmpty then
      match Z.split E kfuel path d with
      | some (.inner d' g (.leaf n) (.leaf p), Zn, Zp) =>
        match kdRunLeaf v E group pfuel kfuel fuel Zn (path ++ [false]) n with
        | none => none
        | some a =>
          (kdRunLeaf v E group pfuel kfuel fuel Zp (path ++ [true]) p).map fun b =>
            (.inner d' g a.1 b.1, bracket ⟨path, g⟩ a.2 b.2)
      | _ => none
    else (visitLeaf v group pfuel path d).map fun tr => (.leaf d, tr)

/-- `Run(node, visitor, strategy)` (bsp_traverser.h 151-174) on a node whose vectors are `d`.  The recursive calls do not
pass the strategy on; they use the default bound 6 (bsp_traverser.h 146-149). -/
def kdRun (v : IsInside) (E : KdEnv) (group : Group) (pfuel kfuel fuel : Nat) : Strategy → Node → List Bool → NodeData → Option (Node × List Visit)
  | Z, .leaf _, path, d =>
    if !(v d.info).2 then some (.leaf d, []) else kdRunLeaf v E group pfuel kfuel fuel Z path d
  | _, .inner _ g n p, path, d =>
    if !(v d.info).2 then some (.inner d g n p, [])
    else
      match (if d.contents.isEmpty then some (n.data, p.data) else pushChildren ⟨path, g⟩ d (n.data, p.data)) with
      | none => none
      | some k =>
        match kdRun v E group pfuel kfuel fuel ⟨some 6, none⟩ n (path ++ [false]) k.1 with
        | none => none
        | some a =>
          (kdRun v E group pfuel kfuel fuel ⟨some 6, none⟩ p (path ++ [true]) k.2).map fun b =>
            (.inner (if d.contents.isEmpty then d else d.clear) g a.1 b.1, bracket ⟨path, g⟩ a.2 b.2)

/-- `Run(node, visitor, kd_strategy_poly_lower_bound)` (bsp_traverser.h 146-149) on the root of a tree; the bound is absent
if it is -1. -/
def kdTraverse (v : IsInside) (E : KdEnv) (group : Group) (pfuel kfuel fuel : Nat) (bound : Option Nat) (t : Node) : Option (Node × List Visit) :=
  kdRun v E group pfuel kfuel fuel ⟨bound, none⟩ t [] t.data

end Walnut.Bsp
