/-
Model of `BSPTraverser::SplitStrategy` (bsp_traverser.h): how a traversal splits its leaves.

`none` is a failed assertion, an access outside of an array or not enough fuel.
-/
import Verif.Bsp.KdSecondary
import Verif.Bsp.Traverse

namespace Walnut.Bsp
open Walnut.Geom Walnut.Poly

/-- `SplitStrategy` (bsp_traverser.h 133-137): the bound is absent if it is -1, the event points are absent before
`InitializeEventPoints`. -/
structure Strategy where
  bound : Option Nat
  events : Option (Fin 3 → List EP)

/-- The functions of the standard library, the plane that `BSPNode::Split()` picks and the contents of new arrays.  What
bsp_traverser.h 36 and 124-131 rely on. -/
structure KdEnv where
  heap : HeapOps
  merge : MergeOps
  pick : List Bool → NodeData → HS3
  junk : EP

/-- `InitializeEventPoints` (bsp_traverser.h 124-131). -/
def initEvents (E : KdEnv) (d : NodeData) : Option (Fin 3 → List EP) :=
  three fun i => (extents i d.contents).bind fun xs => makeEvents E.heap i xs (List.replicate (d.contents.length * 2) E.junk)

/-- The partition with the lowest cost and its dimension (bsp_traverser.h 46-60). -/
def bestPartition (d : NodeData) (ev : Fin 3 → List EP) : Option (EPart × Fin 3) :=
  let x := costExclude (d.info.map fun i => i.interior)
  match three fun i => (extents i d.contents).bind fun xs => lowestCost x.1 x.2 xs (ev i) with
  | none => none
  | some c =>
    let b : EPart × Fin 3 := (c 0, 0)
    let b := if (c 1).cost.toNat < b.1.cost.toNat then (c 1, 1) else b
    some (if (c 2).cost.toNat < b.1.cost.toNat then (c 2, 2) else b)

/-- `cost_cutoff` (bsp_traverser.h 61-76); the compiler is taken to evaluate the calls of `Estimate` in the order of the text. -/
def costCutoff (d : NodeData) : Option Nat :=
  let n := d.contents.length
  let x := costExclude (d.info.map fun i => i.interior)
  let w := BitVec.ofNat 64
  (estimate 0 (w n) (w (1 + n - x.2))).bind fun a =>
    (estimate a.2 (w (n - n / 16)) (w (1 + (n - n / 16)))).bind fun b =>
      (estimate b.2 (w (n / 16)) (w (1 + n / 16))).map fun c => min a.1.toNat (b.1 + c.1).toNat

/-- How a leaf is split: with the plane of `BSPNode::Split()`, or along a dimension with the event points (bsp_traverser.h
35-40 and 79-102). -/
inductive Plan where
  | plain
  | kd (bound : Nat) (dim : Fin 3) (part : EPart) (ev : Fin 3 → List EP)

/-- The first part of `Split(node)` (bsp_traverser.h 35-86) chooses how to split. -/
def Strategy.plan (E : KdEnv) (S : Strategy) (d : NodeData) : Option Plan :=
  match S.bound with
  | none => some .plain
  | some bound =>
    if d.contents.length ≤ bound then some .plain
    else
      match (match S.events with
        | none => initEvents E d
        | some ev => if (ev 0).isEmpty then initEvents E d else some ev) with
      | none => none
      | some ev =>
        match bestPartition d ev, costCutoff d with
        | some b, some cutoff =>
          match discountBorder (ev b.2) d.contents.length b.1 with
          | none => none
          | some part => some (if cutoff ≤ part.cost.toNat ∧ part.border = 0 then .plain else .kd bound b.2 part ev)
        | _, _ => none

/-- The division of the event points of dimension `i` (bsp_traverser.h 87-111); `n` and `p` are the children's contents and
`st` is the result of dividing those of dimension `dim`. -/
def divideEvents (E : KdEnv) (fuel : Nat) (dim : Fin 3) (part : EPart) (ev : Fin 3 → List EP) (count : Nat) (n p : List BPoly)
    (st : Prim) (i : Fin 3) : Option (List EP × List EP) :=
  if i = dim then some (st.negEv, st.ev.take (part.pos * 2))
  else
    match extents i n, extents i p with
    | some ns, some ps =>
      applySecondary E.merge i part count ns ps st.map (ev i) (List.replicate (part.neg * 2) E.junk)
        (List.replicate (part.pos * 2) E.junk) fuel
    | _, _ => none

/-- `Split(node)` (bsp_traverser.h 29-113) on the leaf at `path`; returns the node and the children's strategies. -/
def Strategy.split (E : KdEnv) (fuel : Nat) (S : Strategy) (path : List Bool) (d : NodeData) : Option (Node × Strategy × Strategy) :=
  match S.plan E d with
  | none => none
  | some .plain => (Bsp.split path d (E.pick path d)).map fun t => (t, ⟨none, none⟩, ⟨none, none⟩)
  | some (.kd bound dim part ev) =>
    match kdSplit dim part path d (ev dim) (List.replicate (part.neg * 2) E.junk) (List.replicate d.contents.length 0) with
    | some (.inner d' g (.leaf n) (.leaf p), st) =>
      match three (divideEvents E fuel dim part ev d.contents.length n.contents p.contents st) with
      | none => none
      | some r =>
        some (.inner d' g (.leaf n) (.leaf p), ⟨some bound, some fun i => (r i).1⟩, ⟨some bound, some fun i => (r i).2⟩)
    | _ => none

end Walnut.Bsp
