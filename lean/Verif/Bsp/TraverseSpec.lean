/-
What a traversal of a binary space partition has to do.  Independent of the algorithms.
-/
import Verif.Bsp.PartitionSpec
import Verif.Bsp.Traverse

namespace Walnut.Bsp
open Walnut.Geom Walnut.Poly Walnut.Props

/-- Properly nested calls: every `EnterInteriorNode` has its `LeaveInteriorNode`. -/
inductive Balanced : List Visit → Prop
  | nil : Balanced []
  | leaf {l : List Visit} : Balanced l → Balanced (.leaf :: l)
  | accept {p : BPoly} {l : List Visit} : Balanced l → Balanced (.accept p :: l)
  | node {b : Bool} {r : PlaneRef} {l m : List Visit} : Balanced l → Balanced m → Balanced (.enter b r :: (l ++ .leave b r :: m))

/-- The planes that the partitioner splits along. -/
def cuts : List Visit → List HS3
  | [] => []
  | .enter true r :: l => r.plane :: cuts l
  | _ :: l => cuts l

/-- The nodes of the tree that are entered, in order. -/
def nodesIn : List Visit → List PlaneRef
  | [] => []
  | .enter false r :: l => r :: nodesIn l
  | _ :: l => nodesIn l

/-- The interior nodes of the tree that have to be visited, in order: those where, and above
which, the filter says that its value can change. -/
def Node.unpruned (v : IsInside) : Node → List Bool → List PlaneRef
  | .leaf _, _ => []
  | .inner d g n p, path =>
    if (v d.info).2 then ⟨path, g⟩ :: (n.unpruned v (path ++ [false]) ++ p.unpruned v (path ++ [true])) else []

/-- The leaves that have to be visited. -/
def Node.unprunedLeaves (v : IsInside) : Node → List NodeData
  | .leaf d => if (v d.info).2 then [d] else []
  | .inner d _ n p => if (v d.info).2 then n.unprunedLeaves v ++ p.unprunedLeaves v else []

/-- All leaves. -/
def Node.leaves : Node → List NodeData
  | .leaf d => [d]
  | .inner _ _ n p => n.leaves ++ p.leaves

/-- All leaves with their paths. -/
def Node.leavesAt : Node → List Bool → List (List Bool × NodeData)
  | .leaf d, path => [(path, d)]
  | .inner _ _ n p, path => n.leavesAt (path ++ [false]) ++ p.leavesAt (path ++ [true])

/-- Border polygons lying in the split plane of the same node. -/
def SameKey (l : List BPoly) : Prop := ∀ x ∈ l, ∀ y ∈ l, x.onNode.split.map PlaneRef.path = y.onNode.split.map PlaneRef.path

/-- What C++ guarantees about the iteration over a multimap: every entry once, those with equal
keys adjacent. -/
structure Grouping (group : Group) : Prop where
  perm : ∀ path l, (group path l).flatten.Perm l
  key : ∀ path l, ∀ f ∈ group path l, f ≠ [] ∧ SameKey f
  apart : ∀ path l, (group path l).Pairwise fun f g => ∀ x ∈ f, ∀ y ∈ g, x.onNode.split.map PlaneRef.path ≠ y.onNode.split.map PlaneRef.path

/-- The facets of a leaf to be emitted at a point: for every face, those where the filter's
value changes when the facets covering the point are crossed from the cell outwards. -/
noncomputable def leafOutput (v : IsInside) (group : Group) (q : Q3) (L : List Bool × NodeData) : List Facet :=
  (group L.1 L.2.border).flatMap fun l => changing (valueAt v L.2.info.length) (fun _ => -1) (windingOf L.2.info) (stackAt q l)

/-- A sequence of splits of leaves, at paths from the node at `done`. -/
def splitSeq (done : List Bool) : List (List Bool × HS3) → Node → Option Node
  | [], t => some t
  | s :: l, t => (t.splitAt done s.1 s.2).bind (splitSeq done l)

end Walnut.Bsp
