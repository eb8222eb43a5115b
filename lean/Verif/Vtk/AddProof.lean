import Verif.Vtk.MeshProof
import Verif.Props.ReuseIds
import Verif.Mono.FactoryRun

namespace Walnut.Vtk
open Walnut.Geom Walnut.Poly Walnut.Bsp Walnut.Util Walnut.Props

theorem addContents_leaf {aabb : Bool} {id : Nat} : ∀ (l : List (Polygon Unit)) {d : NodeData} {t : Node} {S : List Source},
    Reach aabb (.leaf d) S → (∀ P ∈ l, IsConvexPolygon P) → (Node.leaf d).addContents aabb id l = some t →
    ∃ d', t = .leaf d' ∧ Reach aabb (.leaf d') (S ++ l.map fun P => ⟨id, P⟩)
  | [], d, t, S, h, _, ht => by
    have : (Node.leaf d).pushToLeaves [] = some t := ht
    have e : t = .leaf d := by
      unfold Node.pushToLeaves at this
      simpa [Node.pushDown, Node.data] using this.symm
    subst e
    exact ⟨d, rfl, by simpa using h⟩
  | P :: l, d, t, S, h, hl, ht => by
    unfold Node.addContents at ht
    split at ht
    · cases ht
    · rename_i t1 e
      obtain ⟨d1, hd1⟩ : ∃ d1, t1 = .leaf d1 := by
        unfold Node.addRoot at e
        obtain ⟨d1, -, rfl⟩ := Option.map_eq_some_iff.1 e
        exact ⟨d1, rfl⟩
      subst hd1
      have h1 := h.add (hl P (by simp)) e
      obtain ⟨d', e', h'⟩ := addContents_leaf l h1 (fun P hP => hl P (by simp [hP])) ht
      exact ⟨d', e', by simpa using h'⟩

theorem meshOf_append (S : List Source) (M : List (Polygon Unit)) (i id : Nat) :
    meshOf (S ++ M.map fun P => ⟨i, P⟩) id = meshOf S id ++ if i = id then M else [] := by
  unfold meshOf
  rw [List.filter_append, List.map_append]
  congr 1
  by_cases h : i = id
  · rw [if_pos h, List.filter_eq_self.2]
    · rw [List.map_map]; exact List.map_id M
    · intro s hs
      obtain ⟨P, -, rfl⟩ := List.mem_map.1 hs
      simp [h]
  · rw [if_neg h, List.filter_eq_nil_iff.2]
    · rfl
    · intro s hs
      obtain ⟨P, -, rfl⟩ := List.mem_map.1 hs
      simp [h]

theorem meshOf_above {S : List Source} {i : Nat} (h : ∀ s ∈ S, s.id < i) {id : Nat} (hi : i ≤ id) : meshOf S id = [] := by
  unfold meshOf
  rw [List.filter_eq_nil_iff.2]
  · rfl
  · intro s hs
    have := h s hs
    simp; omega

/-- The tree after adding the inputs. -/
theorem inputs_spec {aabb : Bool} {minExponent : Int} {op : Operation} {inputs : List PolyData} {Ts : List (List Cell)} (hT : List.Forall₂ (CellData minExponent) inputs Ts) :
    ∀ {i : Nat} {d : NodeData} {t : Node} {S : List Source}, AddInputs aabb minExponent op i inputs (.leaf d) t → Reach aabb (.leaf d) S → (∀ s ∈ S, s.id < i) →
    ∃ d' S', t = .leaf d' ∧ Reach aabb (.leaf d') S' ∧ (∀ s ∈ S', s.id < i + inputs.length) ∧ (∀ id < i, meshOf S' id = meshOf S id) ∧
      ∀ k T, Ts[k]? = some T → MeshOf (T.map (oriented (flipInput op (i + k)))) (meshOf S' (i + k)) := by
  induction hT with
  | nil =>
    intro i d t S h hR hS
    cases h
    exact ⟨d, S, rfl, hR, by simpa using hS, fun _ _ => rfl, by simp⟩
  | @cons input T inputs Ts h1 hr ih =>
    intro i d t S h hR hS
    cases h with
    | cons hm ha hrest =>
      rename_i mesh t1
      obtain ⟨mesh', hu, hmesh⟩ := import_mesh h1 (flipInput op i)
      obtain rfl := (hu _).1 hm
      obtain ⟨d1, rfl, hR1⟩ := addContents_leaf mesh hR hmesh.convex ha
      have hS1 : ∀ s ∈ S ++ mesh.map (fun P => (⟨i, P⟩ : Source)), s.id < i + 1 := by
        intro s hs
        rcases List.mem_append.1 hs with hs | hs
        · have := hS s hs; omega
        · obtain ⟨P, -, rfl⟩ := List.mem_map.1 hs
          simp
      obtain ⟨d', S', e, hR', hS', hlow, hmeshes⟩ := ih hrest hR1 hS1
      refine ⟨d', S', e, hR', fun s hs => ?_, fun id hid => ?_, fun k T' hk => ?_⟩
      · have := hS' s hs
        rw [List.length_cons]; omega
      · rw [hlow id (by omega), meshOf_append, if_neg (by omega), List.append_nil]
      · cases k with
        | zero =>
          simp at hk
          subst hk
          rw [Nat.add_zero, hlow i (by omega), meshOf_append, if_pos rfl, meshOf_above hS le_rfl, List.nil_append]
          exact hmesh
        | succ k =>
          have := hmeshes k T' (by simpa using hk)
          rwa [show i + 1 + k = i + (k + 1) by omega] at this

/-- The number of known ids. -/
theorem addContents_info {aabb : Bool} {id : Nat} : ∀ (l : List (Polygon Unit)) {d : NodeData} {t : Node}, (Node.leaf d).addContents aabb id l = some t →
    ∃ d', t = .leaf d' ∧ d'.info.length ≤ max d.info.length (id + 1) ∧ (l = [] → d' = d)
  | [], d, t, ht => by
    have : (Node.leaf d).pushToLeaves [] = some t := ht
    have e : t = .leaf d := by
      unfold Node.pushToLeaves at this
      simpa [Node.pushDown, Node.data] using this.symm
    exact ⟨d, e, by omega, fun _ => rfl⟩
  | P :: l, d, t, ht => by
    unfold Node.addContents at ht
    split at ht
    · cases ht
    · rename_i t1 e
      obtain ⟨d1, hd1, rfl⟩ : ∃ d1, d.addRoot aabb id P = some d1 ∧ t1 = .leaf d1 := by
        unfold Node.addRoot at e
        obtain ⟨d1, h1, rfl⟩ := Option.map_eq_some_iff.1 e
        exact ⟨d1, h1, rfl⟩
      have hl : d1.info.length ≤ max d.info.length (id + 1) := by
        simp only [NodeData.addRoot] at hd1
        split at hd1
        · cases hd1
        · obtain rfl := Option.some.inj hd1
          simp
          omega
      obtain ⟨d', e', h', -⟩ := addContents_info l ht
      exact ⟨d', e', by omega, by simp⟩

theorem addContents_defined {id : Nat} : ∀ (l : List (Polygon Unit)) (d : NodeData), ∃ t, (Node.leaf d).addContents false id l = some t
  | [], d => ⟨.leaf d, by
      show (Node.leaf d).pushToLeaves [] = _
      unfold Node.pushToLeaves
      simp [Node.pushDown, Node.data]⟩
  | P :: l, d => by
    obtain ⟨d1, h1⟩ : ∃ d1, d.addRoot false id P = some d1 := ⟨_, rfl⟩
    obtain ⟨t, ht⟩ := addContents_defined l d1
    refine ⟨t, ?_⟩
    unfold Node.addContents
    have : (Node.leaf d).addRoot false id P = some (.leaf d1) := by
      unfold Node.addRoot
      rw [show (Node.leaf d).data = d from rfl, h1]
      rfl
    rw [this]
    exact ht

/-! ### Evaluation of concrete imports -/

/-- `Imports` with at most `n` rounds of each loop of the factory. -/
def runImport (n : Nat) (input : PolyData) (minExponent : Int) (flip : Bool) : Option (List (Polygon Unit)) := do
  let pts ← convertPoints minExponent input
  let cells ← input.polys.mapM (cellVertices pts flip)
  let polys ← Mono.runEach n cells
  let strips ← importStrips minExponent flip input input.strips
  return (polys ++ strips).map ofOut

theorem runImport_sound {n : Nat} {input : PolyData} {minExponent : Int} {flip : Bool} {out : List (Polygon Unit)}
    (h : runImport n input minExponent flip = some out) : Imports input minExponent flip out := by
  simp only [runImport, Option.bind_eq_bind, Option.bind_eq_some_iff] at h
  obtain ⟨pts, h1, cells, h2, polys, h3, strips, h4, h5⟩ := h
  cases h5
  refine ⟨pts, polys, strips, h1, ?_, h4, rfl⟩
  generalize input.polys = cs at h2
  clear h1 h4
  induction cs generalizing cells polys with
  | nil => cases h2; cases h3; exact .nil
  | cons c cs ih =>
    rw [List.mapM_cons] at h2
    simp only [Option.bind_eq_bind, Option.bind_eq_some_iff] at h2
    obtain ⟨vs, hv, rest, hrest, h2⟩ := h2
    cases h2
    unfold Mono.runEach at h3
    simp only [Option.bind_eq_bind, Option.bind_eq_some_iff] at h3
    obtain ⟨a, ha, b, hb, h3⟩ := h3
    cases h3
    exact .cons hv (Mono.runOuter_sound _ _ _ _ ha) (ih rest b hb hrest)

/-- The inputs are added to the tree one after the other. -/
def runInputs (aabb : Bool) (n : Nat) (minExponent : Int) (op : Operation) : Nat → List PolyData → Node → Option Node
  | _, [], t => some t
  | i, input :: inputs, t => do
    let mesh ← runImport n input minExponent (flipInput op i)
    let t' ← t.addContents aabb i mesh
    runInputs aabb n minExponent op (i + 1) inputs t'

theorem runInputs_sound {aabb : Bool} {n : Nat} {minExponent : Int} {op : Operation} : ∀ (inputs : List PolyData) {i : Nat} {t t' : Node},
    runInputs aabb n minExponent op i inputs t = some t' → AddInputs aabb minExponent op i inputs t t'
  | [], i, t, t', h => by cases h; exact .nil
  | input :: inputs, i, t, t', h => by
    simp only [runInputs, Option.bind_eq_bind, Option.bind_eq_some_iff] at h
    obtain ⟨mesh, h1, t1, h2, h3⟩ := h
    exact .cons (runImport_sound h1) h2 (runInputs_sound inputs h3)

end Walnut.Vtk
