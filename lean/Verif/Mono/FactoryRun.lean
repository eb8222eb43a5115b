/-
A way to evaluate the polygon factory on concrete vertices: the loops with a limit for the number of
rounds.  It is used for witnesses only; `runBuild_sound` relates it to the model.
-/
import Verif.Mono.Extrude

namespace Walnut.Mono
open Walnut.Geom

/-- The inner loop with at most `n` rounds (convex_polygon_factory.h 48-62). -/
def runLoop (plane : HS3) (drop : Fin 3) (vs : List HP3) : Nat → Nat → Nat → Option (List OutPoly)
  | 0, _, _ => none
  | n + 1, i, j => if i = j then some [] else do
    let r ← factoryStep plane drop vs i j
    let q ← runLoop plane drop vs n r.2.1 r.2.2
    return r.1 ++ q

/-- The outer loop with at most `n` rounds (convex_polygon_factory.h 22-31). -/
def runOuter (vs : List HP3) : Nat → Nat → Nat → Option (List OutPoly)
  | 0, _, _ => none
  | n + 1, i, j => if i = j then some [] else do
    let r ← planarRange vs i j
    let a ← match r.plane.n.firstNonzeroDimension with
      | none => some []
      | some d => runLoop r.plane d r.verts (n + 1) 0 r.verts.length
    let b ← runOuter vs n r.first r.last
    return a ++ b

/-- `Build` for each of the lists, with at most `n` rounds of each loop.  The successive calls of convex_polygon_factory.h 23-31. -/
def runEach (n : Nat) : List (List HP3) → Option (List OutPoly)
  | [] => some []
  | v :: r => do
    let a ← runOuter v n 0 v.length
    let b ← runEach n r
    return a ++ b

/-- `Extrude` (extrude.cpp 10-48), with at most `n` rounds of each loop of the factory. -/
def runExtrude (n : Nat) (cap : List HP3) (dir : V3) (den : Int) : Option (List OutPoly) := do
  let sides ← (List.range cap.length).mapM (sideVertices cap dir den)
  runEach n ([cap] ++ sides ++ [topCap cap dir den])

theorem runLoop_sound {plane : HS3} {drop : Fin 3} {vs : List HP3} : ∀ (n i j : Nat) (out : List OutPoly),
    runLoop plane drop vs n i j = some out → FactoryLoop plane drop vs i j out := by
  intro n
  induction n with
  | zero => intro i j out h; simp [runLoop] at h
  | succ n ih =>
    intro i j out h
    simp only [runLoop] at h
    by_cases hij : i = j
    · subst hij
      simp at h; subst h; exact .done i
    · rw [if_neg hij] at h
      simp only [Option.bind_eq_bind, Option.bind_eq_some_iff] at h
      obtain ⟨⟨o, i', j'⟩, hs, q, hq, h⟩ := h
      simp at h; subst h
      exact .step hij hs (ih _ _ _ hq)

theorem runOuter_sound {vs : List HP3} : ∀ (n i j : Nat) (out : List OutPoly),
    runOuter vs n i j = some out → OuterLoop vs i j out := by
  intro n
  induction n with
  | zero => intro i j out h; simp [runOuter] at h
  | succ n ih =>
    intro i j out h
    simp only [runOuter] at h
    by_cases hij : i = j
    · subst hij
      simp at h; subst h; exact .done i
    · rw [if_neg hij] at h
      simp only [Option.bind_eq_bind, Option.bind_eq_some_iff] at h
      obtain ⟨r, hs, h⟩ := h
      cases hd : r.plane.n.firstNonzeroDimension with
      | none =>
        simp only [hd, Option.bind_some, Option.bind_eq_some_iff] at h
        obtain ⟨q, hq, h⟩ := h
        simp at h; subst h
        exact .step (out := []) hij hs (by unfold PlaneBuild; rw [hd]) (ih _ _ _ hq)
      | some d =>
        simp only [hd, Option.bind_eq_some_iff] at h
        obtain ⟨a, ha, q, hq, h⟩ := h
        simp at h; subst h
        exact .step hij hs (by unfold PlaneBuild; rw [hd]; exact runLoop_sound _ _ _ _ ha) (ih _ _ _ hq)

theorem runEach_sound {n : Nat} : ∀ (l : List (List HP3)) (out : List OutPoly), runEach n l = some out → BuildEach l out := by
  intro l
  induction l with
  | nil => intro out h; simp [runEach] at h; subst h; exact .nil
  | cons v r ih =>
    intro out h
    simp only [runEach, Option.bind_eq_bind, Option.bind_eq_some_iff] at h
    obtain ⟨a, ha, b, hb, h⟩ := h
    simp at h; subst h
    exact .cons (runOuter_sound _ _ _ _ ha) (ih _ hb)

theorem runExtrude_sound {n : Nat} {cap : List HP3} {dir : V3} {den : Int} {out : List OutPoly}
    (h : runExtrude n cap dir den = some out) : ExtrudeReturns cap dir den out := by
  simp only [runExtrude, Option.bind_eq_bind, Option.bind_eq_some_iff] at h
  obtain ⟨s, hs, h⟩ := h
  exact ⟨s, hs, runEach_sound _ _ h⟩

end Walnut.Mono
