/- C44: the event points of the k-d split. -/
import Verif.Bsp.EventsFinal
import Verif.Bsp.SortHeap

namespace Walnut.Props
open Walnut.Geom Walnut.Bsp

/-- **C44.**  For every list of polygons, every dimension, every contents of the array before the call and every implementation
of the heap functions that keeps the contract of the C++ standard, `MakeEventPoints` runs without a failed assertion or an access
outside of the array, and its result is an array of the event points: every polygon has exactly one start and one end, the start
refers to the end and the end to the polygon, the start comes first, the array is sorted by location, at one location the starts
of polygons that are not flat come after all ends, a flat polygon's end directly follows its start, and `new_location` is set
exactly where the location changes. -/
theorem C44 {o : HeapOps} (ho : HeapOk o) {dim : Fin 3} {polys : List EPoly} (hx : Extents dim polys) {mem : List EP}
    (hm : mem.length = 2 * polys.length) :
    ∃ ev s t loc, makeEvents o dim polys mem = some ev ∧ EventsOk dim polys ev s t loc :=
  makeEvents_spec ho hx hm

/-- Four polygons in the x dimension: [0, 2], [2, 3], [2, 2] and [-1, 2] (the last with denominators -2 and 1). -/
def evPolys : List EPoly :=
  [⟨0, ⟨⟨0, 0, 0⟩, 1⟩, ⟨⟨2, 0, 0⟩, 1⟩⟩, ⟨1, ⟨⟨4, 0, 0⟩, 2⟩, ⟨⟨3, 0, 0⟩, 1⟩⟩, ⟨0, ⟨⟨2, 1, 0⟩, 1⟩, ⟨⟨2, 5, 0⟩, 1⟩⟩,
    ⟨1, ⟨⟨2, 0, 0⟩, -2⟩, ⟨⟨2, 7, 0⟩, 1⟩⟩]

/-- Uninitialised memory. -/
def evMem : List EP := List.replicate 8 ⟨false, true, 77⟩

theorem evPolys_extents : Extents 0 evPolys := by
  intro p hp
  simp only [evPolys, List.mem_cons, List.not_mem_nil, or_false] at hp
  rcases hp with rfl | rfl | rfl | rfl <;> refine ⟨by decide, by decide, ?_⟩ <;> norm_num [HP3.pt, V3.comp]

/-- The hypotheses of `C44` hold for heap functions that sort and for the four polygons. -/
example : HeapOk sortHeap ∧ Extents 0 evPolys ∧ evMem.length = 2 * evPolys.length :=
  ⟨sortHeap_ok, evPolys_extents, rfl⟩

/-- What the function then computes. -/
example : makeEvents sortHeap 0 evPolys evMem = some
    [⟨true, true, 2⟩, ⟨true, true, 5⟩, ⟨true, false, 3⟩, ⟨false, true, 4⟩, ⟨false, false, 2⟩, ⟨false, false, 0⟩,
      ⟨false, true, 7⟩, ⟨true, false, 1⟩] := by decide +kernel

end Walnut.Props
