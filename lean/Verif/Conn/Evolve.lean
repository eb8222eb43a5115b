/-
Connecting half-edges changes the polygons only by splitting edges at vertices, and by changing partners.
-/
import Verif.Conn.Plane

namespace Walnut.Conn
open Walnut.Geom

/-- A property of nets that connecting preserves. -/
structure Stable (P : Net → Prop) : Prop where
  partner : ∀ N p, P N → P { N with partner := p }
  split : ∀ N e mid N', P N → mid.w ≠ 0 → N.splitEdge e mid = some N' → P N'
  fin : ∀ N e, P N → (N.vertex e).w ≠ 0

namespace Stable
variable {P : Net → Prop} (hP : Stable P)
include hP

theorem next {N : Net} (h : P N) {e : Nat} {v : HP3} (hv : N.nextVertex e = some v) : v.w ≠ 0 := by
  unfold Net.nextVertex at hv
  obtain ⟨f, _, rfl⟩ := Option.map_eq_some_iff.1 hv
  exact hP.fin N f h

theorem beginLoc {N : Net} (h : P N) {k : Fin 3} {e : Nat} {v : HP3} (hv : N.beginLoc k e = some v) : v.w ≠ 0 := by
  unfold Net.beginLoc at hv
  split at hv
  · rw [← Option.some.inj hv]; exact hP.fin N e h
  · exact hP.next h hv

theorem endLoc {N : Net} (h : P N) {k : Fin 3} {e : Nat} {v : HP3} (hv : N.endLoc k e = some v) : v.w ≠ 0 := by
  unfold Net.endLoc at hv
  split at hv
  · exact hP.next h hv
  · rw [← Option.some.inj hv]; exact hP.fin N e h

theorem maybeSplit {s s' : St} {h : Nat} {loc : HP3} (hs : P s.net) (hw : loc.w ≠ 0) (hr : maybeSplit s h loc = some s') : P s'.net := by
  unfold Conn.maybeSplit at hr
  split at hr
  · rw [← Option.some.inj hr]; exact hs
  · split at hr
    · cases hr
    · rename_i N hN
      have := hP.split _ _ _ _ hs hw hN
      dsimp only at hr
      split at hr
      · rw [← Option.some.inj hr]; exact this
      · rw [← Option.some.inj hr]; exact hP.partner _ _ this

omit hP in
theorem release_net {s s' : St} {h p : Nat} (hr : release s h p = some s') : s'.net = s.net := by
  unfold release at hr
  split at hr
  · rw [← Option.some.inj hr]
  · split at hr
    · cases hr
    · rw [← Option.some.inj hr]

theorem repartner {s s' : St} {h : Nat} {loc : HP3} (hs : P s.net) (hw : loc.w ≠ 0) (hr : repartner loc s h = some s') : P s'.net := by
  unfold Conn.repartner at hr
  split at hr
  · cases hr
  split at hr
  · rw [← Option.some.inj hr]; exact hs
  split at hr
  · cases hr
  rename_i s1 h1
  have e1 := release_net h1
  have hs1 : P s1.net := by rw [e1]; exact hs
  split at hr
  · split at hr
    · cases hr
    · rename_i s2 h2
      split at hr
      · rw [← Option.some.inj hr]
        exact hP.maybeSplit (s := { s1 with errors := s1.errors + 1 }) hs1 hw h2
      · cases hr
  · split at hr
    · cases hr
    rename_i s2 h2
    have e2 := release_net h2
    have hs2 : P s2.net := by rw [e2]; exact hs1
    split at hr
    · cases hr
    rename_i s3 h3
    have hs3 : P s3.net := by
      refine hP.maybeSplit ?_ hw h3
      exact hs2
    split at hr
    · cases hr
    rename_i s4 h4
    have hs4 := hP.maybeSplit hs3 hw h4
    split at hr
    · rw [← Option.some.inj hr]; exact hP.partner _ _ hs4
    · cases hr

theorem processNeed {loc : HP3} (hw : loc.w ≠ 0) : ∀ (n : Nat) {s s' : St}, P s.net → processNeed loc n s = some s' → P s'.net := by
  intro n
  induction n with
  | zero =>
    intro s s' hs hr
    rw [Conn.processNeed] at hr
    split at hr
    · rw [← Option.some.inj hr]; exact hs
    · cases hr
  | succ n ih =>
    intro s s' hs hr
    rw [Conn.processNeed] at hr
    split at hr
    · rw [← Option.some.inj hr]; exact hs
    · dsimp only at hr
      split at hr
      · cases hr
      · rename_i h1
        refine ih (hP.repartner ?_ hw h1) hr
        exact hs

omit hP in
theorem unmate_net {s s' : St} {h : Nat} (hr : unmate s h = some s') : s'.net = s.net := by
  unfold unmate at hr
  split at hr
  · rw [← Option.some.inj hr]
  · split at hr
    · rw [← Option.some.inj hr]
    · cases hr

omit hP in
theorem endLoop_net {o : HeapFns} {k : Fin 3} {loc : HP3} : ∀ (n : Nat) {s : St} {heap done : List Nat} {r : St × List Nat × List Nat},
    endLoop o k loc n s heap done = some r → r.1.net = s.net := by
  intro n
  induction n with
  | zero =>
    intro s heap done r hr
    cases heap with
    | nil => rw [endLoop] at hr; rw [← Option.some.inj hr]
    | cons => rw [endLoop] at hr; cases hr
  | succ n ih =>
    intro s heap done r hr
    cases heap with
    | nil => rw [endLoop] at hr; rw [← Option.some.inj hr]
    | cons h t =>
      rw [endLoop] at hr
      split at hr
      · cases hr
      split at hr
      · cases hr
      split at hr
      · split at hr
        · cases hr
        · rename_i s1 h1
          dsimp only at hr
          split at hr
          · cases hr
          · rw [ih hr, ← unmate_net h1]
      · rw [← Option.some.inj hr]

omit hP in
theorem processEnds_net {o : HeapFns} {k : Fin 3} {loc : HP3} {s s' : St} (hr : processEnds o k loc s = some s') : s'.net = s.net := by
  unfold processEnds at hr
  split at hr
  · cases hr
  · rename_i h1
    split at hr
    · rw [← Option.some.inj hr]; exact endLoop_net _ h1
    · cases hr

theorem beginLoop {k : Fin 3} {loc : HP3} : ∀ (l : List Nat) {s : St} {r : St × List Nat}, P s.net → beginLoop k loc l s = some r → P r.1.net := by
  intro l
  induction l with
  | nil => intro s r hs hr; rw [Conn.beginLoop] at hr; rw [← Option.some.inj hr]; exact hs
  | cons e l ih =>
    intro s r hs hr
    rw [Conn.beginLoop] at hr
    split at hr
    · cases hr
    split at hr
    · split at hr
      · cases hr
      · refine ih ?_ hr; exact hs
      · refine ih ?_ hr; exact hP.partner _ _ hs
    · rw [← Option.some.inj hr]; exact hs

omit hP in
theorem pushLoop_net {o : HeapFns} {k : Fin 3} : ∀ (t heap : List Nat) (s : St), (pushLoop o k heap t s).net = s.net := by
  intro t
  induction t with
  | nil => intro heap s; rw [pushLoop]
  | cons h t ih => intro heap s; rw [pushLoop, ih]

theorem roundAt {o : HeapFns} {k : Fin 3} {loc : HP3} (hw : loc.w ≠ 0) {s : St} {l : List Nat} {r : St × List Nat} (hs : P s.net)
    (hr : roundAt o k loc s l = some r) : P r.1.net := by
  unfold Conn.roundAt at hr
  split at hr
  · cases hr
  dsimp only at hr
  split at hr
  · cases hr
  rename_i h1
  split at hr
  · cases hr
  rename_i h2
  rw [← Option.some.inj hr]
  dsimp only
  rw [pushLoop_net]
  exact hP.processNeed hw _ (hP.beginLoop _ hs h1) h2

theorem nextLocation {o : HeapFns} {k : Fin 3} {s : St} {e : Nat} {r : HP3 × St} (hs : P s.net) (hr : nextLocation o k s e = some r) :
    P r.2.net ∧ r.1.w ≠ 0 := by
  unfold Conn.nextLocation at hr
  split at hr
  · cases hr
  rename_i b hb
  have w1 := hP.beginLoc hs hb
  split at hr
  · rw [← Option.some.inj hr]; exact ⟨hs, w1⟩
  split at hr
  · cases hr
  rename_i y hy
  have w2 := hP.endLoc hs hy
  split at hr
  · rw [← Option.some.inj hr]; exact ⟨hs, w1⟩
  · obtain ⟨s1, h1, rfl⟩ := Option.map_eq_some_iff.1 hr
    exact ⟨by rw [processEnds_net h1]; exact hs, w2⟩

theorem connectLoop {o : HeapFns} {k : Fin 3} : ∀ (n : Nat) {prev : Option HP3} {s s' : St} {l : List Nat}, P s.net →
    connectLoop o k n prev s l = some s' → P s'.net := by
  intro n
  induction n with
  | zero => intro prev s s' l hs hr; rw [Conn.connectLoop] at hr; cases hr
  | succ n ih =>
    intro prev s s' l hs hr
    cases l with
    | cons e l =>
      rw [Conn.connectLoop] at hr
      split at hr
      · cases hr
      rename_i h1
      obtain ⟨q1, q2⟩ := hP.nextLocation hs h1
      split at hr
      · cases hr
      split at hr
      · cases hr
      rename_i h2
      exact ih (hP.roundAt q2 q1 h2) hr
    | nil =>
      rw [Conn.connectLoop] at hr
      split at hr
      · split at hr
        · rw [← Option.some.inj hr]; exact hs
        · cases hr
      split at hr
      · cases hr
      rename_i loc hloc
      have w := hP.endLoc hs hloc
      split at hr
      · cases hr
      rename_i h1
      split at hr
      · cases hr
      rename_i h2
      exact ih (hP.processNeed w _ (by rw [processEnds_net h1]; exact hs) h2) hr

theorem connectLine {o : HeapFns} {k : Fin 3} {N : Net} {l : List Nat} {r : Net × Nat} (hN : P N) (hr : connectLine o k N l = some r) : P r.1 := by
  unfold Conn.connectLine at hr
  obtain ⟨s, h1, rfl⟩ := Option.map_eq_some_iff.1 hr
  exact hP.connectLoop _ hN h1

theorem connectLines {o : HeapFns} {drop : Fin 3} : ∀ (n : Nat) {N : Net} {l : List Nat} {r : Net × Nat}, P N → connectLines o drop n N l = some r → P r.1 := by
  intro n
  induction n with
  | zero =>
    intro N l r hN hr
    cases l with
    | nil => rw [Conn.connectLines] at hr; rw [← Option.some.inj hr]; exact hN
    | cons => rw [Conn.connectLines] at hr; cases hr
  | succ n ih =>
    intro N l r hN hr
    cases l with
    | nil => rw [Conn.connectLines] at hr; rw [← Option.some.inj hr]; exact hN
    | cons e l =>
      rw [Conn.connectLines] at hr
      split at hr
      · cases hr
      rename_i h1
      obtain ⟨r', h2, rfl⟩ := Option.map_eq_some_iff.1 hr
      have := hP.connectLine hN h1
      exact ih (r := r') this h2

theorem connectUnsorted {S : SortFn} {o : HeapFns} {drop : Fin 3} {N : Net} {l : List (Option Nat)} {r : Net × Nat} (hN : P N)
    (hr : connectUnsorted S o drop N l = some r) : P r.1 := by
  unfold Conn.connectUnsorted at hr
  split at hr
  · cases hr
  unfold connectSorted at hr
  split at hr
  · cases hr
  exact hP.connectLines _ hN hr

end Stable

end Walnut.Conn
