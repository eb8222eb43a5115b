/-
Connecting the half-edges of a round keeps the invariant of the rounds.
-/
import Verif.Conn.MeshShape
import Verif.Props.ConnectPlane

namespace Walnut.Conn
open Walnut.Geom Walnut.Poly Walnut.Bsp Walnut.Props

/-- What is represented is shaped like the facets. -/
theorem Rep.shaped {M : Mesh} {N : Net} (hL : Poly.Linked M.world) (hR : Rep M N) (hf : ∀ x, (N.vertex x).w ≠ 0) : Shaped M.world.polys M.size N := by
  refine ⟨⟨hR.ok.mem, hR.ok.own, hR.ok.nodup, hR.ok.fin, (fun _ _ h => by cases h), (fun _ _ h => by cases h)⟩, hf, fun p hp => ?_⟩
  have e := hR.polys p hp
  rcases hL.convex p with h | h
  · left
    rw [h] at e
    exact ⟨List.map_eq_nil_iff.1 e.symm, h⟩
  · right
    have : ({ M.world.polys p with edges := (N.cycle p).map (edgeAt N) } : Polygon Nat) = M.world.polys p := by rw [← e]
    rw [this]
    exact ⟨h, rfl⟩

theorem Rep.open {M : Mesh} {N : Net} (hR : Rep M N) {x : Nat} {A B : Q3} :
    Open M.world x A B ↔ ∃ p < M.size, x ∈ N.cycle p ∧ (N.vertex x).pt = A ∧ (N.target x).pt = B ∧ N.partner x = none := by
  constructor
  · rintro ⟨⟨p, hx⟩, ho⟩
    obtain ⟨h1, h2, h3, h4⟩ := hR.half.1 hx
    exact ⟨p, h1, h2, h3, h4, by rw [← hR.partner p h1 x h2]; exact ho⟩
  · rintro ⟨p, h1, h2, h3, h4, h5⟩
    exact ⟨⟨p, hR.half.2 ⟨h1, h2, h3, h4⟩⟩, by rw [hR.partner p h1 x h2]; exact h5⟩

section
variable {X : Plan} {W0 : World} {m : Nat} {M : Mesh} {G org lab : Nat → Nat} {N : Net}

/-- The half-edge of an edge in the net. -/
theorem open_line (hI : X.Inv W0 m M.world G org lab) (hR : Rep M N) {x : Nat} {A B : Q3} (h : Open M.world x A B) :
    x < N.count ∧ N.line x = X.line x ∧ N.poly x = G (X.fac x) ∧ N.poly x < M.size := by
  obtain ⟨p, h1, h2, h3, h4, h5⟩ := hR.open.1 h
  obtain ⟨c1, c2⟩ := hR.ok.own p x h2
  obtain ⟨o1, o2, o3⟩ := hI.open_edge h
  have he : edgeAt N x ∈ (M.world.polys p).edges := hR.mem.2 ⟨h1, x, h2, rfl⟩
  obtain ⟨g1, g2, -⟩ := hI.orgs p _ he
  have g2' : N.line x = X.line (org x) := g2
  rw [hI.base x o1] at g2'
  refine ⟨c1, g2', ?_, by rw [c2]; exact h1⟩
  rw [c2, o3, hR.owner p h1 x h2]

theorem connect_round (hX : X.Good) (hI : X.Inv W0 m M.world G org lab) (hR : Rep M N) (hfin : ∀ x, (N.vertex x).w ≠ 0) (hn : X.n ≤ N.count)
    {T : SortFn} {o : HeapFns} (hT : SortOk T) (ho : HeapOk o) {drop : Fin 3} {l : List (Option Nat)}
    (hl : ∀ e, some e ∈ l ↔ X.call e = m ∧ ∃ A B, Open M.world e A B) (hi : PlaneInput drop N l) {N' : Net}
    (run : connectUnsorted T o drop N l = some (N', 0)) :
    (M.ofNet N').Good ∧ ∃ org', X.Inv W0 (m + 1) (M.ofNet N').world G org' lab := by
  have part := C53_plane_no_error hT ho hi run
  obtain ⟨f1, f2, f3, f4, f5, f6, f7⟩ := C53_plane_frame hT ho hi run
  obtain ⟨p1, p2⟩ := C53_plane_partners hT ho hi run
  have ex : ∀ e, ∃ r, (e < N.count → r = e) ∧ (N.count ≤ e → e < N'.count → some r ∈ l ∧ N'.poly e = N.poly r ∧ N'.line e = N.line r) := by
    intro e
    by_cases h1 : e < N.count
    · exact ⟨e, fun _ => rfl, fun h2 => absurd h1 (not_lt.2 h2)⟩
    · by_cases h2 : e < N'.count
      · obtain ⟨r, r1, r2, r3, -⟩ := f7 e (not_lt.1 h1) h2
        exact ⟨r, fun h => absurd h h1, fun _ _ => ⟨r1, r2, r3⟩⟩
      · exact ⟨e, fun _ => rfl, fun _ h => absurd h h2⟩
  choose rt rt1 rt2 using ex
  -- the edges of the range
  have inl : ∀ e, some e ∈ l → e < N.count ∧ N.line e = X.line e ∧ N.poly e = G (X.fac e) ∧ N.poly e < M.size ∧ X.call e = m ∧ e < X.n ∧ N.partner e = none := by
    intro e he
    obtain ⟨h1, A, B, h2⟩ := (hl e).1 he
    obtain ⟨a1, a2, a3, a4⟩ := open_line hI hR h2
    exact ⟨a1, a2, a3, a4, h1, (hI.open_edge h2).1, hi.free e he⟩
  -- edges that were there before
  have old : ∀ p x, x ∈ N'.cycle p → x < N.count → x ∈ N.cycle p := by
    intro p x hx hc
    have := hR.ok.mem x hc
    rwa [← (f5 x hc).2.2, (f1.own p x hx).2] at this
  have old' : ∀ p x, x ∈ N.cycle p → x ∈ N'.cycle p := fun p x hx => (f4 p).subset hx
  have hdead : ∀ p, M.size ≤ p → ∀ x ∈ N'.cycle p, N'.partner x = none := by
    intro p hp x hx
    by_cases hc : x < N.count
    · have hx' := old p x hx hc
      have hnl : some x ∉ l := by
        intro h
        have := (inl x h).2.2.2.1
        rw [(hR.ok.own p x hx').2] at this
        omega
      rw [(f6 x hc hnl).2]
      exact hR.dead p hp x hx'
    · obtain ⟨c1, c2⟩ := f1.own p x hx
      obtain ⟨r1, r2, -⟩ := rt2 x (not_lt.1 hc) c1
      have := (inl _ r1).2.2.2.1
      rw [← r2, c2] at this
      omega
  have hR' : Rep (M.ofNet N') N' := ofNet_rep f1 (fun p hp => by rw [f3]; exact hR.normal p hp) hdead
  have hS := (shaped_stable M.world.polys M.size).connectUnsorted (hR.shaped hI.linked hfin) run
  have hpoly : ∀ p, p < M.size → (M.ofNet N').world.polys p = { M.world.polys p with edges := (N'.cycle p).map (edgeAt N') } := by
    intro p hp
    simp only [Mesh.ofNet, if_pos hp]; rfl
  have hpoly0 : ∀ p, ¬ p < M.size → ((M.ofNet N').world.polys p).edges = [] := by
    intro p hp
    simp only [Mesh.ofNet, if_neg hp]
  have hplane : ∀ p, ((M.ofNet N').world.polys p).plane = (M.world.polys p).plane := fun p => rfl
  have hregion : ∀ p, ((M.ofNet N').world.polys p).region = (M.world.polys p).region := by
    intro p
    by_cases hp : p < M.size
    · rcases hS.shape p hp with ⟨h1, h2⟩ | ⟨-, h2⟩
      · rw [region_empty h2, region_empty]
        rw [hpoly p hp, h1]; rfl
      · rw [hpoly p hp]; exact h2
    · rw [region_empty (hpoly0 p hp), region_empty (hR.empty p (not_lt.1 hp))]
  -- pieces
  have piece : ∀ x, PlanePiece N N' l x → ∃ r, some r ∈ l ∧ rt x = r ∧ N'.poly x = N.poly r ∧ N'.line x = N.line r := by
    rintro x (hx | ⟨h1, h2⟩)
    · obtain ⟨a1, -⟩ := inl x hx
      exact ⟨x, hx, rt1 x a1, (f5 x a1).2.2, (f5 x a1).1⟩
    · obtain ⟨r1, r2, r3⟩ := rt2 x h1 h2
      exact ⟨_, r1, rfl, r2, r3⟩
  have notPiece : ∀ x, x < N'.count → ¬ PlanePiece N N' l x → x < N.count ∧ some x ∉ l := by
    intro x hx hp
    refine ⟨?_, fun h => hp (Or.inl h)⟩
    by_contra hc
    exact hp (Or.inr ⟨not_lt.1 hc, hx⟩)
  -- half-edges that are not pieces
  have rest : ∀ p x A B, p < M.size → x ∈ N'.cycle p → ¬ PlanePiece N N' l x →
      ((x, A, B) ∈ halfEdges ((M.ofNet N').world.polys p).edges ↔ (x, A, B) ∈ halfEdges (M.world.polys p).edges) ∧ N'.partner x = M.world.partner x := by
    intro p x A B hp hx hnp
    obtain ⟨h1, h2⟩ := notPiece x (f1.own p x hx).1 hnp
    have hx' := old p x hx h1
    obtain ⟨t1, t2⟩ := f6 x h1 h2
    refine ⟨?_, by rw [t2, hR.partner p hp x hx']⟩
    rw [hR'.half, hR.half, t1, (f5 x h1).2.1]
    simp only [hx, hx', hp, true_and]
    constructor
    · rintro ⟨_, h⟩; exact h
    · intro h; exact ⟨hp, h⟩
  have hlink : Poly.Linked (M.ofNet N').world := by
    refine ⟨?_, ?_, ?_, ?_⟩
    · intro p
      by_cases hp : p < M.size
      · rw [hpoly p hp]
        rcases hS.shape p hp with ⟨h1, -⟩ | ⟨h1, -⟩
        · left; dsimp only; rw [h1]; rfl
        · right; exact h1
      · left; exact hpoly0 p hp
    · intro p
      rw [halfEdges_labels]
      by_cases hp : p < M.size
      · rw [hpoly p hp]
        dsimp only
        rw [List.map_map]
        have : ((fun e : Edge Nat => e.data) ∘ edgeAt N') = id := rfl
        rw [this, List.map_id]
        exact f1.nodup p
      · rw [hpoly0 p hp]; simp
    · intro p x A B hx
      obtain ⟨h1, h2, -⟩ := hR'.half.1 hx
      exact hR'.owner p h1 x h2
    · intro p x A B y hx hy
      obtain ⟨h1, h2, h3, h4⟩ := hR'.half.1 hx
      have hy' : N'.partner x = some y := hy
      by_cases hpc : PlanePiece N N' l x
      · obtain ⟨-, -, q2, q3⟩ := p2 x y hpc hy'
        have yx := p1 x y hy'
        have yc := f1.exist y x yx
        have ym := f1.mem y yc
        have ys : N'.poly y < M.size := by
          by_contra hc
          rw [hdead _ (not_lt.1 hc) y ym] at yx
          cases yx
        exact ⟨hR'.half.2 ⟨ys, ym, by rw [← q3]; exact h4, by rw [← q2]; exact h3⟩, yx⟩
      · obtain ⟨r1, r2⟩ := rest p x A B h1 h2 hpc
        have hx0 := r1.1 hx
        have hy0 : M.world.partner x = some y := by rw [← r2]; exact hy'
        obtain ⟨t1, t2⟩ := hI.linked.twin p x A B y hx0 hy0
        obtain ⟨g1, g2, g3, g4⟩ := hR.half.1 t1
        have g5 := hR.partner _ g1 y g2
        have hnl : some y ∉ l := by
          intro h
          have := (inl y h).2.2.2.2.2.2
          rw [← g5, t2] at this
          cases this
        have hyc := (hR.ok.own _ y g2).1
        have hnp : ¬ PlanePiece N N' l y := by
          rintro (h | ⟨h, -⟩)
          · exact hnl h
          · omega
        obtain ⟨r1', r2'⟩ := rest _ y B A g1 (old' _ y g2) hnp
        have ho' : (M.ofNet N').world.owner y = M.world.owner y := by
          show N'.poly y = _
          rw [(f5 y hyc).2.2, (hR.ok.own _ y g2).2]
        rw [ho']
        exact ⟨r1'.2 t1, r2'.trans t2⟩
  refine ⟨⟨hlink, ?_, fun p hp => hpoly0 p (not_lt.2 hp)⟩, org ∘ rt, hlink, ?_, ?_, ?_, ?_, ?_, ?_, ?_, ?_⟩
  · intro p e he
    obtain ⟨h1, x, h2, rfl⟩ := hR'.mem.1 he
    exact (f1.own p x h2).1
  -- small
  · intro p
    refine ⟨(hI.small p).1, fun e he => ?_⟩
    obtain ⟨h1, x, h2, rfl⟩ := hR'.mem.1 he
    show NoMin3 (N'.line x).d
    by_cases hc : x < N.count
    · rw [(f5 x hc).1]
      exact (hI.small p).2 (edgeAt N x) (hR.mem.2 ⟨h1, x, old p x h2 hc, rfl⟩)
    · obtain ⟨r1, r2, r3⟩ := rt2 x (not_lt.1 hc) (f1.own p x h2).1
      rw [r3]
      obtain ⟨a1, a2, a3, a4, -⟩ := inl _ r1
      exact (hI.small (N.poly (rt x))).2 (edgeAt N (rt x)) (hR.mem.2 ⟨a4, _, hR.ok.mem _ a1, rfl⟩)
  -- orgs
  · intro p e he
    obtain ⟨h1, x, h2, rfl⟩ := hR'.mem.1 he
    show org (rt x) < X.n ∧ N'.line x = X.line (org (rt x)) ∧ G (X.fac (org (rt x))) = p ∧ (N'.partner x = none ↔ m + 1 ≤ X.call (org (rt x))) ∧ (N'.partner x = none → x < X.n)
    obtain ⟨c1, c2⟩ := f1.own p x h2
    by_cases hpc : PlanePiece N N' l x
    · obtain ⟨r, r1, r2, r3, r4⟩ := piece x hpc
      obtain ⟨a1, a2, a3, a4, a5, a6, a7⟩ := inl r r1
      obtain ⟨y, hy⟩ := part x hpc
      rw [r2, hI.base r a6, hy, r4, a2, a5, ← a3, ← r3, c2]
      refine ⟨a6, rfl, rfl, ?_, fun h => by cases h⟩
      simp
    · obtain ⟨b1, b2⟩ := notPiece x c1 hpc
      have hx' := old p x h2 b1
      have he' : edgeAt N x ∈ (M.world.polys p).edges := hR.mem.2 ⟨h1, x, hx', rfl⟩
      obtain ⟨o1, o2, o3, o4, o5⟩ := hI.orgs p _ he'
      have o2' : N.line x = X.line (org x) := o2
      have o1' : org x < X.n := o1
      have o3' : G (X.fac (org x)) = p := o3
      have o4' : M.world.partner x = none ↔ m ≤ X.call (org x) := o4
      have o5' : M.world.partner x = none → x < X.n := o5
      obtain ⟨-, r2⟩ := rest p x 0 0 h1 h2 hpc
      rw [rt1 x b1, r2, (f5 x b1).1]
      refine ⟨o1', o2', o3', ?_, o5'⟩
      rw [o4']
      refine ⟨fun h => ?_, fun h => by omega⟩
      rcases Nat.lt_or_ge m (X.call (org x)) with hlt | hge
      · omega
      · exfalso
        have hm : X.call (org x) = m := le_antisymm hge h
        have hnone := o4'.2 h
        rw [hI.base x (o5' hnone)] at hm
        exact b2 ((hl x).2 ⟨hm, _, _, hR.open.2 ⟨p, h1, hx', rfl, rfl, by rw [← hR.partner p h1 x hx']; exact hnone⟩⟩)
  -- base
  · intro x hx
    show org (rt x) = x
    rw [rt1 x (lt_of_lt_of_le hx hn), hI.base x hx]
  -- group
  · intro i j hij
    exact (hI.group i j hij).mono (Nat.le_succ m)
  -- near
  · rintro i j ⟨x, A, B, y, hx, hy, hoy⟩
    have hy' : N'.partner x = some y := hy
    obtain ⟨h1, h2, h3, h4⟩ := hR'.half.1 hx
    have c2 := (f1.own _ x h2).2
    by_cases hpc : PlanePiece N N' l x
    · obtain ⟨hpy, -⟩ := p2 x y hpc hy'
      obtain ⟨r, r1, r2, r3, -⟩ := piece x hpc
      obtain ⟨r', r1', r2', r3', -⟩ := piece y hpy
      obtain ⟨a1, a2, a3, a4, a5, a6, a7⟩ := inl r r1
      obtain ⟨b1, b2, b3, b4, b5, b6, b7⟩ := inl r' r1'
      have hoy' : N'.poly y = G j := hoy
      have n1 := (hI.group i (X.fac r) (by rw [← a3, ← r3, c2])).mono (Nat.le_succ m)
      have n2 := (hI.group (X.fac r') j (by rw [← b3, ← r3', hoy'])).mono (Nat.le_succ m)
      have u1 := hX.inside r a6
      have u2 := hX.inside r' b6
      rw [a5] at u1
      rw [b5] at u2
      exact (n1.trans hX (Or.inr ⟨m, Nat.lt_succ_self m, u1, u2⟩)).trans hX n2
    · obtain ⟨r1, r2⟩ := rest _ x A B h1 h2 hpc
      refine (hI.near i j ⟨x, A, B, y, r1.1 hx, by rw [← r2]; exact hy', ?_⟩).mono (Nat.le_succ m)
      obtain ⟨t1, t2⟩ := hI.linked.twin _ x A B y (r1.1 hx) (by rw [← r2]; exact hy')
      obtain ⟨g1, g2, -⟩ := hR.half.1 t1
      have hoy' : N'.poly y = G j := hoy
      rw [← hoy', (f5 y (hR.ok.own _ y g2).1).2.2, (hR.ok.own _ y g2).2]
  -- tiled
  · have iff : ∀ x A B, Open (M.ofNet N').world x A B ↔ Open M.world x A B ∧ m + 1 ≤ X.call x := by
      intro x A B
      constructor
      · intro h
        obtain ⟨p, h1, h2, h3, h4, h5⟩ := hR'.open.1 h
        have hpc : ¬ PlanePiece N N' l x := by
          intro hpc
          obtain ⟨y, hy⟩ := part x hpc
          rw [h5] at hy; cases hy
        obtain ⟨r1, r2⟩ := rest p x A B h1 h2 hpc
        have ho : Open M.world x A B := ⟨⟨p, r1.1 (hR'.half.2 ⟨h1, h2, h3, h4⟩)⟩, by rw [← r2]; exact h5⟩
        refine ⟨ho, ?_⟩
        have := (hI.open_edge ho).2.1
        rcases Nat.lt_or_ge m (X.call x) with hlt | hge
        · exact hlt
        · exact absurd (Or.inl ((hl x).2 ⟨le_antisymm hge this, A, B, ho⟩)) hpc
      · rintro ⟨h, hm⟩
        obtain ⟨p, h1, h2, h3, h4, h5⟩ := hR.open.1 h
        have hpc : ¬ PlanePiece N N' l x := by
          rintro (hx | ⟨hx, -⟩)
          · have := (inl x hx).2.2.2.2.1; omega
          · have := (hR.ok.own p x h2).1; omega
        obtain ⟨r1, r2⟩ := rest p x A B h1 (old' p x h2) hpc
        exact ⟨⟨p, r1.2 (hR.half.2 ⟨h1, h2, h3, h4⟩)⟩, by
          show N'.partner x = none
          rw [r2]; exact h.2⟩
    have ht := hI.tiled
    refine ⟨?_, ?_, ?_, ?_, ?_⟩
    · intro x A B hx k hk t
      obtain ⟨h1, h2⟩ := (iff x A B).1 hx
      rw [ht.cover x A B h1 k hk t]
      constructor
      · rintro ⟨z, z1, z2, rfl, z4⟩
        exact ⟨z, z1, by rw [(ht.same z z1 z2).2.1]; exact h2, rfl, z4⟩
      · rintro ⟨z, z1, z2, z3, z4⟩
        exact ⟨z, z1, by omega, z3, z4⟩
    · intro z z1 z2
      obtain ⟨A, B, h⟩ := ht.exist z z1 (by omega)
      exact ⟨A, B, (iff _ A B).2 ⟨h, by rw [← (ht.same z z1 (by omega)).2.1]; exact z2⟩⟩
    · intro z z1 z2
      exact ht.same z z1 (by omega)
    · intro x A B hx
      exact ht.along x A B ((iff x A B).1 hx).1
    · intro x A B A' B' hx hx'
      exact ht.uniq x A B A' B' ((iff x A B).1 hx).1 ((iff x A' B').1 hx').1
  · exact ⟨fun p => by rw [hregion]; exact hI.groups.regions p, fun q => hI.groups.normals q⟩
  · exact hI.planes

end

end Walnut.Conn
