/-
Connecting half-edges keeps the facets convex, and does not change what they cover.
-/
import Verif.Conn.MeshRep
import Verif.Conn.Evolve
import Verif.Poly.InsertVertex

namespace Walnut.Conn
open Walnut.Geom Walnut.Poly Walnut.Bsp Walnut.Props

/-- A point where an edge may be split is strictly inside of it. -/
theorem splitOk_between {N : Net} {e : Nat} {mid : HP3} (hl : EdgeLine (N.line e) (N.vertex e).pt (N.target e).pt) (hne : (N.vertex e).pt ≠ (N.target e).pt)
    (w1 : (N.vertex e).w ≠ 0) (w2 : (N.target e).w ≠ 0) (w3 : mid.w ≠ 0) (h : N.splitOk e mid (N.target e) = true) :
    ∃ s : ℚ, 0 < s ∧ s < 1 ∧ mid.pt = lerp3 s (N.vertex e).pt (N.target e).pt := by
  obtain ⟨k, hk⟩ : ∃ k, (N.line e).d.comp k ≠ 0 := by
    by_contra hc
    push Not at hc
    exact hl.d_ne hne (v3_ext_comp.2 fun i => by rw [hc i]; obtain rfl | rfl | rfl := fin3 i <;> rfl)
  have hmid : OnLine (N.line e) mid.pt := by
    unfold Net.splitOk at h
    rw [Bool.and_eq_true, Bool.and_eq_true, isCoincident_iff _ _ w3] at h
    exact h.1.1
  have hL : Lined k (fun p => p.w ≠ 0 ∧ OnLine (N.line e) p.pt) (fun l => l = N.line e) :=
    ⟨fun p hp => hp.1, fun l hl => by rw [hl]; exact hk, fun l hl p hp => by rw [hl]; exact hp.2⟩
  have hb := (splitOk_iff hL (e := e) rfl ⟨w1, hl.onLine.1⟩ ⟨w2, hl.onLine.2⟩ ⟨w3, hmid⟩).1 h
  obtain ⟨σ, s0, hd⟩ := hl.dir
  have hk' : ((N.line e).d.comp k : ℚ) ≠ 0 := by exact_mod_cast hk
  have hdk : ((N.line e).d.comp k : ℚ) = σ * ((N.target e).pt k - (N.vertex e).pt k) := hd k
  have tne : (N.target e).pt k - (N.vertex e).pt k ≠ 0 := by
    intro h0; rw [h0, mul_zero] at hdk; exact hk' hdk
  have hs : 0 < (mid.pt k - (N.vertex e).pt k) / ((N.target e).pt k - (N.vertex e).pt k) ∧
      (mid.pt k - (N.vertex e).pt k) / ((N.target e).pt k - (N.vertex e).pt k) < 1 := by
    unfold Net.lo Net.hi Net.loPt Net.hiPt at hb
    split_ifs at hb
    · have p : 0 < (N.target e).pt k - (N.vertex e).pt k := by linarith
      exact ⟨div_pos (by linarith) p, (div_lt_one p).2 (by linarith)⟩
    · have p : (N.target e).pt k - (N.vertex e).pt k < 0 := by linarith
      exact ⟨div_pos_of_neg_of_neg (by linarith) p, (div_lt_one_of_neg p).2 (by linarith)⟩
  refine ⟨_, hs.1, hs.2, funext fun i => ?_⟩
  have h1 := onLine_diff hmid hl.onLine.1 k i
  have hdi : ((N.line e).d.comp i : ℚ) = σ * ((N.target e).pt i - (N.vertex e).pt i) := hd i
  rw [hdk, hdi] at h1
  unfold lerp3
  have h2 : (mid.pt i - (N.vertex e).pt i) * ((N.target e).pt k - (N.vertex e).pt k) = (mid.pt k - (N.vertex e).pt k) * ((N.target e).pt i - (N.vertex e).pt i) :=
    mul_left_cancel₀ s0.ne' (by linear_combination h1)
  field_simp
  linear_combination h2

/-- The polygons of the net are convex and cover what the given polygons cover. -/
structure Shaped (Q : Nat → Polygon Nat) (size : Nat) (N : Net) : Prop where
  ok : ({ N with partner := fun _ => none } : Net).Ok
  fin : ∀ e, (N.vertex e).w ≠ 0
  shape : ∀ p < size, (N.cycle p = [] ∧ (Q p).edges = []) ∨
    IsConvexPolygon { Q p with edges := (N.cycle p).map (edgeAt N) } ∧ Polygon.region { Q p with edges := (N.cycle p).map (edgeAt N) } = (Q p).region

theorem insert_rotated {l : List Nat} {e n : Nat} (he : e ∈ l) : ∃ t, l ~r e :: t ∧ l.insertIdx (l.idxOf e + 1) n ~r e :: n :: t := by
  obtain ⟨p, q, rfl, hp⟩ := exists_split he
  have hi : (p ++ e :: q).idxOf e = p.length := by simp [List.idxOf_append, hp]
  refine ⟨q ++ p, ?_, ?_⟩
  · exact ⟨p.length, by simp⟩
  · rw [hi]
    have : (p ++ e :: q).insertIdx (p.length + 1) n = p ++ e :: n :: q := by
      clear hi hp he
      induction p with
      | nil => simp
      | cons a p ih => simpa using ih
    rw [this]
    exact ⟨p.length, by simp⟩

theorem shaped_stable (Q : Nat → Polygon Nat) (size : Nat) : Stable (Shaped Q size) := by
  refine ⟨fun N p h => ⟨h.ok, h.fin, h.shape⟩, ?_, fun N e h => h.fin e⟩
  intro N e mid N' h w hr
  have hr' : ({ N with partner := fun _ => none } : Net).splitEdge e mid = some { N' with partner := fun _ => none } := by
    unfold Net.splitEdge at hr ⊢
    split at hr
    · cases hr
    rename_i next hn
    have hn' : ({ N with partner := fun _ => none } : Net).nextVertex e = some next := hn
    rw [hn']
    dsimp only
    split_ifs at hr with hc
    have hc' : ({ N with partner := fun _ => none } : Net).splitOk e mid next = true := hc
    rw [if_pos hc', ← Option.some.inj hr]
    dsimp only
    congr 2
    funext x
    by_cases hx : x = N.count
    · subst hx; rw [Function.update_self]
    · rw [Function.update_of_ne hx]
  have he : e < N.count := by
    unfold Net.splitEdge at hr
    split at hr
    · cases hr
    rename_i next hn
    unfold Net.nextVertex at hn
    obtain ⟨f, h1, -⟩ := Option.map_eq_some_iff.1 hn
    exact (h.ok.own _ _ (succIn_mem h1).1).1
  rw [Net.splitEdge_eq h.ok he] at hr'
  split_ifs at hr' with hs
  have e' := Option.some.inj hr'
  have ok' := Net.split_ok h.ok he w (mid := mid)
  rw [e'] at ok'
  have hcyc : N'.cycle = Function.update N.cycle (N.poly e) ((N.cycle (N.poly e)).insertIdx ((N.cycle (N.poly e)).idxOf e + 1) N.count) := by
    have := congrArg Net.cycle e'; exact this.symm
  have hvert : N'.vertex = Function.update N.vertex N.count mid := by
    have := congrArg Net.vertex e'; exact this.symm
  have hline : N'.line = Function.update N.line N.count (N.line e) := by
    have := congrArg Net.line e'; exact this.symm
  have hmk : ∀ x, x < N.count → edgeAt N' x = edgeAt N x := by
    intro x hx
    unfold edgeAt
    rw [hvert, hline, Function.update_of_ne (Nat.ne_of_lt hx), Function.update_of_ne (Nat.ne_of_lt hx)]
  have hmap : ∀ l : List Nat, (∀ x ∈ l, x < N.count) → l.map (edgeAt N') = l.map (edgeAt N) := fun l hl => List.map_congr_left fun x hx => hmk x (hl x hx)
  have hlt : ∀ p, ∀ x ∈ N.cycle p, x < N.count := fun p x hx => (h.ok.own p x hx).1
  refine ⟨ok', ?_, ?_⟩
  · intro x
    rw [hvert]
    by_cases hx : x = N.count
    · subst hx; rw [Function.update_self]; exact w
    · rw [Function.update_of_ne hx]; exact h.fin x
  · intro p hp
    by_cases hpe : p = N.poly e
    · subst hpe
      right
      have hem : e ∈ N.cycle (N.poly e) := h.ok.mem e he
      rcases h.shape _ hp with ⟨h0, -⟩ | ⟨hc, hreg⟩
      · rw [h0] at hem; cases hem
      · obtain ⟨t, r1, r2⟩ := insert_rotated (n := N.count) hem
        obtain ⟨c1, g1⟩ := hc.isRotated (l := edgeAt N e :: t.map (edgeAt N)) (by dsimp only; rw [← List.map_cons]; exact r1.map _)
        have ht : ∀ x ∈ e :: t, x < N.count := fun x hx => hlt _ x (r1.mem_iff.2 hx)
        obtain ⟨i, hi⟩ := List.mem_iff_getElem?.1 hem
        have hi' : ({ Q (N.poly e) with edges := (N.cycle (N.poly e)).map (edgeAt N) } : Polygon Nat).edges[i]? = some (edgeAt N e) := by
          dsimp only; rw [List.getElem?_map, hi]; rfl
        have tgt : ∃ z, ({ Q (N.poly e) with edges := edgeAt N e :: t.map (edgeAt N) } : Polygon Nat).pt 1 = (N.vertex z).pt ∧ N.target e = N.vertex z := by
          cases t with
          | nil =>
            have := c1.three
            simp [Polygon.count] at this
          | cons z t =>
            refine ⟨z, (pt_get (e := edgeAt N z) rfl).1, ?_⟩
            have hr : succIn (N.cycle (N.poly e)) e = some z := by
              obtain ⟨p, q, hpq, hp⟩ := exists_split hem
              rw [hpq, succIn_split hp]
              have nd := h.ok.nodup (N.poly e)
              have hrot : q ++ p = z :: t := by
                have rr : (e :: (q ++ p)) ~r (e :: z :: t) := by
                  refine List.IsRotated.trans ?_ r1
                  rw [hpq]
                  exact List.IsRotated.symm ⟨p.length, by simp⟩
                obtain ⟨k, hk, ek⟩ := List.isRotated_iff_mod.1 rr
                have nd' : (e :: (q ++ p)).Nodup := by
                  have : (N.cycle (N.poly e)).Nodup := nd
                  rw [hpq] at this
                  exact (List.IsRotated.nodup_iff (⟨p.length, by simp⟩ : (p ++ e :: q) ~r (e :: (q ++ p)))).1 this
                rcases hk.lt_or_eq with hk | hk
                · have h0 : (e :: (q ++ p))[k]? = some e := by
                    have := congrArg (fun l => l[0]?) ek
                    simp only [List.getElem?_rotate (by simp : 0 < (e :: (q ++ p)).length), zero_add, Nat.mod_eq_of_lt hk] at this
                    simpa using this
                  have : k = 0 := by
                    have h00 : (e :: (q ++ p))[0]? = some e := rfl
                    obtain ⟨u1, u2⟩ := List.getElem?_eq_some_iff.1 h0
                    exact (nd'.getElem_inj_iff (hi := u1) (hj := by simp)).1 (by rw [u2]; rfl)
                  subst this
                  simpa using ek
                · rw [hk, List.rotate_length] at ek
                  simpa using ek
              rw [hrot]; rfl
            unfold Net.target Net.nextVertex
            rw [hr]; rfl
        obtain ⟨z, z1, z2⟩ := tgt
        have n3 := c1.three
        have lin := c1.line 0 (by omega)
        have ne := c1.distinct 0 1 (by omega) (by omega)
        rw [zero_add, Nat.mod_eq_of_lt (by omega)] at lin
        have p0 : ({ Q (N.poly e) with edges := edgeAt N e :: t.map (edgeAt N) } : Polygon Nat).pt 0 = (N.vertex e).pt := (pt_get (e := edgeAt N e) rfl).1
        have l0 : ({ Q (N.poly e) with edges := edgeAt N e :: t.map (edgeAt N) } : Polygon Nat).lineD 0 = N.line e := (pt_get (e := edgeAt N e) rfl).2.2
        rw [p0, z1, l0, ← z2] at lin
        rw [p0, z1, ← z2] at ne
        obtain ⟨s, s0, s1, es⟩ := splitOk_between lin ne (h.fin e) (by rw [z2]; exact h.fin z) w hs
        have mkn : edgeAt N' N.count = ⟨mid, N.line e, N.count⟩ := by
          unfold edgeAt; rw [hvert, hline, Function.update_self, Function.update_self]
        obtain ⟨c2, g2⟩ := c1.insert_first (e := edgeAt N e) (m := edgeAt N' N.count) (t := t.map (edgeAt N)) rfl (by rw [mkn]; rfl) (by rw [mkn]; exact w) s0 s1
          (by rw [mkn, p0, z1, ← z2]; exact es)
        have hnew : (N'.cycle (N.poly e)).map (edgeAt N') ~r edgeAt N e :: edgeAt N' N.count :: t.map (edgeAt N) := by
          rw [hcyc, Function.update_self]
          have := r2.map (edgeAt N')
          rw [List.map_cons, List.map_cons, hmk e he, hmap t fun x hx => ht x (List.mem_cons_of_mem _ hx)] at this
          exact this
        obtain ⟨c3, g3⟩ := c2.isRotated (l := (N'.cycle (N.poly e)).map (edgeAt N')) hnew.symm
        exact ⟨c3, by rw [← hreg, ← g1, ← g2, ← g3]⟩
    · rw [hcyc, Function.update_of_ne hpe, hmap _ (hlt p)]
      exact h.shape p hp

end Walnut.Conn
