/-
Which facets are below the node of a call of the connector, and when an edge is handed to it.
-/
import Verif.Props.Visitor

namespace Walnut.Bsp
open Walnut.Geom Walnut.Poly Walnut.Props

/-- For each call, the numbers of the polygons that were accepted below its node: from the first
number up to the second one. -/
structure Spans (n : Nat) (tr : List Visit) (nc : List (PlaneRef × List Entry)) (sp : List (Nat × Nat)) : Prop where
  length : sp.length = nc.length
  bound : ∀ i ∈ sp, n ≤ i.1 ∧ i.2 ≤ n + (accepted tr).length
  nested : sp.Pairwise fun i i' => i.2 ≤ i'.1 ∨ (i'.1 ≤ i.1 ∧ i.2 ≤ i'.2)
  inside : ∀ (k : Nat) c i, nc[k]? = some c → sp[k]? = some i → ∀ z ∈ c.2, i.1 ≤ z.poly ∧ z.poly < i.2
  last : ∀ (k : Nat) c i, nc[k]? = some c → sp[k]? = some i → ∀ x ∈ tags n (accepted tr), i.1 ≤ x.entry.poly → x.entry.poly < i.2 →
    AtEdge x.p.poly x.entry.edge c.1.plane → ∀ (k' : Nat) c', nc[k']? = some c' → x.entry ∈ c'.2 → k ≤ k'

theorem Spans.none {n : Nat} {tr : List Visit} : Spans n tr [] [] :=
  ⟨rfl, by simp, List.Pairwise.nil, by simp, by simp⟩

theorem tags_bound {n : Nat} {l : List BPoly} {x : Tag} (h : x ∈ tags n l) : n ≤ x.entry.poly ∧ x.entry.poly < n + l.length := by
  obtain ⟨j, h1, h2, _⟩ := mem_tags h
  have := (List.getElem?_eq_some_iff.1 h1).1
  omega

theorem Spans.entry_bound {n : Nat} {tr : List Visit} {nc : List (PlaneRef × List Entry)} {sp : List (Nat × Nat)} (h : Spans n tr nc sp) {k : Nat} {c : PlaneRef × List Entry}
    (hc : nc[k]? = some c) {z : Entry} (hz : z ∈ c.2) : n ≤ z.poly ∧ z.poly < n + (accepted tr).length := by
  have hk : k < sp.length := by rw [h.length]; exact (List.getElem?_eq_some_iff.1 hc).1
  have h1 := h.inside k c _ hc (List.getElem?_eq_getElem hk) z hz
  have h2 := h.bound _ (List.getElem_mem hk)
  omega

theorem Spans.append {n : Nat} {a b : List Visit} {na nb : List (PlaneRef × List Entry)} {sa sb : List (Nat × Nat)} (ha : Spans n a na sa)
    (hb : Spans (n + (accepted a).length) b nb sb) : Spans n (a ++ b) (na ++ nb) (sa ++ sb) := by
  have hl : (accepted (a ++ b)).length = (accepted a).length + (accepted b).length := by rw [accepted_append, List.length_append]
  have get : ∀ {k : Nat} {c : PlaneRef × List Entry}, (na ++ nb)[k]? = some c → (k < na.length ∧ na[k]? = some c) ∨ (na.length ≤ k ∧ nb[k - na.length]? = some c) := by
    intro k c h
    by_cases hk : k < na.length
    · exact Or.inl ⟨hk, by rwa [List.getElem?_append_left hk] at h⟩
    · exact Or.inr ⟨by omega, by rwa [List.getElem?_append_right (by omega)] at h⟩
  refine ⟨by rw [List.length_append, List.length_append, ha.length, hb.length], ?_, ?_, ?_, ?_⟩
  · intro i hi
    rw [hl]
    rcases List.mem_append.1 hi with hi | hi
    · have := ha.bound i hi; omega
    · have := hb.bound i hi; omega
  · rw [List.pairwise_append]
    refine ⟨ha.nested, hb.nested, fun i hi j hj => Or.inl ?_⟩
    have := (ha.bound i hi).2
    have := (hb.bound j hj).1
    omega
  · intro k c i hc hi
    rcases get hc with ⟨hk, hc⟩ | ⟨hk, hc⟩
    · rw [List.getElem?_append_left (by rw [ha.length]; exact hk)] at hi
      exact ha.inside k c i hc hi
    · rw [List.getElem?_append_right (by rw [ha.length]; exact hk), ha.length] at hi
      exact hb.inside _ c i hc hi
  · intro k c i hc hi x hx h1 h2 h3 k' c' hc' hx'
    rw [accepted_append, tags_append] at hx
    rcases get hc with ⟨hk, hc⟩ | ⟨hk, hc⟩
    · rw [List.getElem?_append_left (by rw [ha.length]; exact hk)] at hi
      have hb1 := (ha.bound i (List.mem_of_getElem? hi)).2
      rcases get hc' with ⟨hk', hc'⟩ | ⟨hk', hc'⟩
      · rcases List.mem_append.1 hx with hx | hx
        · exact ha.last k c i hc hi x hx h1 h2 h3 k' c' hc' hx'
        · have := (tags_bound hx).1; omega
      · omega
    · rw [List.getElem?_append_right (by rw [ha.length]; exact hk), ha.length] at hi
      have hb1 := (hb.bound i (List.mem_of_getElem? hi)).1
      rcases List.mem_append.1 hx with hx | hx
      · have := (tags_bound hx).2; omega
      · rcases get hc' with ⟨hk', hc'⟩ | ⟨hk', hc'⟩
        · have := (ha.entry_bound hc' hx').2
          omega
        · have := hb.last _ c i hc hi x hx h1 h2 h3 _ c' hc' hx'
          omega

/-- The entries determine the edges. -/
theorem tags_inj {n : Nat} {l : List BPoly} {x y : Tag} (hx : x ∈ tags n l) (hy : y ∈ tags n l) (h : x.entry = y.entry) : x = y :=
  List.inj_on_of_nodup_map (tags_nodup l n) hx hy (by simp only [h])

theorem Spans.bracket {n : Nat} {a : List Visit} {nc : List (PlaneRef × List Entry)} {sp : List (Nat × Nat)} (ha : Spans n a nc sp) {fl : Open} {r : PlaneRef} {t : Bool}
    (hall : (nc.flatMap Prod.snd).Perm (notOpen (fl ++ [(r, t)]) (tags n (accepted a))))
    (hhigh : ∀ x ∈ tags n (accepted a), AtEdge x.p.poly x.entry.edge r.plane → ∃ y ∈ fl ++ [(r, t)], x.key = some y.1.path) :
    Spans n (.enter t r :: (a ++ [.leave t r])) (nc ++ [(r, forKey (some r.path) (tags n (accepted a)))]) (sp ++ [(n, n + (accepted a).length)]) := by
  have hacc : accepted (.enter t r :: (a ++ [.leave t r])) = accepted a := by simp [accepted, accepted_append]
  have get : ∀ {k : Nat} {c : PlaneRef × List Entry}, (nc ++ [(r, forKey (some r.path) (tags n (accepted a)))])[k]? = some c →
      (k < nc.length ∧ nc[k]? = some c) ∨ (k = nc.length ∧ c = (r, forKey (some r.path) (tags n (accepted a)))) := by
    intro k c h
    by_cases hk : k < nc.length
    · exact Or.inl ⟨hk, by rwa [List.getElem?_append_left hk] at h⟩
    · rw [List.getElem?_append_right (by omega)] at h
      have h0 : k - nc.length = 0 := by
        by_contra hne
        rw [List.getElem?_eq_none (by simp; omega)] at h
        simp at h
      rw [h0] at h
      exact Or.inr ⟨by omega, (Option.some.inj h).symm⟩
  have geti : ∀ {k : Nat} {i : Nat × Nat}, k < nc.length → (sp ++ [(n, n + (accepted a).length)])[k]? = some i → sp[k]? = some i := by
    intro k i hk h
    rwa [List.getElem?_append_left (by rw [ha.length]; exact hk)] at h
  have gete : ∀ {i : Nat × Nat}, (sp ++ [(n, n + (accepted a).length)])[nc.length]? = some i → i = (n, n + (accepted a).length) := by
    intro i h
    rw [← ha.length, List.getElem?_concat_length] at h
    exact (Option.some.inj h).symm
  refine ⟨by rw [List.length_append, List.length_append, ha.length]; rfl, ?_, ?_, ?_, ?_⟩
  · intro i hi
    rw [hacc]
    rcases List.mem_append.1 hi with hi | hi
    · exact ha.bound i hi
    · rw [List.mem_singleton] at hi; subst hi; exact ⟨le_rfl, le_rfl⟩
  · rw [List.pairwise_append]
    refine ⟨ha.nested, List.pairwise_singleton _ _, fun i hi j hj => Or.inr ?_⟩
    rw [List.mem_singleton] at hj; subst hj
    exact ha.bound i hi
  · intro k c i hc hi z hz
    rcases get hc with ⟨hk, hc⟩ | ⟨rfl, rfl⟩
    · exact ha.inside k c i hc (geti hk hi) z hz
    · rw [gete hi]
      obtain ⟨x, hx, _, rfl⟩ := mem_forKey.1 hz
      exact tags_bound hx
  · intro k c i hc hi x hx h1 h2 h3 k' c' hc' hx'
    rw [hacc] at hx
    rcases get hc' with ⟨hk', hc'⟩ | ⟨rfl, _⟩
    · rcases get hc with ⟨hk, hc⟩ | ⟨rfl, rfl⟩
      · exact ha.last k c i hc (geti hk hi) x hx h1 h2 h3 k' c' hc' hx'
      · exfalso
        obtain ⟨y, hy, ey⟩ := hhigh x hx h3
        have := hall.mem_iff.1 (List.mem_flatMap.2 ⟨c', List.mem_of_getElem? hc', hx'⟩)
        unfold notOpen at this
        obtain ⟨x', hx1, hx2⟩ := List.mem_map.1 this
        rw [List.mem_filter] at hx1
        have e := tags_inj hx1.1 hx hx2
        subst e
        exact of_decide_eq_true hx1.2 y hy ey
    · rcases get hc with ⟨hk, _⟩ | ⟨rfl, _⟩
      · omega
      · exact le_rfl

/-- If a plane of a node contains an edge, then the edge goes to that node or a higher one. -/
theorem high_key {anc m : Anc} {r : PlaneRef} {t t' : Bool} {fl : Open} (hfl : fl.map Prod.fst = anc.map Prod.fst) {x : Tag} (hb : BorderOK (anc ++ [(r, t)] ++ m) x.p)
    (he : x.p.poly.edges[x.entry.edge]? = some x.e) (h : AtEdge x.p.poly x.entry.edge r.plane) : ∃ y ∈ fl ++ [(r, t')], x.key = some y.1.path := by
  have h3 := (hb.edges _ _ he).2.2.1
  obtain ⟨c, hc, e1, _⟩ := highest_same (A := anc ++ [(r, t)]) h3 h3 rfl (fun _ _ => Iff.rfl) ⟨(r, t), by simp, h⟩
  have hc' : c.1 ∈ (fl ++ [(r, t')]).map Prod.fst := by
    rw [List.map_append, hfl]
    rcases List.mem_append.1 hc with hc | hc
    · exact List.mem_append_left _ (List.mem_map_of_mem hc)
    · rw [List.mem_singleton] at hc; subst hc; simp
  obtain ⟨y, hy, ey⟩ := List.mem_map.1 hc'
  exact ⟨y, hy, by rw [key_of_split e1, ey]⟩

theorem faces_spans {base : Anc} {anc : Anc} {tr : List Visit} (h : Faces base anc tr) : ∀ {fl : Open}, fl.map Prod.fst = anc.map Prod.fst → LenOK fl → ∀ s, AtOpen fl s →
    ∃ s' nc sp, RunOf fl tr s s' nc ∧ Spans s.polygons.length tr nc sp := by
  induction h with
  | nil => intro fl _ _ s hs; exact ⟨s, [], [], .nil hs, .none⟩
  | @leaf anc l _ ih =>
    intro fl h1 h2 s hs
    obtain ⟨s', nc, sp, h, g⟩ := ih h1 h2 s hs
    exact ⟨s', _, _, (RunOf.leaf hs).append h, Spans.append (a := [.leaf]) .none g⟩
  | @accept anc p l hp _ _ _ ih =>
    intro fl h1 h2 s hs
    obtain ⟨s1, r1⟩ := RunOf.accept h2 (border_ptrs hp h1) hs
    obtain ⟨s', nc, sp, h, g⟩ := ih h1 h2 s1 r1.at'
    rw [r1.length] at g
    exact ⟨s', _, _, r1.append h, Spans.append .none g⟩
  | @node anc r a b m hr ha hb _ iha ihb ihm =>
    intro fl h1 h2 s hs
    have hlen : r.path.length = fl.length := by
      rw [hr, List.length_map]
      have := congrArg List.length h1
      simpa using this.symm
    have hm : ∀ t, (fl ++ [(r, true)]).map Prod.fst = (anc ++ [(r, t)]).map Prod.fst := by
      intro t; rw [List.map_append, List.map_append, h1]; rfl
    obtain ⟨s1, n1, p1, r1, g1⟩ := iha (hm _) (h2.append hlen true) _ (hs.enter hlen)
    obtain ⟨s2, n2, p2, r2, g2⟩ := ihb (hm _) (h2.append hlen true) s1 r1.at'
    rw [r1.length] at g2
    have r12 := r1.append r2
    obtain ⟨s3, r3⟩ := RunOf.bracket h2 hlen hs r12
    have g3 := (g1.append g2).bracket (fl := fl) (r := r) (t := true) r12.all (by
      intro x hx hat
      rw [accepted_append, tags_append] at hx
      rcases List.mem_append.1 hx with hx | hx
      · obtain ⟨j, hj, _, hxe⟩ := mem_tags hx
        obtain ⟨m, bx, _⟩ := ha.accepted_ok x.p (List.mem_of_getElem? hj)
        exact high_key h1 bx hxe hat
      · obtain ⟨j, hj, _, hxe⟩ := mem_tags hx
        obtain ⟨m, bx, _⟩ := hb.accepted_ok x.p (List.mem_of_getElem? hj)
        exact high_key h1 bx hxe hat)
    obtain ⟨s4, n4, p4, r4, g4⟩ := ihm h1 h2 s3 r3.at'
    rw [r3.length] at g4
    have := r3.append r4
    rw [show (Visit.enter true r :: (a ++ (b ++ .leave true r :: m))) = (.enter true r :: (a ++ b ++ [.leave true r])) ++ m by simp]
    exact ⟨s4, _, _, this, g3.append g4⟩

theorem placed_spans {anc : Anc} {tr : List Visit} (h : Placed anc tr) : ∀ {fl : Open}, fl.map Prod.fst = anc.map Prod.fst → LenOK fl → ∀ s, AtOpen fl s →
    ∃ s' nc sp, RunOf fl tr s s' nc ∧ Spans s.polygons.length tr nc sp := by
  induction h with
  | faces h =>
    intro fl h1 h2 s hs
    exact faces_spans h h1 h2 s hs
  | @node anc r a b hr ha hb iha ihb =>
    intro fl h1 h2 s hs
    have hlen : r.path.length = fl.length := by
      rw [hr, List.length_map]
      have := congrArg List.length h1
      simpa using this.symm
    have hm : ∀ t, (fl ++ [(r, false)]).map Prod.fst = (anc ++ [(r, t)]).map Prod.fst := by
      intro t; rw [List.map_append, List.map_append, h1]; rfl
    obtain ⟨s1, n1, p1, r1, g1⟩ := iha (hm _) (h2.append hlen false) _ (hs.enter hlen)
    obtain ⟨s2, n2, p2, r2, g2⟩ := ihb (hm _) (h2.append hlen false) s1 r1.at'
    rw [r1.length] at g2
    have r12 := r1.append r2
    obtain ⟨s3, r3⟩ := RunOf.bracket h2 hlen hs r12
    have g3 := (g1.append g2).bracket (fl := fl) (r := r) (t := false) r12.all (by
      intro x hx hat
      rw [accepted_append, tags_append] at hx
      rcases List.mem_append.1 hx with hx | hx
      · obtain ⟨j, hj, _, hxe⟩ := mem_tags hx
        obtain ⟨m, bx, _⟩ := ha.accepted_ok x.p (List.mem_of_getElem? hj)
        exact high_key h1 bx hxe hat
      · obtain ⟨j, hj, _, hxe⟩ := mem_tags hx
        obtain ⟨m, bx, _⟩ := hb.accepted_ok x.p (List.mem_of_getElem? hj)
        exact high_key h1 bx hxe hat)
    have e : Visit.enter false r :: (a ++ (b ++ [.leave false r])) = .enter false r :: (a ++ b ++ [.leave false r]) := by rw [List.append_assoc]
    rw [e]
    exact ⟨s3, _, _, r3, g3⟩

/-- The spans of the calls of a traversal. -/
theorem calls_spans {aabb : Bool} {t : Node} {S : List Source} (h : Reach aabb t S) (hset : Bsp.Settled t) {v : IsInside} {choose : Choose} {group : Group}
    (hg : Grouping group) {pfuel fuel : Nat} {t' : Node} {tr : List Visit} (ht : traverse v choose group pfuel fuel t = some (t', tr))
    {s : ConnState} (hs : connRun tr {} = some s) : ∃ sp, Spans 0 tr s.calls sp := by
  have hp : Placed [] tr := run_placed hg t AncOK.nil h.spec.1 hset ht
  obtain ⟨s', nc, sp, h1, h2⟩ := placed_spans hp (fl := []) rfl (by intro i x hx; simp at hx) {} ⟨rfl, rfl⟩
  have : s' = s := by have := h1.run; rw [hs] at this; exact (Option.some.inj this).symm
  subst this
  have e : s'.calls = nc := by have := h1.calls; simpa using this
  subst e
  exact ⟨sp, h2⟩

end Walnut.Bsp
