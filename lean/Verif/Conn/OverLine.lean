/-
Which half-edges are over a location of a line.
-/
import Verif.Conn.PlaneSpec
import Verif.Bsp.GenericLine

namespace Walnut.Conn
open Walnut.Geom Walnut.Poly Walnut.Props
open Walnut.Bsp (sig sig_sq sig_ne Between Ev parallel_of_cross)

theorem onLine_cross {l : PL} {a b : Q3} (h : EdgeLine l a b) (p : Q3) : OnLine l p ↔ crossQ (p - a) (b - a) = 0 := by
  obtain ⟨hon, s, s0, hd⟩ := h
  unfold OnLine
  rw [← hon]
  have d0 := hd 0; have d1 := hd 1; have d2 := hd 2
  constructor
  · intro e
    have e0 := congrFun e 0; have e1 := congrFun e 1; have e2 := congrFun e 2
    simp only [crossQ_zero, crossQ_one, crossQ_two, d0, d1, d2] at e0 e1 e2
    funext i
    have : s * crossQ (p - a) (b - a) i = 0 := by
      fin_cases i <;> simp only [Fin.zero_eta, Fin.mk_one, Fin.reduceFinMk, crossQ_zero, crossQ_one, crossQ_two, Pi.sub_apply]
      · linarith
      · linarith
      · linarith
    exact (mul_eq_zero.1 this).resolve_left s0.ne'
  · intro e
    have e0 := congrFun e 0; have e1 := congrFun e 1; have e2 := congrFun e 2
    simp only [crossQ_zero, crossQ_one, crossQ_two, Pi.sub_apply, Pi.zero_apply] at e0 e1 e2
    funext i
    fin_cases i <;> simp only [Fin.zero_eta, Fin.mk_one, Fin.reduceFinMk, crossQ_zero, crossQ_one, crossQ_two, d0, d1, d2]
    · linear_combination s * e0
    · linear_combination s * e1
    · linear_combination s * e2

theorem cross_smul (u v : Q3) (c : ℚ) : crossQ u (c • v) = c • crossQ u v := by
  funext i
  fin_cases i <;> simp only [Fin.zero_eta, Fin.mk_one, Fin.reduceFinMk, crossQ_zero, crossQ_one, crossQ_two, Pi.smul_apply, smul_eq_mul] <;> ring

theorem cross_sub_smul (u v : Q3) (c : ℚ) : crossQ (u - c • v) v = crossQ u v := by
  funext i
  fin_cases i <;> simp only [Fin.zero_eta, Fin.mk_one, Fin.reduceFinMk, crossQ_zero, crossQ_one, crossQ_two, Pi.smul_apply, smul_eq_mul, Pi.sub_apply] <;> ring

/-- The line of the half-edge `e` goes through `A` in the direction of `D`. -/
def LineAt (N : Net) (e : Nat) (A D : Q3) : Prop := ∀ p, OnLine (N.line e) p ↔ crossQ (p - A) D = 0

theorem sameLine_of {N : Net} {e f : Nat} {A D a b : Q3} (he : LineAt N e A D) (hf : EdgeLine (N.line f) a b) {μ κ : ℚ} (hκ : κ ≠ 0) (ha : a = A + μ • D) (hb : b - a = κ • D) : SameLine3 N e f := by
  intro p
  rw [he p, onLine_cross hf p, hb, cross_smul, smul_eq_zero_iff_right hκ, ha, show p - (A + μ • D) = p - A - μ • D by abel, cross_sub_smul]

theorem of_sameLine {N : Net} {e f : Nat} {A D a b : Q3} (hD : D ≠ 0) (he : LineAt N e A D) (hf : EdgeLine (N.line f) a b) (hne : b ≠ a) (h : SameLine3 N e f) :
    ∃ μ κ : ℚ, κ ≠ 0 ∧ a = A + μ • D ∧ b - a = κ • D := by
  have oa : OnLine (N.line f) a := hf.on
  have ob : OnLine (N.line f) b := by
    rw [onLine_cross hf]
    funext i
    fin_cases i <;> simp only [Fin.zero_eta, Fin.mk_one, Fin.reduceFinMk, crossQ_zero, crossQ_one, crossQ_two, Pi.zero_apply] <;> ring
  have ca := (he a).1 ((h a).2 oa)
  have cb := (he b).1 ((h b).2 ob)
  obtain ⟨μ, hμ⟩ := parallel_of_cross hD ca
  obtain ⟨ν, hν⟩ := parallel_of_cross hD cb
  refine ⟨μ, ν - μ, ?_, ?_, ?_⟩
  · intro e0
    apply hne
    have : ν = μ := by linarith
    rw [this, ← hμ] at hν
    exact sub_left_injective hν
  · rw [← hμ]; abel
  · rw [sub_smul, ← hμ, ← hν]; abel

theorem ev_window (p q : ℚ) : Ev fun ε => (p ≤ 0 ∧ 0 < q) ↔ (p < ε ∧ ε < q) := by
  have pos : Ev fun ε : ℚ => 0 < ε := eventually_mem_nhdsWithin
  have small : ∀ {r : ℚ}, 0 < r → Ev fun ε : ℚ => ε < r := fun {r} hr =>
    (eventually_lt_nhds hr).filter_mono nhdsWithin_le_nhds
  rcases le_or_gt p 0 with hp | hp
  · rcases le_or_gt q 0 with hq | hq
    · filter_upwards [pos] with ε h
      constructor
      · rintro ⟨_, h'⟩; linarith
      · rintro ⟨_, h'⟩; linarith
    · filter_upwards [pos, small hq] with ε h h'
      exact ⟨fun _ => ⟨by linarith, h'⟩, fun _ => ⟨hp, hq⟩⟩
  · filter_upwards [small hp] with ε h
    constructor
    · rintro ⟨h', _⟩; linarith
    · rintro ⟨h', _⟩; linarith

theorem between_line {x a b D : Q3} (hD : D ≠ 0) {α κ ε : ℚ} (ha : a = x + α • D) (hb : b - a = κ • D) :
    Between a b (x + ε • D) ↔ ∃ s : ℚ, 0 < s ∧ s < 1 ∧ ε = α + s * κ := by
  constructor
  · rintro ⟨s, s0, s1, e⟩
    refine ⟨s, s0, s1, ?_⟩
    rw [hb, ha, smul_smul] at e
    have : (ε - (α + s * κ)) • D = 0 := by
      have e' : ε • D = α • D + (s * κ) • D := by
        have := congrArg (fun y => y - x) e
        simpa [add_assoc] using this
      rw [sub_smul, add_smul, e', sub_self]
    have := (smul_eq_zero.1 this).resolve_right hD
    linarith
  · rintro ⟨s, s0, s1, rfl⟩
    refine ⟨s, s0, s1, ?_⟩
    rw [hb, ha, smul_smul, add_smul, add_assoc]

/-- A half-edge is over the location `t` of a line if and only if it runs through the points
behind `t`. -/
theorem ev_over {N : Net} {e f : Nat} {A D a b : Q3} {k : Fin 3} (hk : 0 < D k) (he : LineAt N e A D) (hf : EdgeLine (N.line f) a b) (hva : (N.vertex f).pt = a) (htb : (N.target f).pt = b)
    (hne : b ≠ a) (t : ℚ) : Ev fun ε => ∀ β : Bool, (SameLine3 N e f ∧ N.lo k f ≤ t ∧ t < N.hi k f ∧ N.isPositive k f = β) ↔
      RunsThrough (A + ((t - A k) / D k) • D + ε • D) (sig β • D) (a, b) := by
  have hD : D ≠ 0 := by rintro rfl; simp at hk
  by_cases hs : SameLine3 N e f
  · obtain ⟨μ, κ, hκ, ha, hb⟩ := of_sameLine hD he hf hne hs
    obtain ⟨α, hα⟩ : ∃ α, α = μ - (t - A k) / D k := ⟨_, rfl⟩
    have ha' : a = A + ((t - A k) / D k) • D + α • D := by
      rw [ha, hα, sub_smul]; abel
    have ak : a k = t + α * D k := by
      rw [ha']
      simp only [Pi.add_apply, Pi.smul_apply, smul_eq_mul]
      rw [div_mul_cancel₀ _ hk.ne']; ring
    have bk : b k = t + (α + κ) * D k := by
      have : b k - a k = κ * D k := by
        have := congrFun hb k
        simpa using this
      rw [show b k = (b k - a k) + a k by ring, this, ak]; ring
    have pos : N.isPositive k f = decide (0 < κ) := by
      obtain ⟨s, s0, hd⟩ := hf.dir
      unfold Net.isPositive
      have hdk : (((N.line f).d.comp k : Int) : ℚ) = s * (κ * D k) := by
        have h1 := hd k
        have h2 := congrFun hb k
        simp only [Pi.sub_apply, Pi.smul_apply, smul_eq_mul] at h2
        rw [← h2, ← h1]; rfl
      refine decide_eq_decide.2 ?_
      rw [← Int.cast_nonneg_iff (R := ℚ), hdk]
      constructor
      · intro h
        rcases lt_or_gt_of_ne hκ with c | c
        · have := mul_pos s0 (mul_pos (neg_pos.2 c) hk)
          linarith
        · exact c
      · intro h
        exact (mul_pos s0 (mul_pos h hk)).le
    generalize hx : A + ((t - A k) / D k) • D = x at *
    have runs : ∀ (β : Bool) (ε : ℚ), RunsThrough (x + ε • D) (sig β • D) (a, b) ↔ (∃ s : ℚ, 0 < s ∧ s < 1 ∧ ε = α + s * κ) ∧ decide (0 < κ) = β := by
      intro β ε
      unfold RunsThrough
      rw [← between_line hD ha' hb]
      refine and_congr_right fun _ => ?_
      simp only [hb]
      constructor
      · rintro ⟨k', k0, e⟩
        rw [smul_smul] at e
        have e' : (κ - k' * sig β) • D = 0 := by rw [sub_smul, e, sub_self]
        have : κ = k' * sig β := by have := (smul_eq_zero.1 e').resolve_right hD; linarith
        rw [this]
        cases β
        · simp only [sig, Bool.false_eq_true, if_false]
          exact decide_eq_false (by linarith)
        · simp only [sig, if_true]
          exact decide_eq_true (by linarith)
      · intro e
        refine ⟨κ * sig β, ?_, by rw [smul_smul, mul_assoc, sig_sq, mul_one]⟩
        rcases lt_or_gt_of_ne hκ with c | c
        · have : β = false := by rw [← e]; exact decide_eq_false (by linarith)
          rw [this]; simp only [sig, Bool.false_eq_true, if_false]; linarith
        · have : β = true := by rw [← e]; exact decide_eq_true c
          rw [this]; simp only [sig, if_true]; linarith
    rcases lt_or_gt_of_ne hκ with c | c
    · have pf : N.isPositive k f = false := by rw [pos]; exact decide_eq_false (by linarith)
      have lo : N.lo k f = b k := by unfold Net.lo Net.loPt; rw [pf, ← htb]; rfl
      have hi : N.hi k f = a k := by unfold Net.hi Net.hiPt; rw [pf, ← hva]; rfl
      filter_upwards [ev_window (α + κ) α] with ε hε β
      rw [runs, lo, hi, ak, bk, pos]
      have w : (∃ s : ℚ, 0 < s ∧ s < 1 ∧ ε = α + s * κ) ↔ (α + κ < ε ∧ ε < α) := by
        constructor
        · rintro ⟨s, s0, s1, rfl⟩
          constructor <;> nlinarith
        · rintro ⟨h1, h2⟩
          refine ⟨(ε - α) / κ, div_pos_of_neg_of_neg (by linarith) c, ?_, by field_simp; ring⟩
          rw [div_lt_one_of_neg c]; linarith
      rw [w, ← hε]
      constructor
      · rintro ⟨_, h1, h2, h3⟩
        exact ⟨⟨by nlinarith, by nlinarith⟩, h3⟩
      · rintro ⟨⟨h1, h2⟩, h3⟩
        exact ⟨hs, by nlinarith, by nlinarith, h3⟩
    · have pf : N.isPositive k f = true := by rw [pos]; exact decide_eq_true c
      have lo : N.lo k f = a k := by unfold Net.lo Net.loPt; rw [pf, ← hva]; rfl
      have hi : N.hi k f = b k := by unfold Net.hi Net.hiPt; rw [pf, ← htb]; rfl
      filter_upwards [ev_window α (α + κ)] with ε hε β
      rw [runs, lo, hi, ak, bk, pos]
      have w : (∃ s : ℚ, 0 < s ∧ s < 1 ∧ ε = α + s * κ) ↔ (α < ε ∧ ε < α + κ) := by
        constructor
        · rintro ⟨s, s0, s1, rfl⟩
          constructor <;> nlinarith
        · rintro ⟨h1, h2⟩
          refine ⟨(ε - α) / κ, div_pos (by linarith) c, ?_, by field_simp; ring⟩
          rw [div_lt_one c]; linarith
      rw [w, ← hε]
      constructor
      · rintro ⟨_, h1, h2, h3⟩
        exact ⟨⟨by nlinarith, by nlinarith⟩, h3⟩
      · rintro ⟨⟨h1, h2⟩, h3⟩
        exact ⟨hs, by nlinarith, by nlinarith, h3⟩
  · refine Filter.Eventually.of_forall fun ε β => ⟨fun h => absurd h.1 hs, ?_⟩
    rintro ⟨⟨s, _, _, es⟩, k', k0, e⟩
    exfalso
    apply hs
    simp only at es e
    refine sameLine_of he hf (μ := (t - A k) / D k + ε - s * (k' * sig β)) (κ := k' * sig β) (mul_ne_zero k0.ne' (sig_ne β)) ?_ (by rw [e, smul_smul])
    rw [e, smul_smul, smul_smul] at es
    have : a = A + ((t - A k) / D k) • D + ε • D - (s * (k' * sig β)) • D := by rw [es, ← mul_assoc, add_sub_cancel_right]
    rw [this, sub_smul, add_smul]; abel

end Walnut.Conn
