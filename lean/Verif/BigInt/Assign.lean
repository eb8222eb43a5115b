/- `+=` / `-=` agree with `+` / `-` on distinct objects, and are undefined on
the same object outside of the half word path. -/
import Verif.BigInt.AssignModel
import Verif.BigInt.AddSub

namespace Walnut.BigInt

def opTailR (op : Word → Word → Bool → Word × Bool) (ea : Word) : List Word → Bool → List Word × Bool
  | [], c => ([], c)
  | b :: bs, c =>
    let t := opTailR op ea bs (op ea b c).2
    ((op ea b c).1 :: t.1, t.2)

def opTailL (op : Word → Word → Bool → Word × Bool) (eb : Word) : List Word → Bool → List Word × Bool
  | [], c => ([], c)
  | a :: as, c =>
    let t := opTailL op eb as (op a eb c).2
    ((op a eb c).1 :: t.1, t.2)

def opZip (op : Word → Word → Bool → Word × Bool) : List Word → List Word → Bool → List Word × Bool
  | a :: as, b :: bs, c =>
    let t := opZip op as bs (op a b c).2
    ((op a b c).1 :: t.1, t.2)
  | _, _, c => ([], c)

theorem set_mid {α} (pre post : List α) (x y : α) {i : Nat} (h : i = pre.length) :
    (pre ++ x :: post).set i y = pre ++ y :: post := by
  subst h; simp

theorem rd_mid (pre post : List (Option Word)) (x : Word) {i : Nat} (h : i = pre.length) :
    rd (pre ++ some x :: post) i = some x := by
  subst h; simp [rd]

theorem loop1 (op : Word → Word → Bool → Word × Bool) (b : List Word) :
    ∀ (as bs : List Word) (bpre : List Word) (pre post : List (Option Word)) (c : Bool),
    b = bpre ++ bs → bpre.length = pre.length →
    assignLoop op (fun m i => (rd m i).bind fun x => (otherRd (some b) m i).map fun y => (x, y))
      (min as.length bs.length) pre.length (pre ++ as.map some ++ post) c
    = some (pre ++ (opZip op as bs c).1.map some ++ (as.drop bs.length).map some ++ post,
        (opZip op as bs c).2)
  | [], bs, bpre, pre, post, c, hb, hl => by simp [assignLoop, opZip]
  | a :: as, [], bpre, pre, post, c, hb, hl => by simp [assignLoop, opZip]
  | a :: as, b' :: bs, bpre, pre, post, c, hb, hl => by
    have e : min (a :: as).length (b' :: bs).length = min as.length bs.length + 1 := by
      simp only [List.length_cons]; omega
    have e1 : rd (pre ++ (a :: as).map some ++ post) pre.length = some a := by
      simp [rd]
    have e2 : otherRd (some b) (pre ++ (a :: as).map some ++ post) pre.length = some b' := by
      simp [otherRd, hb, ← hl]
    have e3 : (pre ++ (a :: as).map some ++ post).set pre.length (some (op a b' c).1)
        = (pre ++ [some (op a b' c).1]) ++ as.map some ++ post := by simp
    have e4 : pre.length + 1 = (pre ++ [some (op a b' c).1]).length := by simp
    rw [e, assignLoop]
    simp only [e1, e2, Option.bind_some, Option.map_some, e3]
    rw [e4]
    have ih := loop1 op b as bs (bpre ++ [b']) (pre ++ [some (op a b' c).1]) post (op a b' c).2
      (by simp [hb]) (by simp [hl])
    rw [ih]
    simp [opZip]

theorem loop2 (op : Word → Word → Bool → Word × Bool) (eb : Word) :
    ∀ (as : List Word) (pre post : List (Option Word)) (c : Bool),
    assignLoop op (fun m i => (rd m i).map fun x => (x, eb))
      as.length pre.length (pre ++ as.map some ++ post) c
    = some (pre ++ (opTailL op eb as c).1.map some ++ post, (opTailL op eb as c).2)
  | [], pre, post, c => by simp [assignLoop, opTailL]
  | a :: as, pre, post, c => by
    have e1 : rd (pre ++ (a :: as).map some ++ post) pre.length = some a := by simp [rd]
    have e3 : (pre ++ (a :: as).map some ++ post).set pre.length (some (op a eb c).1)
        = (pre ++ [some (op a eb c).1]) ++ as.map some ++ post := by simp
    have e4 : pre.length + 1 = (pre ++ [some (op a eb c).1]).length := by simp
    rw [List.length_cons, assignLoop]
    simp only [e1, Option.map_some, e3]
    rw [e4]
    have ih := loop2 op eb as (pre ++ [some (op a eb c).1]) post (op a eb c).2
    rw [ih]
    simp [opTailL]

theorem loop3 (op : Word → Word → Bool → Word × Bool) (ea : Word) (b : List Word) :
    ∀ (bs : List Word) (pre : List (Option Word)) (n : Nat) (c : Bool),
    (∀ (j : Nat) (x : Word), bs[j]? = some x → b[pre.length + j]? = some x) →
    assignLoop op (fun m i => (otherRd (some b) m i).map fun y => (ea, y))
      bs.length pre.length (pre ++ List.replicate (bs.length + n) none) c
    = some (pre ++ (opTailR op ea bs c).1.map some ++ List.replicate n none,
        (opTailR op ea bs c).2)
  | [], pre, n, c, _ => by simp [assignLoop, opTailR]
  | b' :: bs, pre, n, c, hb => by
    have e2 : ∀ m, otherRd (some b) m pre.length = some b' := fun m => hb 0 b' rfl
    have e3 : (pre ++ List.replicate ((b' :: bs).length + n) none).set pre.length
        (some (op ea b' c).1)
        = (pre ++ [some (op ea b' c).1]) ++ List.replicate (bs.length + n) none := by
      rw [List.length_cons, show bs.length + 1 + n = bs.length + n + 1 by omega,
        List.replicate_succ]; simp
    have e4 : pre.length + 1 = (pre ++ [some (op ea b' c).1]).length := by simp
    rw [show (b' :: bs).length = bs.length + 1 from rfl, assignLoop]
    rw [show bs.length + 1 = (b' :: bs).length from rfl]
    simp only [e2, Option.map_some, e3]
    rw [e4, loop3 op ea b bs (pre ++ [some (op ea b' c).1]) n (op ea b' c).2 (by
      intro j x hx
      have := hb (j + 1) x (by simpa using hx)
      rw [← this]; congr 1; simp; omega)]
    simp [opTailR]

theorem allInit_map (ws : List Word) : allInit (ws.map some) = some ws := by
  induction ws with
  | nil => rfl
  | cons w ws ih => simp [allInit, ih]

theorem opZip_length (op) : ∀ (as bs : List Word) (c : Bool),
    (opZip op as bs c).1.length = min as.length bs.length
  | [], bs, c => by simp [opZip]
  | a :: as, [], c => by simp [opZip]
  | a :: as, b :: bs, c => by simp [opZip, opZip_length op as bs]

theorem opTailL_length (op) (e : Word) : ∀ (as : List Word) (c : Bool),
    (opTailL op e as c).1.length = as.length
  | [], c => rfl
  | a :: as, c => by simp [opTailL, opTailL_length op e as]

theorem opTailR_length (op) (e : Word) : ∀ (as : List Word) (c : Bool),
    (opTailR op e as c).1.length = as.length
  | [], c => rfl
  | a :: as, c => by simp [opTailR, opTailR_length op e as]

/-- The words computed by the three loops and the final store. -/
def opAll (op : Word → Word → Bool → Word × Bool) (ea eb : Word) (a b : List Word) : List Word :=
  let z := opZip op a b false
  let l := opTailL op eb (a.drop b.length) z.2
  let r := opTailR op ea (b.drop a.length) l.2
  z.1 ++ l.1 ++ r.1 ++ [(op ea eb r.2).1]

theorem assignSlow_other (op : Word → Word → Bool → Word × Bool) (a b : List Word) :
    assignSlow op a (some b) = some (trim (opAll op (signExtension a) (signExtension b) a b)) := by
  unfold assignSlow
  simp only [otherUsed, Option.getD_some]
  have h1 := loop1 op b a b [] [] (List.replicate (max a.length b.length + 1 - a.length) none) false
    rfl rfl
  simp only [List.nil_append, List.length_nil] at h1
  rw [h1, Option.bind_some]
  simp only
  have hz := opZip_length op a b false
  generalize hZ : opZip op a b false = z at *
  have h2 := loop2 op (signExtension b) (a.drop b.length) (z.1.map some)
    (List.replicate (max a.length b.length + 1 - a.length) none) z.2
  rw [List.length_drop, List.length_map, hz] at h2
  rw [show a.length - min a.length b.length = a.length - b.length by omega, h2, Option.bind_some]
  simp only
  have hl := opTailL_length op (signExtension b) (a.drop b.length) z.2
  rw [List.length_drop] at hl
  generalize hL : opTailL op (signExtension b) (a.drop b.length) z.2 = l at *
  have hpl : (z.1.map some ++ l.1.map some : List (Option Word)).length = a.length := by
    simp [hz, hl]; omega
  have h3 := loop3 op (signExtension a) b (b.drop a.length) (z.1.map some ++ l.1.map some) 1 l.2
    (by rw [hpl]; simp [List.getElem?_drop])
  rw [hpl, List.length_drop] at h3
  rw [show max a.length b.length + 1 - a.length = b.length - a.length + 1 by omega, h3,
    Option.bind_some]
  simp only
  have hr := opTailR_length op (signExtension a) (b.drop a.length) l.2
  rw [List.length_drop] at hr
  generalize hR : opTailR op (signExtension a) (b.drop a.length) l.2 = r at *
  unfold assignFinish
  rw [if_pos (by simp [hz, hl, hr]; omega)]
  rw [List.replicate_one, set_mid _ _ _ _ (by simp [hz, hl, hr]; omega)]
  have : ∀ w : Word, (z.1.map some ++ l.1.map some ++ r.1.map some ++ [some w] : List (Option Word))
      = (z.1 ++ l.1 ++ r.1 ++ [w]).map some := by simp
  rw [this, allInit_map]
  simp [opAll, hZ, hL, hR]

theorem addTailR_eq (ea eb : Word) : ∀ (bs : List Word) (c : Bool),
    addTailR ea eb bs c = (opTailR Word.addC ea bs c).1 ++
      [(Word.addC ea eb (opTailR Word.addC ea bs c).2).1]
  | [], c => rfl
  | b :: bs, c => by simp [addTailR, opTailR, addTailR_eq ea eb bs]

theorem addTailL_eq (ea eb : Word) : ∀ (bs : List Word) (c : Bool),
    addTailL ea eb bs c = (opTailL Word.addC eb bs c).1 ++
      [(Word.addC ea eb (opTailL Word.addC eb bs c).2).1]
  | [], c => rfl
  | b :: bs, c => by simp [addTailL, opTailL, addTailL_eq ea eb bs]

theorem addLoop_eq (ea eb : Word) : ∀ (a b : List Word) (c : Bool),
    addLoop ea eb a b c =
      (opZip Word.addC a b c).1 ++
      (opTailL Word.addC eb (a.drop b.length) (opZip Word.addC a b c).2).1 ++
      (opTailR Word.addC ea (b.drop a.length)
        (opTailL Word.addC eb (a.drop b.length) (opZip Word.addC a b c).2).2).1 ++
      [(Word.addC ea eb (opTailR Word.addC ea (b.drop a.length)
        (opTailL Word.addC eb (a.drop b.length) (opZip Word.addC a b c).2).2).2).1]
  | [], b, c => by simp [addLoop, addTailR_eq, opZip, opTailL]
  | a :: as, [], c => by simp [addLoop, addTailL_eq, opZip, opTailR]
  | a :: as, b :: bs, c => by simp [addLoop, opZip, addLoop_eq ea eb as bs]

theorem subTailR_eq (ea eb : Word) : ∀ (bs : List Word) (c : Bool),
    subTailR ea eb bs c = (opTailR Word.subC ea bs c).1 ++
      [(Word.subC ea eb (opTailR Word.subC ea bs c).2).1]
  | [], c => rfl
  | b :: bs, c => by simp [subTailR, opTailR, subTailR_eq ea eb bs]

theorem subTailL_eq (ea eb : Word) : ∀ (bs : List Word) (c : Bool),
    subTailL ea eb bs c = (opTailL Word.subC eb bs c).1 ++
      [(Word.subC ea eb (opTailL Word.subC eb bs c).2).1]
  | [], c => rfl
  | b :: bs, c => by simp [subTailL, opTailL, subTailL_eq ea eb bs]

theorem subLoop_eq (ea eb : Word) : ∀ (a b : List Word) (c : Bool),
    subLoop ea eb a b c =
      (opZip Word.subC a b c).1 ++
      (opTailL Word.subC eb (a.drop b.length) (opZip Word.subC a b c).2).1 ++
      (opTailR Word.subC ea (b.drop a.length)
        (opTailL Word.subC eb (a.drop b.length) (opZip Word.subC a b c).2).2).1 ++
      [(Word.subC ea eb (opTailR Word.subC ea (b.drop a.length)
        (opTailL Word.subC eb (a.drop b.length) (opZip Word.subC a b c).2).2).2).1]
  | [], b, c => by simp [subLoop, subTailR_eq, opZip, opTailL]
  | a :: as, [], c => by simp [subLoop, subTailL_eq, opZip, opTailR]
  | a :: as, b :: bs, c => by simp [subLoop, opZip, subLoop_eq ea eb as bs]

theorem addAssign_other (a b : List Word) : addAssign a (some b) = some (add a b) := by
  unfold addAssign add
  simp only [Option.getD_some]
  split
  · rfl
  · rw [assignSlow_other, addSlow, addLoop_eq]; rfl

theorem subAssign_other (a b : List Word) : subAssign a (some b) = some (sub a b) := by
  unfold subAssign sub
  simp only [Option.getD_some]
  split
  · rfl
  · rw [assignSlow_other, subSlow, subLoop_eq]; rfl

/-! ### Aliasing -/

theorem assignLoop_shape (op : Word → Word → Bool → Word × Bool)
    (src : List (Option Word) → Nat → Option (Word × Word)) :
    ∀ (steps i : Nat) (mem mem' : List (Option Word)) (c c' : Bool),
    assignLoop op src steps i mem c = some (mem', c') →
    mem'.length = mem.length ∧ ∀ j, i + steps ≤ j → mem'[j]? = mem[j]?
  | 0, i, mem, mem', c, c', h => by
    simp only [assignLoop, Option.some.injEq, Prod.mk.injEq] at h
    rw [← h.1]; exact ⟨rfl, fun _ _ => rfl⟩
  | steps + 1, i, mem, mem', c, c', h => by
    rw [assignLoop] at h
    split at h
    · simp at h
    · obtain ⟨h1, h2⟩ := assignLoop_shape op src _ _ _ _ _ _ h
      refine ⟨by rw [h1]; simp, fun j hj => ?_⟩
      rw [h2 j (by omega), List.getElem?_set_ne (by omega)]

theorem assignSlow_self (op : Word → Word → Bool → Word × Bool) (a : List Word) :
    assignSlow op a none = none := by
  unfold assignSlow
  simp only [otherUsed, Option.getD_none, List.length_map, Nat.max_self, Nat.min_self,
    Nat.sub_self]
  rw [Option.bind_eq_none_iff]
  intro s1 h1
  simp only [assignLoop, Option.bind_some]
  obtain ⟨hl, hg⟩ := assignLoop_shape op _ _ _ _ _ _ _ (show _ = some (s1.1, s1.2) from h1)
  have hlen : s1.1.length = a.length + 1 := by rw [hl]; simp
  have hrd : rd s1.1 a.length = none := by
    unfold rd
    rw [hg a.length (by omega)]
    simp
  rw [hlen, show a.length + 1 - a.length = 0 + 1 by omega]
  simp only [assignLoop, otherRd, hrd]
  rfl

end Walnut.BigInt
