import Verif.DetManip.Remove
import Mathlib.Data.Rat.Lemmas

/-!
# det_manip: properties over all histories

A history is any sequence of calls of the public functions; `Reach e s X Y` says that some history leads to the object `s` while the same
insertions, deletions and replacements performed on two ordinary lists lead to `X` and `Y`. `swap` of two objects is included when both have
the same `kmax` (see `Neg.lean` for the other case).
-/

namespace Verif.DetManip

open Matrix

set_option linter.unusedSectionVars false

/-! ## Specification -/

/-- what a user asks for -/
inductive Op (X Y : Type) where
  | insert (i j : Int) (x : X) (y : Y)
  | insertK (i j : List Int) (x : List X) (y : List Y)
  | remove (i j : Int)
  | removeK (i j : List Int)
  | changeCol (j : Int) (y : Y)
  | changeRow (i : Int) (x : X)
  | changeColRow (i j : Int) (x : X) (y : Y)
  | refill (x : List X) (y : List Y)

/-- `l'` is `l` with `v` inserted so that `v[a]` is at position `p[a]` of the result -/
structure Inserted {α : Type} (p : List Int) (v l l' : List α) : Prop where
  length : l'.length = l.length + p.length
  pos : ∀ a ∈ p, 0 ≤ a ∧ a < l'.length
  new : ∀ a < p.length, l'[(p.getD a 0).toNat]? = v[a]?
  old : removeAt (p.map Int.toNat) l' = l

/-- the effect of an operation on the two lists of arguments -/
def Op.Spec {X Y : Type} : Op X Y → List X → List Y → List X → List Y → Prop
  | .insert i j x y, X, Y, X', Y' => (0 ≤ i ∧ i ≤ X.length ∧ X' = X.insertIdx i.toNat x) ∧ (0 ≤ j ∧ j ≤ Y.length ∧ Y' = Y.insertIdx j.toNat y)
  | .insertK i j x y, X, Y, X', Y' => Inserted i x X X' ∧ Inserted j y Y Y'
  | .remove i j, X, Y, X', Y' => (0 ≤ i ∧ i < X.length ∧ X' = X.eraseIdx i.toNat) ∧ (0 ≤ j ∧ j < Y.length ∧ Y' = Y.eraseIdx j.toNat)
  | .removeK i j, X, Y, X', Y' => ((∀ a ∈ i, 0 ≤ a ∧ a < X.length) ∧ X' = removeAt (i.map Int.toNat) X) ∧
      ((∀ a ∈ j, 0 ≤ a ∧ a < Y.length) ∧ Y' = removeAt (j.map Int.toNat) Y)
  | .changeCol j y, X, Y, X', Y' => X' = X ∧ (0 ≤ j ∧ j < Y.length ∧ Y' = Y.set j.toNat y)
  | .changeRow i x, X, Y, X', Y' => (0 ≤ i ∧ i < X.length ∧ X' = X.set i.toNat x) ∧ Y' = Y
  | .changeColRow i j x y, X, Y, X', Y' => (0 ≤ i ∧ i < X.length ∧ X' = X.set i.toNat x) ∧ (0 ≤ j ∧ j < Y.length ∧ Y' = Y.set j.toNat y)
  | .refill x y, _, _, X', Y' => X' = x ∧ Y' = y

/-- exchange of two entries of a list -/
def exchange {α : Type} [Inhabited α] (i j : Int) (l : List α) : List α :=
  if i = j then l else (l.set i.toNat (l.getD j.toNat default)).set j.toNat (l.getD i.toNat default)

section
variable {X Y K : Type} [Inhabited X] [Inhabited Y] [Field K] [DecidableEq K]

/-- the try function called for an operation -/
def tryOp (e : Env X Y K) (s : State X Y K) : Op X Y → Res (State X Y K) K
  | .insert i j x y => tryInsert e s i j x y
  | .insertK i j x y => tryInsertK e s i j x y
  | .remove i j => tryRemove s i j
  | .removeK i j => tryRemoveK s i j
  | .changeCol j y => tryChangeCol e s j y
  | .changeRow i x => tryChangeRow e s i x
  | .changeColRow i j x y => tryChangeColRow e s i j x y
  | .refill x y => tryRefill e s x y

/-- histories -/
inductive Reach (e : Env X Y K) : State X Y K → List X → List Y → Prop
  | init (n : Nat) : Reach e (ctorSize n) [] []
  | ctor {x y u s} : ctor e x y = .ok u s → Reach e s x y
  | accept {s X Y o r s1 u s2 X' Y'} : Reach e s X Y → tryOp e s o = .ok r s1 → o.Spec X Y X' Y' → completeOperation e s1 = .ok u s2 → Reach e s2 X' Y'
  | reject {s X Y o r s1} : Reach e s X Y → tryOp e s o = .ok r s1 → Reach e (rejectLastTry s1) X Y
  | refused {s X Y o s1} : Reach e s X Y → tryOp e s o = .throws s1 → Reach e (rejectLastTry s1) X Y
  | swapRow {s X Y i j u s1} : Reach e s X Y → swapRow s i j = .ok u s1 → Reach e s1 (exchange i j X) Y
  | swapCol {s X Y i j u s1} : Reach e s X Y → swapCol s i j = .ok u s1 → Reach e s1 X (exchange i j Y)
  | roll {s X Y d v s1} : Reach e s X Y → rollMatrix s d = .ok v s1 → Reach e s1 (d.onX X) (d.onY Y)
  | regenerate {s X Y u s1} : Reach e s X Y → regenerate e s = .ok u s1 → Reach e s1 X Y
  | determinant {s X Y d s1} : Reach e s X Y → determinant e s = .ok d s1 → Reach e s1 X Y
  | clear {s X Y} : Reach e s X Y → Reach e (clear s) [] []
  | reserve {s X Y} (n : Int) (k : Nat) : Reach e s X Y → Reach e (reserve s n k) X Y
  | options {s X Y} (m : Nat) (a b c : ℚ) : Reach e s X Y →
      Reach e { s with nOptsMax := m, singularThreshold := a, precisionWarning := b, precisionError := c } X Y
  | swap {a b Xa Ya Xb Yb} : Reach e a Xa Ya → Reach e b Xb Yb → a.kmax = b.kmax → Reach e (swapObj a b).1 Xb Yb
  | archive {s g Xs Ys Xg Yg} : Reach e s Xs Ys → Reach e g Xg Yg → s.Nmax ≤ g.Nmax → Reach e (h5Read (h5Write s) g) Xs Ys

/-- the matrix `f(x_i, y_j)` in the order of the user -/
def userMatrix (f : X → Y → K) (x : List X) (y : List Y) : Matrix (Fin x.length) (Fin x.length) K :=
  Matrix.of (fun i j => f (x.getD i default) (y.getD j default))

/-- the matrix returned by `inverse_matrix()` -/
def inverseOut (s : State X Y K) (n : Nat) : Matrix (Fin n) (Fin n) K := Matrix.of (fun i j => inverseMatrix s i j)

/-! ## Proofs -/

theorem dX_userMatrix (f : X → Y → K) (x : List X) (y : List Y) : dX f x y = (userMatrix f x y).det := rfl

/-- the conditions on positions which the code tests completely, or which are assumed -/
theorem Inserted.inRange {α : Type} {p : List Int} {v l l' : List α} (h : Inserted p v l l') : InRange p (l.length + p.length) := by
  intro a ha
  have := h.pos a ha
  rw [h.length] at this
  push_cast at this ⊢
  exact this

theorem Inserted.unique {α : Type} [Inhabited α] {p : List Int} {v l l' : List α} (h : Inserted p v l l') (hv : p.length = v.length)
    (hs : (sortedPos p).Pairwise (· < ·)) : insertMany ((sortedPos p).zip (sortedArg p v)) l = l' := by
  have hr := h.inRange
  have hlt : ∀ i ∈ sortedPos p, i < l'.length := by rw [h.length]; exact sortedPos_lt hr
  have e1 : removeAt (sortedPos p) l' = l := by
    rw [← h.old]
    apply removeAt_congr
    intro q
    unfold sortedPos
    exact ((argsort_map_perm p p 0 rfl).map Int.toNat).mem_iff
  have e2 : select (sortedPos p) l' = sortedArg p v := by
    unfold select sortedPos sortedArg
    rw [List.map_map, List.map_map]
    apply List.map_congr_left
    intro a ha
    have ha' : a < p.length := by simpa using (argsort_perm p).mem_iff.mp ha
    have h2 := h.new a ha'
    simp only [Function.comp]
    unfold nth
    rw [List.getD_eq_getElem?_getD, h2, ← List.getD_eq_getElem?_getD]
  have := insertMany_select l' (sortedPos p) hs hlt
  rw [e1, e2] at this
  exact this

/-- a successful multiple insertion has an admissible result when all positions are in range -/
theorem Inserted.exists {α : Type} [Inhabited α] {p : List Int} {v l : List α} (hv : p.length = v.length) (hr : InRange p (l.length + p.length))
    (hs : (sortedPos p).Pairwise (· < ·)) : Inserted p v l (insertMany ((sortedPos p).zip (sortedArg p v)) l) := by
  have lp := sortedPos_length p
  obtain ⟨h1, h2, h3⟩ := removeAt_insertMany (sortedPos p) (sortedArg p v) l (by rw [lp, sortedArg_length]) hs (by rw [lp]; exact sortedPos_lt hr)
  rw [lp] at h1
  refine ⟨h1, ?_, ?_, ?_⟩
  · intro a ha
    have := hr a ha
    rw [h1]; push_cast at this ⊢; exact this
  · intro a ha
    obtain ⟨q, hq, hqa⟩ : ∃ q, ∃ hq : q < (argsort p).length, (argsort p)[q] = a := by
      have : a ∈ argsort p := (argsort_perm p).mem_iff.mpr (by simpa using ha)
      exact List.getElem_of_mem this
    have lq : (argsort p).length = p.length := by simpa using (argsort_perm p).length_eq
    have h4 := congrArg (fun l => l[q]?) h3
    simp only [select, sortedArg, sortedPos, List.getElem?_map, List.getElem?_eq_getElem hq, Option.map_some, hqa, Option.some.injEq] at h4
    have ha2 : a < v.length := by omega
    rw [nth_eq_getElem ha2] at h4
    rw [List.getElem?_eq_getElem ha2, ← h4]
    have hb := hr (p.getD a 0) (by rw [List.getD_eq_getElem _ _ ha]; exact List.getElem_mem ha)
    change (insertMany ((sortedPos p).zip (sortedArg p v)) l)[(p.getD a 0).toNat]? = some (nth (insertMany ((sortedPos p).zip (sortedArg p v)) l) (p.getD a 0).toNat)
    have hlt : (p.getD a 0).toNat < (insertMany ((sortedPos p).zip (sortedArg p v)) l).length := by rw [h1]; omega
    rw [nth_eq_getElem hlt, List.getElem?_eq_getElem hlt]
  · conv_rhs => rw [← h2]
    apply removeAt_congr
    intro q
    unfold sortedPos
    exact ((argsort_map_perm p p 0 rfl).map Int.toNat).mem_iff.symm

/-- core of a tried multiple insertion, whatever the positions -/
theorem tryInsertK_core {e : Env X Y K} {s : State X Y K} (G : Good e s) {i j : List Int} {x : List X} {y : List Y} {r : K} {s1 : State X Y K}
    (h : tryInsertK e s i j x y = .ok r s1 ∨ tryInsertK e s i j x y = .throws s1) : Good e s1 ∧ getX s1 = getX s ∧ getY s1 = getY s := by
  have hn := G.nmax
  obtain ⟨a, b, c, d, g, hres⟩ := reserve_eq { s with k := i.length } (s.N + i.length : Int) i.length
  obtain ⟨hcaps, hnm, hkm, hnm2⟩ := reserve_caps { s with k := i.length } (s.N + i.length : Int) i.length ⟨G.caps.k1, G.caps.w, G.caps.wk, G.caps.wk1⟩
  rw [hres] at hcaps hnm2
  simp only at hnm2
  rcases h with h | h
  · unfold tryInsertK at h
    split_ifs at h with h1 h2 h3 h4
    dsimp only at h
    rw [hres] at h
    simp only at h
    split_ifs at h
    all_goals
      injection h with _ h
      rw [← h]
      exact ⟨G.of_core rfl rfl rfl rfl rfl rfl rfl rfl ⟨hcaps.k1, hcaps.w, hcaps.wk, hcaps.wk1⟩ (by simp only; omega), rfl, rfl⟩
  · unfold tryInsertK at h
    split_ifs at h with h1 h2 h3 h4
    · injection h with h; rw [← h]; exact ⟨G, rfl, rfl⟩
    · injection h with h; rw [← h]; exact ⟨G, rfl, rfl⟩
    · injection h with h; rw [← h]; exact ⟨G, rfl, rfl⟩
    · injection h with h; rw [← h]; exact ⟨G, rfl, rfl⟩
    · dsimp only at h
      rw [hres] at h
      simp only at h
      split_ifs at h
      injection h with h
      rw [← h]
      exact ⟨G.of_core rfl rfl rfl rfl rfl rfl rfl rfl ⟨hcaps.k1, hcaps.w, hcaps.wk, hcaps.wk1⟩ (by simp only; omega), rfl, rfl⟩

/-- a refused try -/
theorem tryOp_throws {e : Env X Y K} {s : State X Y K} (G : Good e s) {o : Op X Y} {s1 : State X Y K} (h : tryOp e s o = .throws s1) :
    Good e s1 ∧ getX s1 = getX s ∧ getY s1 = getY s := by
  cases o with
  | insertK i j x y => exact tryInsertK_core (r := 0) G (Or.inr h)
  | removeK i j =>
    simp only [tryOp] at h
    unfold tryRemoveK at h
    dsimp only at h
    generalize i.insertionSort (· ≤ ·) = i' at *
    generalize j.insertionSort (· ≤ ·) = j' at *
    obtain ⟨a, b, c, d, g, hres⟩ := reserve_eq { s with k := i'.length } (s.N - i'.length : Int) i'.length
    obtain ⟨hcaps, hnm, hkm, hnm2⟩ := reserve_caps { s with k := i'.length } (s.N - i'.length : Int) i'.length ⟨G.caps.k1, G.caps.w, G.caps.wk, G.caps.wk1⟩
    rw [hres] at h hcaps hnm2
    simp only at h hnm2
    have hn := G.nmax
    split_ifs at h
    all_goals
      injection h with h
      rw [← h]
      first
        | exact ⟨G, rfl, rfl⟩
        | exact ⟨G.of_core rfl rfl rfl rfl rfl rfl rfl rfl ⟨hcaps.k1, hcaps.w, hcaps.wk, hcaps.wk1⟩ (by simp only; omega), rfl, rfl⟩
  | insert i j x y =>
    simp only [tryOp, tryInsert, tryInsertCore] at h
    split_ifs at h <;> (injection h with h; rw [← h]; exact ⟨G, rfl, rfl⟩)
  | remove i j =>
    simp only [tryOp, tryRemove] at h
    split_ifs at h <;> (injection h with h; rw [← h]; exact ⟨G, rfl, rfl⟩)
  | changeCol j y =>
    simp only [tryOp, tryChangeCol] at h
    split_ifs at h <;> (injection h with h; rw [← h]; exact ⟨G, rfl, rfl⟩)
  | changeRow i x =>
    simp only [tryOp, tryChangeRow] at h
    split_ifs at h <;> (injection h with h; rw [← h]; exact ⟨G, rfl, rfl⟩)
  | changeColRow i j x y =>
    simp only [tryOp, tryChangeColRow] at h
    split_ifs at h <;> (injection h with h; rw [← h]; exact ⟨G, rfl, rfl⟩)
  | refill x y =>
    simp only [tryOp, tryRefill] at h
    split_ifs at h <;> (injection h with h; rw [← h]; exact ⟨G, rfl, rfl⟩)

/-- a successful try leaves arguments, determinant and inverse -/
theorem tryOp_core {e : Env X Y K} {s : State X Y K} (G : Good e s) {o : Op X Y} {r : K} {s1 : State X Y K} (h : tryOp e s o = .ok r s1) :
    Good e s1 ∧ getX s1 = getX s ∧ getY s1 = getY s := by
  cases o with
  | insertK i j x y => exact tryInsertK_core G (Or.inl h)
  | removeK i j => have o := (tryRemoveK_outcome G h).2.2.2.2.2; exact ⟨o.good, o.gx, o.gy⟩
  | insert i j x y => have o := (tryInsert_outcome G h).2; exact ⟨o.good, o.gx, o.gy⟩
  | remove i j => have o := (tryRemove_outcome G h).2.2; exact ⟨o.good, o.gx, o.gy⟩
  | changeCol j y => have o := (tryChangeCol_outcome G h).2; exact ⟨o.good, o.gx, o.gy⟩
  | changeRow i x => have o := (tryChangeRow_outcome G h).2; exact ⟨o.good, o.gx, o.gy⟩
  | changeColRow i j x y => have o := (tryChangeColRow_outcome G h).2; exact ⟨o.good, o.gx, o.gy⟩
  | refill x y => have o := tryRefill_outcome G h; exact ⟨o.good, o.gx, o.gy⟩

/-- a successful try prepares the specified operation -/
theorem tryOp_outcome {e : Env X Y K} {s : State X Y K} (G : Good e s) {o : Op X Y} {r : K} {s1 : State X Y K} (h : tryOp e s o = .ok r s1)
    {X' : List X} {Y' : List Y} (hs : o.Spec (getX s) (getY s) X' Y') : Outcome e s r s1 X' Y' := by
  cases o with
  | insertK i j x y =>
    obtain ⟨h1, h2⟩ := hs
    have r1 := h1.inRange
    have r2 := h2.inRange
    rw [getX_length] at r1
    rw [getY_length] at r2
    have h' := h
    simp only [tryOp] at h'
    have hl : i.length = j.length := by
      unfold tryInsertK at h'
      split_ifs at h' with c1 c2
      simpa using c2
    obtain ⟨-, l2, l3, s1, s2, o⟩ := tryInsertK_outcome G h r1 (by rw [hl]; exact r2)
    rw [h1.unique l2 s1, h2.unique (by omega) s2] at o
    exact o
  | removeK i j => have o := (tryRemoveK_outcome G h).2.2.2.2.2; obtain ⟨⟨-, rfl⟩, -, rfl⟩ := hs; exact o
  | insert i j x y => have o := (tryInsert_outcome G h).2; obtain ⟨⟨-, -, rfl⟩, -, -, rfl⟩ := hs; exact o
  | remove i j => have o := (tryRemove_outcome G h).2.2; obtain ⟨⟨-, -, rfl⟩, -, -, rfl⟩ := hs; exact o
  | changeCol j y => have o := (tryChangeCol_outcome G h).2; obtain ⟨rfl, -, -, rfl⟩ := hs; exact o
  | changeRow i x => have o := (tryChangeRow_outcome G h).2; obtain ⟨⟨-, -, rfl⟩, rfl⟩ := hs; exact o
  | changeColRow i j x y => have o := (tryChangeColRow_outcome G h).2; obtain ⟨⟨-, -, rfl⟩, -, -, rfl⟩ := hs; exact o
  | refill x y => have o := tryRefill_outcome G h; obtain ⟨rfl, rfl⟩ := hs; exact o

/-- completion -/
theorem completeOperation_good {e : Env X Y K} {s s1 : State X Y K} {r : K} {X' : List X} {Y' : List Y} (o : Outcome e s r s1 X' Y') {u : Unit}
    {s2 : State X Y K} (h : completeOperation e s1 = .ok u s2) : Good e s2 ∧ s2.lastTry = .noTry ∧ getX s2 = X' ∧ getY s2 = Y' := by
  unfold completeOperation at h
  rw [if_neg o.last] at h
  rcases hc : completeCase s1 with _ | s'
  · rw [hc] at h; simp at h
  · rw [hc] at h
    obtain ⟨A, hx, hy⟩ := o.done s' hc
    simp only at h
    split_ifs at h with h1
    · have M : Mid e { s' with det := s'.newdet, sign := s'.newsign, nOpts := s'.nOpts + 1 } :=
        ⟨A.lx, A.ly, A.row, A.col, A.inv, ⟨A.caps.k1, A.caps.w, A.caps.wk, A.caps.wk1⟩, A.nmax⟩
      rcases hr : regenerateWithCheck e { s' with det := s'.newdet, sign := s'.newsign, nOpts := s'.nOpts + 1 } true with ⟨v, t⟩ | t | _
      · rw [hr] at h
        simp only at h
        injection h with _ h
        obtain ⟨G, gx, gy, -⟩ := regenerateWithCheck_good M hr
        rw [← h]
        refine ⟨G.of_core rfl rfl rfl rfl rfl rfl rfl rfl ⟨G.caps.k1, G.caps.w, G.caps.wk, G.caps.wk1⟩ G.nmax, rfl, ?_, ?_⟩
        · rw [← hx]; exact gx
        · rw [← hy]; exact gy
      · rw [hr] at h; simp at h
      · rw [hr] at h; simp at h
    · injection h with _ h
      rw [← h]
      exact ⟨⟨⟨A.lx, A.ly, A.row, A.col, A.inv, ⟨A.caps.k1, A.caps.w, A.caps.wk, A.caps.wk1⟩, A.nmax⟩, A.sgn, A.det⟩, rfl, hx, hy⟩

theorem swapAt_exchange {α : Type} [Inhabited α] (l : List α) {i j : Int} (h : i ≠ j) : exchange i j l = swapAt default l i.toNat j.toNat := by
  unfold exchange swapAt; rw [if_neg h]

/-- **every history keeps the object consistent** -/
theorem Reach.good {e : Env X Y K} {s : State X Y K} {X' : List X} {Y' : List Y} (h : Reach e s X' Y') :
    Good e s ∧ s.lastTry = .noTry ∧ getX s = X' ∧ getY s = Y' := by
  have fr : Good e (fresh : State X Y K) :=
    ⟨⟨rfl, rfl, List.Perm.refl _, List.Perm.refl _, by unfold IsInv; ext i j; exact Fin.elim0 i, ⟨le_refl _, le_refl _, by intro h; simp [fresh] at h, fun _ => rfl⟩, le_refl _⟩,
      Or.inl rfl, by change ((1 : Int) : K) * 1 = dX e.f [] []; rw [dX_nil]; simp⟩
  have res : ∀ {s : State X Y K} (n : Int) (k : Nat), Good e s → Good e (DetManip.reserve s n k) ∧ (DetManip.reserve s n k).lastTry = s.lastTry ∧
      getX (DetManip.reserve s n k) = getX s ∧ getY (DetManip.reserve s n k) = getY s := by
    intro s n k G
    obtain ⟨a, b, c, d, g, hres⟩ := reserve_eq s n k
    obtain ⟨hcaps, hnm, hkm, hnm2⟩ := reserve_caps s n k G.caps
    have hn := G.nmax
    rw [hres] at hcaps hnm2 ⊢
    simp only at hnm2
    exact ⟨G.of_core rfl rfl rfl rfl rfl rfl rfl rfl hcaps (by simp only; omega), rfl, rfl, rfl⟩
  induction h with
  | init n =>
    obtain ⟨G, h1, h2, h3⟩ := res (n : Int) 1 fr
    exact ⟨G, h1, h2, h3⟩
  | @ctor x y u s hc =>
    unfold DetManip.ctor at hc
    split_ifs at hc with h1 h2
    · injection hc with _ hc
      have : x = [] := List.length_eq_zero_iff.mp h2
      have : y = [] := List.length_eq_zero_iff.mp (by omega)
      subst_vars
      obtain ⟨G, h1, h2, h3⟩ := res (30 : Int) 1 fr
      exact ⟨G, h1, h2, h3⟩
    · dsimp only at hc
      split_ifs at hc with h3
      injection hc with _ hc
      simp only [Decidable.not_not] at h1
      obtain ⟨a, b, c, d, g, hres⟩ := reserve_eq (fresh : State X Y K) (x.length : Int) 1
      obtain ⟨hcaps, hnm, hkm, hnm2⟩ := reserve_caps (fresh : State X Y K) (x.length : Int) 1 fr.caps
      rw [hres] at hc hcaps hnm
      simp only at hc hnm
      have gx : getX s = x := by
        rw [← hc]
        refine Eq.trans (getX_eq _ (by simp)) ?_
        exact map_nth_range x
      have gy : getY s = y := by
        rw [← hc]
        refine Eq.trans (getY_eq _ (by simp)) ?_
        change (List.range x.length).map (nth y) = y
        rw [h1]; exact map_nth_range y
      refine ⟨⟨⟨?_, ?_, ?_, ?_, ?_, ?_, ?_⟩, ?_, ?_⟩, ?_, gx, gy⟩
      · rw [← hc]
      · rw [← hc]; exact h1.symm
      · rw [← hc]
      · rw [← hc]
      · rw [← hc]; exact invN_isInv _ h3
      · rw [← hc]; exact ⟨hcaps.k1, hcaps.w, hcaps.wk, hcaps.wk1⟩
      · rw [← hc]; simp only; omega
      · rw [← hc]; exact Or.inl rfl
      · rw [gx, gy, ← hc]; change ((1 : Int) : K) * _ = _; simp only [Int.cast_one, one_mul]; rfl
      · rw [← hc]; rfl
  | accept _ ht hs hc ih =>
    obtain ⟨G, -, rfl, rfl⟩ := ih
    exact completeOperation_good (tryOp_outcome G ht hs) hc
  | reject _ ht ih =>
    obtain ⟨G, -, rfl, rfl⟩ := ih
    obtain ⟨G1, h1, h2⟩ := tryOp_core G ht
    exact ⟨G1.of_core rfl rfl rfl rfl rfl rfl rfl rfl ⟨G1.caps.k1, G1.caps.w, G1.caps.wk, G1.caps.wk1⟩ G1.nmax, rfl, h1, h2⟩
  | refused _ ht ih =>
    obtain ⟨G, -, rfl, rfl⟩ := ih
    obtain ⟨G1, h1, h2⟩ := tryOp_throws G ht
    exact ⟨G1.of_core rfl rfl rfl rfl rfl rfl rfl rfl ⟨G1.caps.k1, G1.caps.w, G1.caps.wk, G1.caps.wk1⟩ G1.nmax, rfl, h1, h2⟩
  | @swapRow s X Y i j u s1 _ ht ih =>
    obtain ⟨G, hl, rfl, rfl⟩ := ih
    by_cases hij : i = j
    · unfold DetManip.swapRow at ht
      rw [if_pos hij] at ht
      injection ht with _ ht
      subst ht
      exact ⟨G, hl, by unfold exchange; rw [if_pos hij], rfl⟩
    · have hb : 0 ≤ i ∧ 0 ≤ j ∧ s1.lastTry = s.lastTry := by
        unfold DetManip.swapRow at ht
        rw [if_neg hij] at ht
        split_ifs at ht with hb
        injection ht with _ ht
        rw [← ht]
        exact ⟨hb.1, hb.2.2.1, rfl⟩
      obtain ⟨i', rfl⟩ := Int.eq_ofNat_of_zero_le hb.1
      obtain ⟨j', rfl⟩ := Int.eq_ofNat_of_zero_le hb.2.1
      obtain ⟨-, -, G1, h1, h2⟩ := swapRow_good G ht (by omega)
      exact ⟨G1, by rw [hb.2.2, hl], by rw [h1, swapAt_exchange _ hij]; rfl, h2⟩
  | @swapCol s X Y i j u s1 _ ht ih =>
    obtain ⟨G, hl, rfl, rfl⟩ := ih
    by_cases hij : i = j
    · unfold DetManip.swapCol at ht
      rw [if_pos hij] at ht
      injection ht with _ ht
      subst ht
      exact ⟨G, hl, rfl, by unfold exchange; rw [if_pos hij]⟩
    · have hb : 0 ≤ i ∧ 0 ≤ j ∧ s1.lastTry = s.lastTry := by
        unfold DetManip.swapCol at ht
        rw [if_neg hij] at ht
        split_ifs at ht with hb
        injection ht with _ ht
        rw [← ht]
        exact ⟨hb.1, hb.2.2.1, rfl⟩
      obtain ⟨i', rfl⟩ := Int.eq_ofNat_of_zero_le hb.1
      obtain ⟨j', rfl⟩ := Int.eq_ofNat_of_zero_le hb.2.1
      obtain ⟨-, -, G1, h1, h2⟩ := swapCol_good G ht (by omega)
      exact ⟨G1, by rw [hb.2.2, hl], h1, by rw [h2, swapAt_exchange _ hij]; rfl⟩
  | roll _ ht ih =>
    obtain ⟨G, hl, rfl, rfl⟩ := ih
    obtain ⟨G1, h1, h2, h3, -⟩ := rollMatrix_good G ht
    exact ⟨G1, by rw [h3, hl], h1, h2⟩
  | regenerate _ ht ih =>
    obtain ⟨G, hl, rfl, rfl⟩ := ih
    obtain ⟨G1, h1, h2, h3⟩ := regenerateWithCheck_good G.toMid ht
    exact ⟨G1, by rw [h3, hl], h1, h2⟩
  | @determinant s X Y d s1 _ ht ih =>
    obtain ⟨G, hl, rfl, rfl⟩ := ih
    unfold DetManip.determinant at ht
    split_ifs at ht with hsing
    · rcases hr : DetManip.regenerate e s with ⟨v, t⟩ | t | _
      · rw [hr] at ht
        simp only at ht
        injection ht with _ ht
        obtain ⟨G1, h1, h2, h3⟩ := regenerateWithCheck_good G.toMid hr
        rw [← ht]
        exact ⟨G1, by rw [h3, hl], h1, h2⟩
      · rw [hr] at ht; simp at ht
      · rw [hr] at ht; simp at ht
    · injection ht with _ ht
      subst ht
      exact ⟨G, hl, rfl, rfl⟩
  | clear _ ih =>
    obtain ⟨G, hl, -, -⟩ := ih
    refine ⟨⟨⟨rfl, rfl, List.Perm.refl _, List.Perm.refl _, by unfold IsInv; ext i j; exact Fin.elim0 i, ⟨G.caps.k1, G.caps.w, G.caps.wk, G.caps.wk1⟩, Nat.zero_le _⟩,
      Or.inl rfl, ?_⟩, rfl, rfl, rfl⟩
    change ((1 : Int) : K) * 1 = dX e.f [] []
    rw [dX_nil]; simp
  | reserve n k _ ih =>
    obtain ⟨G, hl, rfl, rfl⟩ := ih
    obtain ⟨G1, h1, h2, h3⟩ := res n k G
    exact ⟨G1, by rw [h1, hl], h2, h3⟩
  | options m a b c _ ih =>
    obtain ⟨G, hl, rfl, rfl⟩ := ih
    exact ⟨G.of_core rfl rfl rfl rfl rfl rfl rfl rfl ⟨G.caps.k1, G.caps.w, G.caps.wk, G.caps.wk1⟩ G.nmax, hl, rfl, rfl⟩

  | @swap a b _ _ _ _ _ _ hk iha ihb =>
    obtain ⟨G, hl, rfl, rfl⟩ := ihb
    refine ⟨G.of_core rfl rfl rfl rfl rfl rfl rfl rfl ⟨?_, G.caps.w, ?_, ?_⟩ G.nmax, hl, rfl, rfl⟩
    · change 1 ≤ a.kmax; rw [hk]; exact G.caps.k1
    · change 2 ≤ a.kmax → _ ∧ a.kmax ≤ _; rw [hk]; exact G.caps.wk
    · change a.kmax < 2 → _; rw [hk]; exact G.caps.wk1
  | @archive s g _ _ _ _ _ _ hn ihs ihg =>
    obtain ⟨G, -, rfl, rfl⟩ := ihs
    have c := ihg.1.caps
    refine ⟨G.of_core rfl rfl rfl rfl rfl rfl rfl rfl ⟨c.k1, ?_, ?_, c.wk1⟩ G.nmax, rfl, rfl, rfl⟩
    · change s.Nmax ≤ g.w1.cap; have := c.w; omega
    · change 2 ≤ g.kmax → s.Nmax ≤ g.wk.capN ∧ g.kmax ≤ g.wk.capK
      intro h; have := c.wk h; omega

/-! ### C19 -/

/-- **C19** `determinant()` is the determinant of `f(x_i, y_j)` in user order, whatever the history. -/
theorem determinant_exact {e : Env X Y K} {s : State X Y K} {xl : List X} {yl : List Y} (h : Reach e s xl yl) {d : K} {s1 : State X Y K}
    (hd : determinant e s = .ok d s1) : d = (userMatrix e.f xl yl).det := by
  obtain ⟨G1, -, h1, h2⟩ := (Reach.determinant h hd).good
  have : d = (s1.sign : K) * s1.det := by
    unfold determinant at hd
    split_ifs at hd
    · rcases hr : regenerate e s with ⟨v, t⟩ | t | _
      · rw [hr] at hd; simp only at hd; injection hd with h3 h4; rw [← h4, ← h3]
      · rw [hr] at hd; simp at hd
      · rw [hr] at hd; simp at hd
    · injection hd with h3 h4; rw [← h4, ← h3]
  rw [this, G1.det, h1, h2, dX_userMatrix]

/-- The matrix of a reachable object is invertible, the number of rows and columns agree, and `determinant()` is never undefined: it only fails by
the exception of `is_singular`. -/
theorem determinant_defined {e : Env X Y K} {s : State X Y K} {xl : List X} {yl : List Y} (h : Reach e s xl yl) :
    (userMatrix e.f xl yl).det ≠ 0 ∧ xl.length = yl.length ∧ s.N = xl.length ∧ determinant e s ≠ .undef ∧
      (∀ t, determinant e s = .throws t → e.singular s.singularThreshold s.det = true ∧ ∃ d, e.singular s.singularThreshold d = true ∧ (d = (userMatrix e.f xl yl).det ∨ d = - (userMatrix e.f xl yl).det)) := by
  obtain ⟨G, -, rfl, rfl⟩ := h.good
  have hne := G.d_ne
  have hdet : detN s.N (U e.f s.xs s.ys) ≠ 0 := by
    intro h0; apply hne; rw [G.toMid.dX_perm, h0, mul_zero]
  have hpm : detN s.N (U e.f s.xs s.ys) = dX e.f (getX s) (getY s) ∨ detN s.N (U e.f s.xs s.ys) = - dX e.f (getX s) (getY s) := by
    rw [G.toMid.dX_perm]
    rcases permDet_sign G.row with h1 | h1 <;> rcases permDet_sign G.col with h2 | h2 <;> rw [h1, h2] <;> simp
  have hreg : (∃ t, regenerate e s = .ok () t) ∨ ((∃ t, regenerate e s = .throws t) ∧ e.singular s.singularThreshold (detN s.N (U e.f s.xs s.ys)) = true) := by
    unfold regenerate regenerateWithCheck
    by_cases hN : s.N = 0
    · rw [if_pos hN]; exact Or.inl ⟨_, rfl⟩
    · rw [if_neg hN]
      by_cases hs : e.singular s.singularThreshold (detN s.N (U e.f s.xs s.ys)) = true
      · refine Or.inr ⟨⟨{ s with det := detN s.N (U e.f s.xs s.ys) }, ?_⟩, hs⟩
        exact if_pos hs
      · refine Or.inl ?_
        simp only [Bool.false_and, Bool.false_eq_true, if_false]
        change ∃ t, (if e.singular s.singularThreshold (detN s.N (U e.f s.xs s.ys)) = true then _ else if detN s.N (U e.f s.xs s.ys) = 0 then _ else _) = _
        rw [if_neg hs, if_neg hdet]
        exact ⟨_, rfl⟩
  refine ⟨by rw [← dX_userMatrix]; exact hne, by rw [getX_length, getY_length], by rw [getX_length], ?_, ?_⟩
  · intro hu
    unfold determinant at hu
    split_ifs at hu with hsing
    rcases hreg with ⟨t, ht⟩ | ⟨⟨t, ht⟩, -⟩ <;> (rw [ht] at hu; simp at hu)
  · intro t ht
    unfold determinant at ht
    split_ifs at ht with hsing
    refine ⟨hsing, ?_⟩
    rcases hreg with ⟨t, h2⟩ | ⟨-, h2⟩
    · rw [h2] at ht; simp at ht
    · refine ⟨_, h2, ?_⟩
      rw [← dX_userMatrix]
      exact hpm

/-! ### C20 -/

/-- **C20** `inverse_matrix()` is the two-sided inverse of `f(x_i, y_j)` in user order, whatever the history. -/
theorem inverse_exact {e : Env X Y K} {s : State X Y K} {xl : List X} {yl : List Y} (h : Reach e s xl yl) :
    inverseOut s xl.length * userMatrix e.f xl yl = 1 ∧ userMatrix e.f xl yl * inverseOut s xl.length = 1 := by
  obtain ⟨G, -, rfl, rfl⟩ := h.good
  have h1 := G.inv.ord G.row G.col
  have key : inverseOut s (getX s).length * userMatrix e.f (getX s) (getY s) = 1 := by
    rw [← show toM (getX s).length (getX s).length (ord (at2 s.inv) s.col s.row) = inverseOut s (getX s).length from rfl,
      show userMatrix e.f (getX s) (getY s) = toM (getX s).length (getX s).length (ord (U e.f s.xs s.ys) s.row s.col) from ?_]
    · unfold IsInv at h1
      rw [getX_length]; exact h1
    · ext i j
      have hi : (i : Nat) < s.N := lt_of_lt_of_eq i.2 (getX_length s)
      have hj : (j : Nat) < s.N := lt_of_lt_of_eq j.2 (getX_length s)
      have e1 : (getX s).getD i default = nth s.xs (s.row.getD i 0) := by
        have := nth_map (l := s.row) (i := i) (nth s.xs) (by rw [G.row.length]; exact hi)
        rw [← getX_eq s G.row.length] at this; exact this
      have e2 : (getY s).getD j default = nth s.ys (s.col.getD j 0) := by
        have := nth_map (l := s.col) (i := j) (nth s.ys) (by rw [G.col.length]; exact hj)
        rw [← getY_eq s G.col.length] at this; exact this
      simp only [userMatrix, toM, Matrix.of_apply, e1, e2]
      rfl
  exact ⟨key, mul_eq_one_comm.mp key⟩

/-! ### C21 -/

/-- **C21** A successful try returns (determinant after)/(determinant before). -/
theorem try_ratio {e : Env X Y K} {s : State X Y K} {xl : List X} {yl : List Y} (h : Reach e s xl yl) {o : Op X Y} {r : K} {s1 : State X Y K}
    (ht : tryOp e s o = .ok r s1) {X' : List X} {Y' : List Y} (hs : o.Spec xl yl X' Y') :
    r = (userMatrix e.f X' Y').det / (userMatrix e.f xl yl).det := by
  obtain ⟨G, -, rfl, rfl⟩ := h.good
  have o := tryOp_outcome G ht hs
  have hr := o.ratio
  rw [← dX_userMatrix, ← dX_userMatrix, eq_div_iff G.d_ne]
  exact hr

/-- The value returned by `roll_matrix` is the factor of the determinant too. -/
theorem roll_ratio {e : Env X Y K} {s : State X Y K} {xl : List X} {yl : List Y} (h : Reach e s xl yl) {d : Roll} {v : Int} {s1 : State X Y K}
    (ht : rollMatrix s d = .ok v s1) : (userMatrix e.f (d.onX xl) (d.onY yl)).det = (v : K) * (userMatrix e.f xl yl).det := by
  obtain ⟨G, -, rfl, rfl⟩ := h.good
  obtain ⟨-, h1, h2, -, h3⟩ := rollMatrix_good G ht
  rw [h1, h2] at h3
  exact h3

/-! ### C22 -/

/-- **C22** (a) A rejected try leaves size, arguments, determinant and inverse. -/
theorem reject_no_trace {e : Env X Y K} {s : State X Y K} {xl : List X} {yl : List Y} (h : Reach e s xl yl) {o : Op X Y} {r : K} {s1 : State X Y K}
    (ht : tryOp e s o = .ok r s1) :
    let t := rejectLastTry s1
    t.N = s.N ∧ getX t = getX s ∧ getY t = getY s ∧ (t.sign : K) * t.det = (s.sign : K) * s.det ∧ inverseOut t s.N = inverseOut s s.N := by
  have hr := Reach.reject h ht
  obtain ⟨G1, -, h1, h2⟩ := hr.good
  obtain ⟨G, -, h3, h4⟩ := h.good
  have i1 := (inverse_exact hr).2
  have i2 := (inverse_exact h).1
  have hx : getX (rejectLastTry s1) = getX s := by rw [h1, h3]
  have hy : getY (rejectLastTry s1) = getY s := by rw [h2, h4]
  have hl : xl.length = s.N := by rw [← h3, getX_length]
  refine ⟨by rw [← getX_length (rejectLastTry s1), hx, getX_length], hx, hy, by rw [G1.det, G.det, hx, hy], ?_⟩
  rw [← hl]
  calc inverseOut (rejectLastTry s1) xl.length = 1 * inverseOut (rejectLastTry s1) xl.length := (one_mul _).symm
    _ = inverseOut s xl.length * userMatrix e.f xl yl * inverseOut (rejectLastTry s1) xl.length := by rw [i2]
    _ = inverseOut s xl.length * (userMatrix e.f xl yl * inverseOut (rejectLastTry s1) xl.length) := by rw [mul_assoc]
    _ = inverseOut s xl.length := by rw [i1, mul_one]

/-- **C22** (b) What the user sees, now and after any further operation, depends on the two argument lists only, not on the history (which may
contain rejected or refused tries): two objects with the same lists have the same inverse and determinant, and the same ratio for every try. -/
theorem history_independent {e : Env X Y K} {s t : State X Y K} {xl : List X} {yl : List Y} (hs : Reach e s xl yl) (ht : Reach e t xl yl) :
    inverseOut s xl.length = inverseOut t xl.length ∧
    (∀ d d' s1 t1, determinant e s = .ok d s1 → determinant e t = .ok d' t1 → d = d') ∧
    (∀ o r r' s1 t1 X' Y', tryOp e s o = .ok r s1 → tryOp e t o = .ok r' t1 → o.Spec xl yl X' Y' → r = r' ∧
      ∀ u u' s2 t2, completeOperation e s1 = .ok u s2 → completeOperation e t1 = .ok u' t2 → Reach e s2 X' Y' ∧ Reach e t2 X' Y') := by
  refine ⟨?_, ?_, ?_⟩
  · have i1 := (inverse_exact ht).2
    have i2 := (inverse_exact hs).1
    calc inverseOut s xl.length = inverseOut s xl.length * (userMatrix e.f xl yl * inverseOut t xl.length) := by rw [i1, mul_one]
      _ = inverseOut s xl.length * userMatrix e.f xl yl * inverseOut t xl.length := by rw [mul_assoc]
      _ = inverseOut t xl.length := by rw [i2, one_mul]
  · intro d d' s1 t1 h1 h2
    rw [determinant_exact hs h1, determinant_exact ht h2]
  · intro o r r' s1 t1 X' Y' h1 h2 hsp
    refine ⟨by rw [try_ratio hs h1 hsp, try_ratio ht h2 hsp], ?_⟩
    intro u u' s2 t2 h3 h4
    exact ⟨Reach.accept hs h1 hsp h3, Reach.accept ht h2 hsp h4⟩

/-! ### C23 -/

/-- **C23** `get_x`, `get_y` are the lists obtained by ordinary list insertion and removal. -/
theorem user_order {e : Env X Y K} {s : State X Y K} {xl : List X} {yl : List Y} (h : Reach e s xl yl) : getX s = xl ∧ getY s = yl := h.good.2.2

/-- The specification determines the lists. -/
theorem Op.Spec.unique {o : Op X Y} {xl : List X} {yl : List Y} {X1 X2 : List X} {Y1 Y2 : List Y} (h1 : o.Spec xl yl X1 Y1) (h2 : o.Spec xl yl X2 Y2)
    {e : Env X Y K} {s : State X Y K} (h : Reach e s xl yl) {r : K} {s1 : State X Y K} (ht : tryOp e s o = .ok r s1) : X1 = X2 ∧ Y1 = Y2 := by
  obtain ⟨G, -, rfl, rfl⟩ := h.good
  cases o with
  | insertK i j x y =>
    have r1 := h1.1.inRange
    have r2 := h1.2.inRange
    rw [getX_length] at r1
    rw [getY_length] at r2
    have h' := ht
    simp only [tryOp] at h'
    have hl : i.length = j.length := by
      unfold tryInsertK at h'
      split_ifs at h' with c1 c2
      simpa using c2
    obtain ⟨-, l2, l3, s1, s2, -⟩ := tryInsertK_outcome G ht r1 (by rw [hl]; exact r2)
    exact ⟨(h1.1.unique l2 s1).symm.trans (h2.1.unique l2 s1), (h1.2.unique (by omega) s2).symm.trans (h2.2.unique (by omega) s2)⟩
  | removeK i j => obtain ⟨⟨-, rfl⟩, -, rfl⟩ := h1; obtain ⟨⟨-, rfl⟩, -, rfl⟩ := h2; exact ⟨rfl, rfl⟩
  | insert i j x y => obtain ⟨⟨-, -, rfl⟩, -, -, rfl⟩ := h1; obtain ⟨⟨-, -, rfl⟩, -, -, rfl⟩ := h2; exact ⟨rfl, rfl⟩
  | remove i j => obtain ⟨⟨-, -, rfl⟩, -, -, rfl⟩ := h1; obtain ⟨⟨-, -, rfl⟩, -, -, rfl⟩ := h2; exact ⟨rfl, rfl⟩
  | changeCol j y => obtain ⟨rfl, -, -, rfl⟩ := h1; obtain ⟨rfl, -, -, rfl⟩ := h2; exact ⟨rfl, rfl⟩
  | changeRow i x => obtain ⟨⟨-, -, rfl⟩, rfl⟩ := h1; obtain ⟨⟨-, -, rfl⟩, rfl⟩ := h2; exact ⟨rfl, rfl⟩
  | changeColRow i j x y => obtain ⟨⟨-, -, rfl⟩, -, -, rfl⟩ := h1; obtain ⟨⟨-, -, rfl⟩, -, -, rfl⟩ := h2; exact ⟨rfl, rfl⟩
  | refill x y => obtain ⟨rfl, rfl⟩ := h1; obtain ⟨rfl, rfl⟩ := h2; exact ⟨rfl, rfl⟩

/-! ### progress: a try that the interface allows is possible and can be completed -/

/-- positions and lists are as the documentation asks -/
def Op.Valid : Op X Y → Nat → Prop
  | .insert i j _ _, n => 0 ≤ i ∧ i ≤ n ∧ 0 ≤ j ∧ j ≤ n
  | .insertK i j x y, n => j.length = i.length ∧ x.length = i.length ∧ y.length = i.length ∧ i.Nodup ∧ j.Nodup ∧
      (∀ a ∈ i, 0 ≤ a ∧ a < n + i.length) ∧ (∀ a ∈ j, 0 ≤ a ∧ a < n + i.length) ∧ 2 ≤ i.length
  | .remove i j, n => 0 ≤ i ∧ i < n ∧ 0 ≤ j ∧ j < n
  | .removeK i j, n => j.length = i.length ∧ i.Nodup ∧ j.Nodup ∧ (∀ a ∈ i, 0 ≤ a ∧ a < n) ∧ (∀ a ∈ j, 0 ≤ a ∧ a < n) ∧ 2 ≤ i.length
  | .changeCol j _, n => 0 ≤ j ∧ j < n
  | .changeRow i _, n => 0 ≤ i ∧ i < n
  | .changeColRow i j _ _, n => 0 ≤ i ∧ i < n ∧ 0 ≤ j ∧ j < n
  | .refill x y, _ => x.length = y.length

theorem checkPos_of {v : List Int} {b : Int} (hs : v.Pairwise (· ≤ ·)) (hn : v.Nodup) (hb : ∀ a ∈ v, 0 ≤ a ∧ a < b) : checkPos v b = true := by
  unfold checkPos
  rw [List.all_eq_true]
  intro l hl
  have hl' : l < v.length - 1 := by simpa using hl
  rw [decide_eq_true_eq, List.getD_eq_getElem _ _ (show l < v.length by omega), List.getD_eq_getElem _ _ (show l + 1 < v.length by omega)]
  refine ⟨?_, hb _ (List.getElem_mem _)⟩
  intro he
  have := (List.Nodup.getElem_inj_iff hn).mp he
  omega

/-- Every valid operation can be tried on every reachable object. -/
theorem try_progress {e : Env X Y K} {s : State X Y K} {xl : List X} {yl : List Y} (h : Reach e s xl yl) (o : Op X Y) (hv : o.Valid xl.length) :
    ∃ r s1, tryOp e s o = .ok r s1 := by
  obtain ⟨G, hl, rfl, rfl⟩ := h.good
  rw [getX_length] at hv
  have hcap : ¬ s.w1.cap < s.N := by have := G.caps.w; have := G.nmax; omega
  cases o with
  | insert i j x y =>
    obtain ⟨h1, h2, h3, h4⟩ := hv
    simp only [tryOp, tryInsert]
    rw [if_neg (by simp [hl]), if_neg (by simpa using ⟨h1, h2⟩), if_neg (by simpa using ⟨h3, h4⟩)]
    obtain ⟨hcaps, hnm, hkm, hnm2⟩ := reserve_caps s (s.N + 1 : Int) 1 G.caps
    obtain ⟨a, b, c, d, g, hres⟩ := reserve_eq s (s.N + 1 : Int) 1
    unfold tryInsertCore
    rw [hres] at hcaps hnm ⊢
    simp only
    have := hcaps.w
    simp only at this hnm
    split_ifs
    · exact ⟨_, _, rfl⟩
    · omega
    · exact ⟨_, _, rfl⟩
  | insertK i j x y =>
    obtain ⟨h1, h2, h3, h4, h5, h6, h7, h8⟩ := hv
    simp only [tryOp]
    unfold tryInsertK
    rw [if_neg (by simp [hl]), if_neg (by omega), if_neg (by omega), if_neg (by omega)]
    obtain ⟨a, b, c, d, g, hres⟩ := reserve_eq { s with k := i.length } (s.N + i.length : Int) i.length
    obtain ⟨hcaps, hnm, hkm, hnm2⟩ := reserve_caps { s with k := i.length } (s.N + i.length : Int) i.length ⟨G.caps.k1, G.caps.w, G.caps.wk, G.caps.wk1⟩
    dsimp only
    rw [hres] at hcaps hnm hkm ⊢
    simp only at hnm hkm ⊢
    have hw := hcaps.wk (by simp only; omega)
    simp only at hw
    rw [if_neg (by omega)]
    have ck : ∀ p : List Int, p.Nodup → (∀ a ∈ p, 0 ≤ a ∧ a < s.N + i.length) →
        checkPos ((argsort p).map (fun a => p.getD a 0)) ((s.N : Int) + i.length) = true := by
      intro p hn hb
      have pm := argsort_map_perm p p 0 rfl
      exact checkPos_of (argsort_sorted p) (pm.nodup_iff.mpr hn) (fun a ha => by have := hb a (pm.mem_iff.mp ha); push_cast at this; exact this)
    rw [if_neg (by rw [not_not]; exact ⟨ck i h4 h6, ck j h5 h7⟩)]
    split_ifs
    · exact ⟨_, _, rfl⟩
    · omega
    · exact ⟨_, _, rfl⟩
  | remove i j =>
    obtain ⟨h1, h2, h3, h4⟩ := hv
    simp only [tryOp, tryRemove]
    rw [if_neg (by simp [hl]), if_neg (by simpa using ⟨h1, h2⟩), if_neg (by simpa using ⟨h3, h4⟩)]
    exact ⟨_, _, rfl⟩
  | removeK i j =>
    obtain ⟨h1, h2, h3, h4, h5, h6⟩ := hv
    simp only [tryOp]
    unfold tryRemoveK
    have pi := List.perm_insertionSort (· ≤ ·) i
    have pj := List.perm_insertionSort (· ≤ ·) j
    have si := List.pairwise_insertionSort (· ≤ ·) i
    have sj := List.pairwise_insertionSort (· ≤ ·) j
    dsimp only
    generalize i.insertionSort (· ≤ ·) = i' at *
    generalize j.insertionSort (· ≤ ·) = j' at *
    have li := pi.length_eq
    have lj := pj.length_eq
    have hk : i'.length ≤ s.N := by
      have hn : (i.map Int.toNat).Nodup := by
        refine List.Nodup.map_on ?_ h2
        intro a ha b hb hab
        have := h4 a ha; have := h4 b hb; omega
      have := List.Nodup.length_le_card (α := Fin s.N) (l := (i.map Int.toNat).attach.map (fun p => ⟨p.1, by
        obtain ⟨a, ha, he⟩ := List.mem_map.mp p.2
        have := h4 a ha; omega⟩)) (by
          refine List.Nodup.map ?_ (List.nodup_attach.mpr hn)
          intro a b hab
          exact Subtype.ext (by simpa using hab))
      simp at this; omega
    rw [if_neg (by simp [hl]), if_neg (by omega), if_neg (by omega)]
    obtain ⟨a, b, c, d, g, hres⟩ := reserve_eq { s with k := i'.length } (s.N - i'.length : Int) i'.length
    obtain ⟨hcaps, hnm, hkm, hnm2⟩ := reserve_caps { s with k := i'.length } (s.N - i'.length : Int) i'.length ⟨G.caps.k1, G.caps.w, G.caps.wk, G.caps.wk1⟩
    rw [hres] at hcaps hnm hkm ⊢
    simp only at hnm hkm ⊢
    have hw := hcaps.wk (by simp only; omega)
    simp only at hw
    have b1 : ∀ a ∈ i', 0 ≤ a ∧ a < (s.N : Int) := fun a ha => h4 a (pi.mem_iff.mp ha)
    have b2 : ∀ a ∈ j', 0 ≤ a ∧ a < (s.N : Int) := fun a ha => h5 a (pj.mem_iff.mp ha)
    rw [if_neg (by rw [not_not]; exact ⟨checkPos_of si (pi.nodup_iff.mpr h2) b1, checkPos_of sj (pj.nodup_iff.mpr h3) b2⟩), if_neg (by omega), if_neg]
    · exact ⟨_, _, rfl⟩
    · rw [not_not, List.all_eq_true]
      intro p hp
      rw [decide_eq_true_eq]
      rcases List.mem_append.mp hp with hp | hp
      · exact b1 p hp
      · exact b2 p hp
  | changeCol j y =>
    simp only [tryOp, tryChangeCol]
    rw [if_neg (by simp [hl]), if_neg (by rw [not_not]; exact hv), if_neg hcap]
    exact ⟨_, _, rfl⟩
  | changeRow i x =>
    simp only [tryOp, tryChangeRow]
    rw [if_neg (by simp [hl]), if_neg (by rw [not_not]; exact hv.2), if_neg (by have := hv.1; omega), if_neg hcap]
    exact ⟨_, _, rfl⟩
  | changeColRow i j x y =>
    obtain ⟨h1, h2, h3, h4⟩ := hv
    simp only [tryOp, tryChangeColRow]
    rw [if_neg (by simp [hl]), if_neg (by simpa using ⟨h1, h2⟩), if_neg (by simpa using ⟨h3, h4⟩), if_neg hcap]
    exact ⟨_, _, rfl⟩
  | refill x y =>
    simp only [tryOp, tryRefill]
    have : x.length = y.length := hv
    rw [if_neg (by simp [hl]), if_neg (by omega)]
    split_ifs
    · exact ⟨_, _, rfl⟩
    · exact ⟨_, _, rfl⟩

/-- After a successful try, completion is never undefined unless the new matrix is singular, and it only fails by an exception of the periodic check. -/
theorem complete_defined {e : Env X Y K} {s : State X Y K} {xl : List X} {yl : List Y} (h : Reach e s xl yl) {o : Op X Y} {r : K} {s1 : State X Y K}
    (ht : tryOp e s o = .ok r s1) {X' : List X} {Y' : List Y} (hs : o.Spec xl yl X' Y') (hne : (userMatrix e.f X' Y').det ≠ 0) :
    completeOperation e s1 ≠ .undef ∧ ∃ s', completeCase s1 = some s' ∧ (s'.nOpts < s'.nOptsMax → ∃ s2, completeOperation e s1 = .ok () s2) := by
  obtain ⟨G, -, rfl, rfl⟩ := h.good
  have o := tryOp_outcome G ht hs
  obtain ⟨s', hc⟩ := o.defined hne
  obtain ⟨A, hx, hy⟩ := o.done s' hc
  have hd : detN s'.N (fun i j => e.f (nth s'.xs i) (nth s'.ys j)) ≠ 0 := by
    intro h0
    apply hne
    rw [← dX_userMatrix, ← hx, ← hy, A.toMid.dX_perm]
    change _ * detN s'.N (fun i j => e.f (nth s'.xs i) (nth s'.ys j)) = 0
    rw [h0, mul_zero]
  refine ⟨?_, s', hc, ?_⟩
  · intro hu
    unfold completeOperation at hu
    rw [if_neg o.last, hc] at hu
    simp only at hu
    split_ifs at hu
    rcases hr : regenerateWithCheck e { s' with det := s'.newdet, sign := s'.newsign, nOpts := s'.nOpts + 1 } true with ⟨v, t⟩ | t | _
    · rw [hr] at hu; simp at hu
    · rw [hr] at hu; simp at hu
    · unfold regenerateWithCheck at hr
      dsimp only at hr
      by_cases hN : s'.N = 0
      · rw [if_pos hN] at hr; cases hr
      · rw [if_neg hN] at hr
        split_ifs at hr <;> first | cases hr | contradiction
  · intro hlt
    unfold completeOperation
    rw [if_neg o.last, hc]
    simp only
    rw [if_neg (by omega)]
    exact ⟨_, rfl⟩

/-! ### Examples -/

/-- a try followed by its completion -/
def accept (e : Env X Y K) (s : State X Y K) (o : Op X Y) : Option (State X Y K) :=
  match tryOp e s o with
  | .ok _ s1 => (match completeOperation e s1 with | .ok _ s2 => some s2 | _ => none)
  | _ => none

theorem accept_reach {e : Env X Y K} {s s2 : State X Y K} {xl X' : List X} {yl Y' : List Y} (o : Op X Y) (h : Reach e s xl yl) (hs : o.Spec xl yl X' Y')
    (ha : accept e s o = some s2) : Reach e s2 X' Y' := by
  unfold accept at ha
  rcases h1 : tryOp e s o with ⟨r, s1⟩ | t | _
  · rw [h1] at ha
    simp only at ha
    rcases h2 : completeOperation e s1 with ⟨u, s3⟩ | t | _
    · rw [h2] at ha
      simp only [Option.some.injEq] at ha
      rw [← ha]
      exact Reach.accept h h1 hs h2
    · rw [h2] at ha; simp at ha
    · rw [h2] at ha; simp at ha
  · rw [h1] at ha; simp at ha
  · rw [h1] at ha; simp at ha

end

theorem some_getD {α : Type} {o : Option α} (d : α) (h : o.isSome = true) : o = some (o.getD d) := by
  cases o with
  | none => simp at h
  | some a => rfl

/-- `f(x, y) = 1/(1 + x + y)` -/
def exEnv : Env ℚ ℚ ℚ := ⟨fun x y => 1 / (1 + x + y), fun _ d => decide (d = 0), fun _ _ _ _ => false⟩

def ex1 : State ℚ ℚ ℚ := (accept exEnv (ctorSize 0) (.insert 0 0 1 2)).getD fresh
def ex2 : State ℚ ℚ ℚ := (accept exEnv ex1 (.insert 0 1 3 4)).getD fresh
def ex3 : State ℚ ℚ ℚ := (accept exEnv ex2 (.insertK [3, 0] [1, 2] [5, 6] [7, 8])).getD fresh
def ex4 : State ℚ ℚ ℚ := (accept exEnv ex3 (.remove 1 2)).getD fresh
def ex5 : State ℚ ℚ ℚ := (accept exEnv ex4 (.changeColRow 0 2 9 11)).getD fresh
def ex6 : State ℚ ℚ ℚ := (accept exEnv ex5 (.removeK [2, 0] [0, 1])).getD fresh

theorem ex1_reach : Reach exEnv ex1 [1] [2] :=
  accept_reach (.insert 0 0 1 2) (Reach.init 0) ⟨⟨by decide, by decide, rfl⟩, by decide, by decide, rfl⟩ (some_getD _ (by decide +kernel))
theorem ex2_reach : Reach exEnv ex2 [3, 1] [2, 4] :=
  accept_reach (.insert 0 1 3 4) ex1_reach ⟨⟨by decide, by decide, rfl⟩, by decide, by decide, rfl⟩ (some_getD _ (by decide +kernel))
theorem ex3_reach : Reach exEnv ex3 [6, 3, 1, 5] [2, 7, 8, 4] :=
  accept_reach (.insertK [3, 0] [1, 2] [5, 6] [7, 8]) ex2_reach
    ⟨⟨by decide, by decide, by decide +kernel, by decide +kernel⟩, ⟨by decide, by decide, by decide +kernel, by decide +kernel⟩⟩
    (some_getD _ (by decide +kernel))
theorem ex4_reach : Reach exEnv ex4 [6, 1, 5] [2, 7, 4] :=
  accept_reach (.remove 1 2) ex3_reach ⟨⟨by decide, by decide, rfl⟩, by decide, by decide, rfl⟩ (some_getD _ (by decide +kernel))
theorem ex5_reach : Reach exEnv ex5 [9, 1, 5] [2, 7, 11] :=
  accept_reach (.changeColRow 0 2 9 11) ex4_reach ⟨⟨by decide, by decide, rfl⟩, by decide, by decide, rfl⟩ (some_getD _ (by decide +kernel))
theorem ex6_reach : Reach exEnv ex6 [1] [11] :=
  accept_reach (.removeK [2, 0] [0, 1]) ex5_reach ⟨⟨by decide, by decide +kernel⟩, by decide, by decide +kernel⟩ (some_getD _ (by decide +kernel))

/-- value of a call that ends normally -/
def Res.val {σ α : Type} : Res σ α → Option α
  | .ok a _ => some a
  | _ => none

-- C19: after an insertion, a double insertion and a removal the determinant is that of the matrix 1/(1 + x_i + y_j)
example : (determinant exEnv ex4).val = some (-5 / 2594592) := by decide +kernel
example : (userMatrix exEnv.f [6, 1, 5] [2, 7, 4]).det = -5 / 2594592 := by decide +kernel
-- here the internal order differs from the user's
example : ex4.row = [2, 0, 1] ∧ ex4.xs = [1, 5, 6] ∧ ex4.sign = 1 := by decide +kernel
-- C20
example : inverseMatrix ex2 0 0 = -48 ∧ inverseMatrix ex2 0 1 = 36 ∧ inverseMatrix ex2 1 0 = 72 ∧ inverseMatrix ex2 1 1 = -48 := by decide +kernel
-- C21: the ratio of a double insertion
example : (tryOp exEnv ex2 (.insertK [3, 0] [1, 2] [5, 6] [7, 8])).val = some (-1 / 83243160) := by decide +kernel
-- C22: a rejected try
example : ∃ s1 r, tryOp exEnv ex4 (.insert 2 0 12 13) = .ok r s1 ∧ Reach exEnv (rejectLastTry s1) [6, 1, 5] [2, 7, 4] := by
  obtain ⟨r, s1, h⟩ := try_progress ex4_reach (.insert 2 0 12 13) ⟨by decide, by decide, by decide, by decide⟩
  exact ⟨s1, r, h, Reach.reject ex4_reach h⟩
-- C23
example : getX ex5 = [9, 1, 5] ∧ getY ex5 = [2, 7, 11] := user_order ex5_reach
-- roll
example : (match rollMatrix ex2 .down with | .ok v s => decide (v = -1 ∧ getX s = [1, 3]) | _ => false) = true := by decide +kernel

end Verif.DetManip
