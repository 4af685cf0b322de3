import Verif.DetManip.Props

/-!
# det_manip: position checks, swap, insertion from functions

Where the claim is false of the code, a witness; and what remains true.
-/

namespace Verif.DetManip

open Matrix

set_option linter.unusedSectionVars false

/-! ## Specification -/

def Res.isOk {σ α : Type} : Res σ α → Bool
  | .ok _ _ => true
  | _ => false
def Res.isThrow {σ α : Type} : Res σ α → Bool
  | .throws _ => true
  | _ => false
def Res.isUndef {σ α : Type} : Res σ α → Bool
  | .undef => true
  | _ => false
def Res.state {σ α : Type} (d : σ) : Res σ α → σ
  | .ok _ s => s
  | .throws s => s
  | .undef => d

section
variable {X Y K : Type} [Inhabited X] [Inhabited Y] [Field K] [DecidableEq K]

/-! ## Proofs -/

/-! ### C24 -/

/-- **C24**, what holds: wrong positions are refused, the object being unchanged, by `try_insert`, `try_remove`, `try_change_col`,
`try_change_col_row` and `try_refill`; too large positions by `try_change_row`. Missing: `try_change_row` with negative positions and the largest
position given to `try_insert_k`, `try_remove_k` (see below). -/
theorem positions_refused_partial {e : Env X Y K} {s : State X Y K} {xl : List X} {yl : List Y} (h : Reach e s xl yl) (o : Op X Y) (hv : ¬ o.Valid xl.length) :
    match o with
    | .insert .. | .remove .. | .changeCol .. | .changeColRow .. | .refill .. => tryOp e s o = .throws s
    | .changeRow i _ => 0 ≤ i → tryOp e s o = .throws s
    | .insertK .. | .removeK .. => True := by
  obtain ⟨G, hl, rfl, rfl⟩ := h.good
  rw [getX_length] at hv
  cases o with
  | insert i j x y =>
    simp only [Op.Valid] at hv
    simp only [tryOp, tryInsert]
    rw [if_neg (by simp [hl])]
    split_ifs <;> first | rfl | (exfalso; omega)
  | remove i j =>
    simp only [Op.Valid] at hv
    simp only [tryOp, tryRemove]
    rw [if_neg (by simp [hl])]
    split_ifs <;> first | rfl | (exfalso; omega)
  | changeCol j y =>
    simp only [Op.Valid] at hv
    simp only [tryOp, tryChangeCol]
    rw [if_neg (by simp [hl]), if_pos hv]
  | changeColRow i j x y =>
    simp only [Op.Valid] at hv
    simp only [tryOp, tryChangeColRow]
    rw [if_neg (by simp [hl])]
    split_ifs <;> first | rfl | (exfalso; omega)
  | refill x y =>
    simp only [Op.Valid] at hv
    simp only [tryOp, tryRefill]
    rw [if_neg (by simp [hl]), if_pos hv]
  | changeRow i x =>
    intro hi
    simp only [Op.Valid] at hv
    simp only [tryOp, tryChangeRow]
    rw [if_neg (by simp [hl]), if_pos (by omega)]
  | insertK => trivial
  | removeK => trivial

/-- Repeated positions are refused by `try_insert_k` and `try_remove_k`, after which a `reject_last_try` gives back the object. -/
theorem repeated_refused {e : Env X Y K} {s : State X Y K} {xl : List X} {yl : List Y} (h : Reach e s xl yl) (i j : List Int) :
    (¬ i.Nodup ∨ ¬ j.Nodup) →
    (∀ x y, i.length = j.length → x.length = i.length → y.length = i.length →
      ∃ t, tryOp e s (.insertK i j x y) = .throws t ∧ Reach e (rejectLastTry t) xl yl) ∧
    (∃ t, tryOp e s (.removeK i j) = .throws t ∧ Reach e (rejectLastTry t) xl yl) := by
  intro hd
  obtain ⟨G, hl, rfl, rfl⟩ := h.good
  constructor
  · intro x y h1 h2 h3
    have hthrow : ∃ t, tryOp e s (.insertK i j x y) = .throws t := by
      simp only [tryOp]
      unfold tryInsertK
      rw [if_neg (by simp [hl]), if_neg (by omega), if_neg (by omega), if_neg (by omega)]
      obtain ⟨a, b, c, d, g, hres⟩ := reserve_eq { s with k := i.length } (s.N + i.length : Int) i.length
      obtain ⟨hcaps, hnm, hkm, hnm2⟩ := reserve_caps { s with k := i.length } (s.N + i.length : Int) i.length ⟨G.caps.k1, G.caps.w, G.caps.wk, G.caps.wk1⟩
      dsimp only
      rw [hres] at hcaps hnm hkm ⊢
      simp only at hnm hkm ⊢
      have h2' : 2 ≤ i.length := by
        rcases hd with hd | hd
        · by_contra hc
          apply hd
          match i, hc with
          | [], _ => simp
          | [a], _ => simp
          | a :: b :: l, hc => simp at hc
        · by_contra hc
          apply hd
          match j, h1 with
          | [], _ => simp
          | [a], _ => simp
          | a :: b :: l, h1 => simp at h1; omega
      have hw := hcaps.wk (by simp only; omega)
      simp only at hw
      rw [if_neg (by omega), if_pos]
      · exact ⟨_, rfl⟩
      · rintro ⟨c1, c2⟩
        have nd : ∀ p : List Int, checkPos ((argsort p).map (fun a => p.getD a 0)) ((s.N : Int) + i.length) = true → p.Nodup := by
          intro p hp
          exact (argsort_map_perm p p 0 rfl).nodup_iff.mp ((checkPos_strict (argsort_sorted p) hp).imp (fun h => by omega))
        rcases hd with hd | hd
        · exact hd (nd i c1)
        · exact hd (nd j c2)
    obtain ⟨t, ht⟩ := hthrow
    exact ⟨t, ht, Reach.refused h ht⟩
  · have hthrow : ∃ t, tryOp e s (.removeK i j) = .throws t := by
      simp only [tryOp]
      unfold tryRemoveK
      have pi := List.perm_insertionSort (· ≤ ·) i
      have pj := List.perm_insertionSort (· ≤ ·) j
      have si := List.pairwise_insertionSort (· ≤ ·) i
      have sj := List.pairwise_insertionSort (· ≤ ·) j
      dsimp only
      generalize i.insertionSort (· ≤ ·) = i' at *
      generalize j.insertionSort (· ≤ ·) = j' at *
      rw [if_neg (by simp [hl])]
      have nd : ∀ p q : List Int, q.Perm p → q.Pairwise (· ≤ ·) → ∀ b, checkPos q b = true → p.Nodup := by
        intro p q hpq hq b hp
        exact hpq.nodup_iff.mp ((checkPos_strict hq hp).imp (fun h => by omega))
      by_cases c1 : s.N ≥ 2
      · rw [if_neg (not_not.mpr c1)]
        by_cases c2 : i'.length = j'.length
        · rw [if_neg (by simpa using c2), if_pos]
          · exact ⟨_, rfl⟩
          · rintro ⟨c3, c4⟩
            rcases hd with hd | hd
            · exact hd (nd i i' pi si _ c3)
            · exact hd (nd j j' pj sj _ c4)
        · rw [if_pos c2]; exact ⟨_, rfl⟩
      · rw [if_pos c1]; exact ⟨_, rfl⟩
    obtain ⟨t, ht⟩ := hthrow
    exact ⟨t, ht, Reach.refused h ht⟩

end

/-- **C24 is false of the code**: for an object of size 2 (reachable, `ex2`) an insertion of two rows with the positions 0 and 9 is accepted and its
completion writes outside the table; a removal of the positions 0 and 2 reads outside the table; so does a change of row -1. -/
theorem position_check_incomplete :
    Reach exEnv ex2 [3, 1] [2, 4] ∧
    (tryOp exEnv ex2 (.insertK [0, 9] [0, 1] [5, 6] [7, 8])).isOk = true ∧
    (completeOperation exEnv ((tryOp exEnv ex2 (.insertK [0, 9] [0, 1] [5, 6] [7, 8])).state fresh)).isUndef = true ∧
    (tryOp exEnv ex2 (.removeK [0, 2] [0, 1])).isUndef = true ∧
    (tryOp exEnv ex2 (.changeRow (-1) 5)).isUndef = true :=
  ⟨ex2_reach, by decide +kernel, by decide +kernel, by decide +kernel, by decide +kernel⟩

/-- Lists of one position are not accepted by the multiple operations of a new object: the arrays have not been allocated. -/
theorem single_position_k : Reach exEnv ex2 [3, 1] [2, 4] ∧ (tryOp exEnv ex2 (.insertK [0] [1] [5] [7])).isUndef = true ∧
    (tryOp exEnv ex2 (.removeK [0] [1])).isUndef = true := ⟨ex2_reach, by decide +kernel, by decide +kernel⟩

/-- A refused multiple insertion leaves the object blocked: the next valid try is refused too. -/
theorem refused_blocks : Reach exEnv ex2 [3, 1] [2, 4] ∧ (tryOp exEnv ex2 (.insertK [0, 0] [0, 1] [5, 6] [7, 8])).isThrow = true ∧
    (tryOp exEnv ((tryOp exEnv ex2 (.insertK [0, 0] [0, 1] [5, 6] [7, 8])).state fresh) (.insert 0 0 5 7)).isThrow = true ∧
    (tryOp exEnv ex2 (.insert 0 0 5 7)).isOk = true := ⟨ex2_reach, by decide +kernel, by decide +kernel, by decide +kernel⟩

-- and what holds, on this object
example : (tryOp exEnv ex2 (.insert 3 0 5 7)).isThrow = true ∧ (tryOp exEnv ex2 (.remove (-1) 0)).isThrow = true := by decide +kernel

/-! ### C25 -/

section
variable {X Y K : Type} [Inhabited X] [Inhabited Y] [Field K] [DecidableEq K]

/-- **C25**, what holds: for objects with the same `kmax` (in particular when no multiple operation was ever tried) each of the two swapped objects
has the arguments, the inverse and the determinant of the other, and remains usable: all statements about reachable objects apply to it. Missing:
objects with different `kmax`, the thresholds, and a pending try. -/
theorem swap_partial {e : Env X Y K} {a b : State X Y K} {xa xb : List X} {ya yb : List Y} (ha : Reach e a xa ya) (hb : Reach e b xb yb)
    (hk : a.kmax = b.kmax) : Reach e (swapObj a b).1 xb yb ∧ Reach e (swapObj a b).2 xa ya ∧
      inverseOut (swapObj a b).1 xb.length = inverseOut b xb.length ∧ inverseOut (swapObj a b).2 xa.length = inverseOut a xa.length :=
  ⟨Reach.swap ha hb hk, Reach.swap hb ha hk.symm, rfl, rfl⟩

end

/-- **C25 is false of the code**: `a` is empty, `b` had a double insertion. After `swap(a, b)` the object `b` has the data of `a`, on which a double
insertion was possible; now it accesses arrays that were not allocated. -/
theorem swap_loses_capacity :
    Reach exEnv (ctorSize 4) [] [] ∧ Reach exEnv ex3 [6, 3, 1, 5] [2, 7, 8, 4] ∧
    (tryOp exEnv (ctorSize 4) (.insertK [0, 1] [0, 1] [5, 6] [7, 8])).isOk = true ∧
    (tryOp exEnv (swapObj (ctorSize 4) ex3).2 (.insertK [0, 1] [0, 1] [5, 6] [7, 8])).isUndef = true :=
  ⟨Reach.init 4, ex3_reach, by decide +kernel, by decide +kernel⟩

/-- The thresholds stay: after `swap(a, b)` the object `a` does not have the threshold of `b`. -/
theorem swap_keeps_threshold : ∃ a b : State ℚ ℚ ℚ, Reach exEnv a [] [] ∧ Reach exEnv b [] [] ∧
    (swapObj a b).1.singularThreshold ≠ b.singularThreshold :=
  ⟨ctorSize 4, _, Reach.init 4, Reach.options 100 (1 / 2) 0 0 (Reach.init 4), by decide +kernel⟩

-- two objects with the same capacity
example : Reach exEnv (swapObj ex1 ex2).1 [3, 1] [2, 4] := (swap_partial ex1_reach ex2_reach (by decide +kernel)).1
example : getX (swapObj ex1 ex2).2 = [1] := by decide +kernel

/-! ### C26 -/

section
variable {X Y K : Type} [Inhabited X] [Inhabited Y] [Field K] [DecidableEq K]

/-- the matrix function extended by one new row and one new column -/
def extF (f : X → Y → K) (fx : X → K) (fy : Y → K) (ksi : K) : Option X → Option Y → K
  | some x, some y => f x y
  | some x, none => fx x
  | none, some y => fy y
  | none, none => ksi

def extEnv (e : Env X Y K) (fx : X → K) (fy : Y → K) (ksi : K) : Env (Option X) (Option Y) K := ⟨extF e.f fx fy ksi, e.singular, e.deviates⟩

/-- the same object seen with extended arguments -/
def lift (s : State X Y K) : State (Option X) (Option Y) K :=
  { det := s.det, Nmax := s.Nmax, N := s.N, kmax := s.kmax, k := s.k, lastTry := s.lastTry, row := s.row, col := s.col, xs := s.xs.map some, ys := s.ys.map some,
    sign := s.sign, inv := s.inv, nOpts := s.nOpts, nOptsMax := s.nOptsMax, singularThreshold := s.singularThreshold, precisionWarning := s.precisionWarning,
    precisionError := s.precisionError,
    w1 := ⟨none, none, s.w1.i, s.w1.j, s.w1.ireal, s.w1.jreal, s.w1.MB, s.w1.MC, s.w1.B, s.w1.C, s.w1.ksi, s.w1.cap⟩,
    wk := ⟨s.wk.x.map some, s.wk.y.map some, s.wk.i, s.wk.j, s.wk.ireal, s.wk.jreal, s.wk.MB, s.wk.MC, s.wk.B, s.wk.C, s.wk.ksi, s.wk.capN, s.wk.capK⟩,
    wr := ⟨s.wr.x.map some, s.wr.y.map some, s.wr.M⟩, newdet := s.newdet, newsign := s.newsign }

theorem nth_map_some {α : Type} [Inhabited α] {l : List α} {i : Nat} (h : i < l.length) : nth (l.map some) i = some (nth l i) := by
  rw [nth_eq_getElem (by simpa using h), nth_eq_getElem h, List.getElem_map]

theorem getX_lift {s : State X Y K} {e : Env X Y K} (M : Mid e s) : getX (lift s) = (getX s).map some := by
  unfold getX
  rw [List.map_map]
  apply List.map_congr_left
  intro i hi
  simp only [Function.comp, lift]
  rw [nth_map_some]
  rw [M.lx]; exact M.row.getD_lt (by simpa [lift] using hi)

theorem getY_lift {s : State X Y K} {e : Env X Y K} (M : Mid e s) : getY (lift s) = (getY s).map some := by
  unfold getY
  rw [List.map_map]
  apply List.map_congr_left
  intro i hi
  simp only [Function.comp, lift]
  rw [nth_map_some]
  rw [M.ly]; exact M.col.getD_lt (by simpa [lift] using hi)

theorem dX_ext (f : X → Y → K) (fx : X → K) (fy : Y → K) (ksi : K) {x : List X} {y : List Y} (h : x.length = y.length) :
    dX (extF f fx fy ksi) (x.map some) (y.map some) = dX f x y := by
  unfold dX
  rw [List.length_map]
  apply detN_congr
  intro i hi j hj
  unfold U
  rw [nth_map_some hi, nth_map_some (by omega)]
  rfl

theorem lift_good {e : Env X Y K} {s : State X Y K} (G : Good e s) (fx : X → K) (fy : Y → K) (ksi : K) : Good (extEnv e fx fy ksi) (lift s) := by
  refine ⟨⟨?_, ?_, G.row, G.col, ?_, ⟨G.caps.k1, G.caps.w, G.caps.wk, G.caps.wk1⟩, G.nmax⟩, G.sgn, ?_⟩
  · simp [lift, G.lx]
  · simp [lift, G.ly]
  · refine G.inv.congr (fun _ _ _ _ => rfl) ?_
    intro i hi j hj
    simp only [lift, U]
    rw [nth_map_some (by rw [G.lx]; exact hi), nth_map_some (by rw [G.ly]; exact hj)]
    rfl
  · rw [getX_lift G.toMid, getY_lift G.toMid]
    refine G.det.trans ?_
    exact (dX_ext e.f fx fy ksi (by rw [getX_length, getY_length])).symm

theorem vec_congr {n : Nat} {g h : Nat → K} (he : ∀ i < n, g i = h i) : vec n g = vec n h := by
  unfold vec
  apply List.map_congr_left
  intro i hi
  exact he i (by simpa using hi)

/-- an insertion from functions is an insertion of the extra arguments -/
theorem lift_try {e : Env X Y K} {s : State X Y K} (G : Good e s) {i j : Int} {fx : X → K} {fy : Y → K} {ksi r : K} {s1 : State X Y K}
    (h : tryInsertFromFunction s i j fx fy ksi = .ok r s1) : tryInsert (extEnv e fx fy ksi) (lift s) i j none none = .ok r (lift s1) := by
  have hres : ∀ n k, reserve (lift s) n k = lift (reserve s n k) := by
    intro n k
    unfold reserve Wk.resize lift
    by_cases h1 : k > s.kmax <;> by_cases h2 : n ≤ (s.Nmax : Int) <;> simp only [h1, h2, if_true, if_false] <;> split_ifs <;> rfl
  unfold tryInsertFromFunction at h
  unfold tryInsert
  split_ifs at h with h1 h2 h3
  rw [if_neg (by simpa [lift] using h1), if_neg (by rw [not_not]; exact h2), if_neg (by rw [not_not]; exact h3)]
  change tryInsertCore { reserve (lift s) (s.N + 1 : Int) with lastTry := .insert, w1 := { (reserve (lift s) (s.N + 1 : Int)).w1 with i := i.toNat, j := j.toNat, x := none, y := none } } i.toNat j.toNat
    (fun l => extF e.f fx fy ksi (nth (reserve (lift s) (s.N + 1 : Int)).xs l) none) (fun l => extF e.f fx fy ksi none (nth (reserve (lift s) (s.N + 1 : Int)).ys l)) ksi = _
  rw [hres]
  obtain ⟨a, b, c, d, g, hr⟩ := reserve_eq s (s.N + 1 : Int) 1
  rw [hr] at h ⊢
  have e1 : vec s.N (fun l => extF e.f fx fy ksi (nth (s.xs.map some) l) none) = vec s.N (fun l => fx (nth s.xs l)) :=
    vec_congr (fun l hl => by rw [nth_map_some (by rw [G.lx]; exact hl)]; rfl)
  have e2 : vec s.N (fun l => extF e.f fx fy ksi none (nth (s.ys.map some) l)) = vec s.N (fun l => fy (nth s.ys l)) :=
    vec_congr (fun l hl => by rw [nth_map_some (by rw [G.ly]; exact hl)]; rfl)
  unfold tryInsertCore at h ⊢
  simp only [lift] at h ⊢
  rw [e1, e2]
  split at h
  case isTrue hN =>
    refine (if_pos hN).trans ?_
    injection h with h4 h5
    rw [← h4, ← h5]
  case isFalse hN =>
    refine (if_neg hN).trans ?_
    split at h
    · cases h
    · next hc =>
      refine (if_neg hc).trans ?_
      injection h with h4 h5
      rw [← h4, ← h5]

theorem insert_from_function_aux {e : Env X Y K} {s : State X Y K} {xl : List X} {yl : List Y} (h : Reach e s xl yl) {i j : Int} {fx : X → K} {fy : Y → K}
    {ksi r : K} {s1 : State X Y K} (ht : tryInsertFromFunction s i j fx fy ksi = .ok r s1) :
    let M := userMatrix (extF e.f fx fy ksi) ((xl.map some).insertIdx i.toNat none) ((yl.map some).insertIdx j.toNat none)
    r = M.det / (userMatrix e.f xl yl).det ∧
    ∀ s2, completeCase s1 = some s2 → inverseOut s2 ((xl.map some).insertIdx i.toNat none).length * M = 1 ∧ (s2.newsign : K) * s2.newdet = M.det := by
  obtain ⟨G, -, rfl, rfl⟩ := h.good
  have o := (tryInsert_outcome (lift_good G fx fy ksi) (lift_try G ht)).2
  rw [getX_lift G.toMid, getY_lift G.toMid] at o
  have hr := o.ratio
  rw [getX_lift G.toMid, getY_lift G.toMid] at hr
  have hd0 : dX (extEnv e fx fy ksi).f ((getX s).map some) ((getY s).map some) = dX e.f (getX s) (getY s) := dX_ext e.f fx fy ksi (by rw [getX_length, getY_length])
  rw [hd0] at hr
  refine ⟨by rw [← dX_userMatrix, ← dX_userMatrix, eq_div_iff G.d_ne]; exact hr, ?_⟩
  intro s2 hc
  have hl : s1.lastTry = .insert := by
    unfold tryInsertFromFunction tryInsertCore at ht
    dsimp only at ht
    split_ifs at ht <;> (injection ht with _ ht; rw [← ht])
  have hl' : (lift s1).lastTry = .insert := hl
  -- the completed object, with extended arguments
  have key : ∃ t2, completeCase (lift s1) = some t2 ∧ t2.row = s2.row ∧ t2.col = s2.col ∧ t2.inv = s2.inv ∧ t2.newsign = s2.newsign ∧ t2.newdet = s2.newdet := by
    unfold completeCase at hc ⊢
    rw [hl] at hc
    rw [hl']
    simp only [completeInsert] at hc ⊢
    simp only [lift]
    split at hc
    case isTrue hN =>
      split at hc
      · cases hc
      · next h0 =>
        injection hc with hc
        rw [← hc]
        exact ⟨_, (if_pos hN).trans (if_neg h0), rfl, rfl, rfl, rfl, rfl⟩
    case isFalse hN =>
      split at hc
      · cases hc
      · next h0 =>
        injection hc with hc
        rw [← hc]
        exact ⟨_, (if_neg hN).trans (if_neg h0), rfl, rfl, rfl, rfl, rfl⟩
  obtain ⟨t2, ht2, kr, kc, ki, ks, kd⟩ := key
  obtain ⟨A, ax, ay⟩ := o.done t2 ht2
  have hdet := A.det
  rw [ax, ay, ks, kd] at hdet
  refine ⟨?_, hdet⟩
  have h1 := A.inv.ord A.row A.col
  have hN : t2.N = (((getX s).map some).insertIdx i.toNat none).length := by rw [← ax, getX_length]
  unfold IsInv at h1
  rw [hN] at h1
  refine Eq.trans ?_ h1
  congr 1
  · unfold inverseOut inverseMatrix
    rw [← kr, ← kc, ← ki]; rfl
  · ext p q
    have hp : (p : Nat) < t2.N := by rw [hN]; exact p.2
    have hq : (q : Nat) < t2.N := by rw [hN]; exact q.2
    have e1 : nth (((getX s).map some).insertIdx i.toNat none) (p : Nat) = nth t2.xs (t2.row.getD p 0) := by
      have := nth_map (l := t2.row) (i := p) (nth t2.xs) (by rw [A.row.length]; exact hp)
      rw [← getX_eq t2 A.row.length, ax] at this; exact this
    have e2 : nth (((getY s).map some).insertIdx j.toNat none) (q : Nat) = nth t2.ys (t2.col.getD q 0) := by
      have := nth_map (l := t2.col) (i := q) (nth t2.ys) (by rw [A.col.length]; exact hq)
      rw [← getY_eq t2 A.col.length, ay] at this; exact this
    simp only [userMatrix, toM, Matrix.of_apply, Verif.DetManip.ord, U]
    rw [← e1, ← e2]
    rfl

/-- **C26**, what holds: the ratio returned is that of the matrix with the row and the column given by the functions (`none` is the new argument),
and, as long as the matrix is not recomputed by the periodic check, the completed object has the inverse and determinant of this matrix. Missing:
the arguments stored for the new row and column are those of the previous operation (see below). -/
theorem insert_from_function_partial {e : Env X Y K} {s : State X Y K} {xl : List X} {yl : List Y} (h : Reach e s xl yl) {i j : Int} {fx : X → K} {fy : Y → K}
    {ksi r : K} {s1 : State X Y K} (ht : tryInsertFromFunction s i j fx fy ksi = .ok r s1) :
    let M := userMatrix (extF e.f fx fy ksi) ((xl.map some).insertIdx i.toNat none) ((yl.map some).insertIdx j.toNat none)
    r = M.det / (userMatrix e.f xl yl).det ∧
    ∀ u s2, s1.nOpts < s1.nOptsMax → completeOperation e s1 = .ok u s2 →
      inverseOut s2 ((xl.map some).insertIdx i.toNat none).length * M = 1 ∧ (s2.sign : K) * s2.det = M.det := by
  obtain ⟨h1, h2⟩ := insert_from_function_aux h ht
  refine ⟨h1, ?_⟩
  intro u s2 hn hc
  have hl : s1.lastTry = .insert := by
    unfold tryInsertFromFunction tryInsertCore at ht
    dsimp only at ht
    split_ifs at ht <;> (injection ht with _ ht; rw [← ht])
  unfold completeOperation at hc
  rw [if_neg (by rw [hl]; decide)] at hc
  rcases hcc : completeCase s1 with _ | s'
  · rw [hcc] at hc; cases hc
  · rw [hcc] at hc
    have hk : s'.nOpts = s1.nOpts ∧ s'.nOptsMax = s1.nOptsMax := by
      unfold completeCase at hcc
      rw [hl] at hcc
      simp only [completeInsert] at hcc
      split_ifs at hcc <;> (injection hcc with hcc; rw [← hcc]; exact ⟨rfl, rfl⟩)
    simp only at hc
    rw [if_neg (by rw [hk.1, hk.2]; omega)] at hc
    injection hc with _ hc
    rw [← hc]
    exact h2 s' hcc

end

/-- the object after an insertion from functions that describe the arguments x = 5, y = 7 -/
def exFun : State ℚ ℚ ℚ :=
  (completeOperation exEnv ((tryInsertFromFunction ex2 1 1 (fun x => exEnv.f x 7) (fun y => exEnv.f 5 y) (exEnv.f 5 7)).state fresh)).state fresh

/-- **C26 is false of the code**: although the functions are those of the arguments 5 and 7, the object records the arguments of the previous
insertion (3 and 4), so the recorded matrix is singular and `regenerate` does not reproduce the determinant. -/
theorem insert_from_function_stale :
    Reach exEnv ex2 [3, 1] [2, 4] ∧
    (tryInsertFromFunction ex2 1 1 (fun x => exEnv.f x 7) (fun y => exEnv.f 5 y) (exEnv.f 5 7)).isOk = true ∧
    getX exFun = [3, 3, 1] ∧ getY exFun = [2, 4, 4] ∧ (exFun.sign : ℚ) * exFun.det ≠ 0 ∧ (userMatrix exEnv.f (getX exFun) (getY exFun)).det = 0 ∧
    (regenerate exEnv exFun).isOk = false :=
  ⟨ex2_reach, by decide +kernel, by decide +kernel, by decide +kernel, by decide +kernel, by decide +kernel, by decide +kernel⟩

-- the ratio returned is nevertheless right
example : (tryInsertFromFunction ex2 1 1 (fun x => exEnv.f x 7) (fun y => exEnv.f 5 y) (exEnv.f 5 7)).val = (tryInsert exEnv ex2 1 1 5 7).val := by decide +kernel

end Verif.DetManip
