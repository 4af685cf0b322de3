import Verif.DetManip.Lists
import Mathlib.Algebra.BigOperators.Field
import Mathlib.LinearAlgebra.Matrix.SchurComplement

/-!
# Determinants of matrices `f (x i) (y j)` given by argument lists, and updates of the inverse
-/

namespace Verif.DetManip

open Matrix

variable {X Y K : Type} [Inhabited X] [Inhabited Y] [Field K]

/-- the matrix of two argument lists -/
def U (f : X → Y → K) (x : List X) (y : List Y) : Nat → Nat → K := fun i j => f (nth x i) (nth y j)

/-- its determinant -/
def dX (f : X → Y → K) (x : List X) (y : List Y) : K := detN x.length (U f x y)

theorem detO_U (f : X → Y → K) (xs : List X) (ys : List Y) {n : Nat} {r c : List Nat} (hr : r.length = n) (hc : c.length = n) :
    detO n (U f xs ys) r c = dX f (r.map (nth xs)) (c.map (nth ys)) := by
  unfold detO dX
  rw [List.length_map, hr]
  apply detN_congr
  intro i hi j hj
  unfold ord U
  rw [nth_map _ (by omega), nth_map _ (by omega)]

theorem dX_eq_detO (f : X → Y → K) (x : List X) (y : List Y) {n : Nat} (hx : x.length = n) (hy : y.length = n) :
    dX f x y = detO n (U f x y) (List.range n) (List.range n) := by
  rw [detO_U f x y (by simp) (by simp)]
  conv_lhs => rw [← map_nth_range x, ← map_nth_range y, hx, hy]

theorem neg_one_pow_parity {a b : Nat} (h : a % 2 = b % 2) : (-1 : K) ^ a = (-1) ^ b := by
  rcases Nat.even_or_odd a with ha | ha
  · have hb : Even b := by rw [Nat.even_iff] at ha ⊢; omega
    rw [ha.neg_one_pow, hb.neg_one_pow]
  · have hb : Odd b := by rw [Nat.odd_iff] at ha ⊢; omega
    rw [ha.neg_one_pow, hb.neg_one_pow]

/-- sign of moving the rows at positions `I` and the columns at positions `J` to the end -/
theorem dX_select (f : X → Y → K) (x : List X) (y : List Y) {n : Nat} (hx : x.length = n) (hy : y.length = n) {I J : List Nat}
    (hl : I.length = J.length) (hI : I.Pairwise (· < ·)) (hJ : J.Pairwise (· < ·)) (bI : ∀ i ∈ I, i < n) (bJ : ∀ j ∈ J, j < n) :
    dX f x y = (-1) ^ (I.sum + J.sum) * dX f (removeAt I x ++ select I x) (removeAt J y ++ select J y) := by
  rw [dX_eq_detO f x y hx hy, detO_select_rows _ _ _ (by simp) I hI bI, detO_select_cols _ _ _ (by simp) J hJ bJ, ← mul_assoc, ← pow_add]
  rw [neg_one_pow_parity (moves_parity n I J hl hI hJ bI bJ)]
  congr 1
  have l1 := (select_perm (v := List.range n) I hI (by simpa using bI)).length_eq
  have l2 := (select_perm (v := List.range n) J hJ (by simpa using bJ)).length_eq
  rw [detO_U f x y (by simpa using l1) (by simpa using l2)]
  rw [List.map_append, List.map_append, ← removeAt_map, ← removeAt_map, ← select_map I _ _ (by simpa using bI), ← select_map J _ _ (by simpa using bJ)]
  rw [← hx, map_nth_range, hx, ← hy, map_nth_range]

theorem map_range'_nth {α : Type} [Inhabited α] (l l' : List α) {n k : Nat} (h : l.length = n) (h' : l'.length = k) :
    (List.range' n k).map (nth (l ++ l')) = l' := by
  apply ext_nth
  · simp [h']
  · intro i hi
    have hi' : i < k := by simpa using hi
    rw [nth_map _ (by simpa using hi')]
    have : (List.range' n k).getD i 0 = n + i := by rw [List.getD_eq_getElem _ _ (by simpa using hi')]; simp
    rw [this, nth_append_right (by omega), h, Nat.add_sub_cancel_left]

theorem map_nth_append {α : Type} [Inhabited α] (l l' : List α) {r : List Nat} (h : ∀ a ∈ r, a < l.length) :
    r.map (nth (l ++ l')) = r.map (nth l) := by
  apply List.map_congr_left
  intro a ha
  exact nth_append_left (h a ha)

/-- the matrix `ξ` of an insertion -/
def xi (f : X → Y → K) (n : Nat) (a : Nat → Nat → K) (xs : List X) (ys : List Y) (xn : List X) (yn : List Y) : Nat → Nat → K :=
  fun m l => f (nth xn m) (nth yn l) - ∑ p : Fin n, ∑ q : Fin n, f (nth xn m) (nth ys p) * a p q * f (nth xs q) (nth yn l)

/-- **insertion**: determinant after the insertion of `xn`, `yn` at the positions `I`, `J` of the new lists -/
theorem dX_insert (f : X → Y → K) {n k : Nat} {a : Nat → Nat → K} {xs : List X} {ys : List Y} (hx : xs.length = n) (hy : ys.length = n)
    (h : IsInv n a (U f xs ys)) {r c : List Nat} (hr : IsPerm n r) (hc : IsPerm n c) {x' : List X} {y' : List Y} {xn : List X} {yn : List Y}
    (hxn : xn.length = k) (hyn : yn.length = k) {I J : List Nat} (hlx : x'.length = n + k) (hly : y'.length = n + k)
    (hIl : I.length = k) (hJl : J.length = k)
    (hI : I.Pairwise (· < ·)) (hJ : J.Pairwise (· < ·)) (bI : ∀ i ∈ I, i < n + k) (bJ : ∀ j ∈ J, j < n + k)
    (e1 : removeAt I x' = r.map (nth xs)) (e2 : select I x' = xn) (e3 : removeAt J y' = c.map (nth ys)) (e4 : select J y' = yn) :
    dX f x' y' = (-1) ^ (I.sum + J.sum) * (dX f (r.map (nth xs)) (c.map (nth ys)) * detN k (xi f n a xs ys xn yn)) := by
  rw [dX_select f x' y' hlx hly (by omega) hI hJ bI bJ, e1, e2, e3, e4]
  congr 1
  have hcut : ∀ i < n, ∀ j < n, U f xs ys i j = U f (xs ++ xn) (ys ++ yn) i j := by
    intro i hi j hj
    unfold U
    rw [nth_append_left (by omega), nth_append_left (by omega)]
  have h' : IsInv n a (U f (xs ++ xn) (ys ++ yn)) := h.congr (fun _ _ _ _ => rfl) hcut
  have := detO_border (k := k) h' hr hc (r' := List.range' n k) (c' := List.range' n k)
  rw [detO_U f _ _ (by simp [hr.length]) (by simp [hc.length]), detO_U f _ _ hr.length hc.length, List.map_append, List.map_append,
    map_nth_append xs xn (fun a ha => by rw [hx]; exact hr.lt ha), map_nth_append ys yn (fun a ha => by rw [hy]; exact hc.lt ha),
    map_range'_nth xs xn hx hxn, map_range'_nth ys yn hy hyn] at this
  rw [this]
  congr 1
  apply detN_congr
  intro m hm l hl
  have gr : ∀ i < k, (List.range' n k).getD i 0 = n + i := by
    intro i hi; rw [List.getD_eq_getElem _ _ (by simpa using hi)]; simp
  unfold xi U
  rw [gr m hm, gr l hl]
  have t1 : ∀ m, nth (xs ++ xn) (n + m) = nth xn m := by intro m; rw [nth_append_right (by omega), hx, Nat.add_sub_cancel_left]
  have t2 : ∀ m, nth (ys ++ yn) (n + m) = nth yn m := by intro m; rw [nth_append_right (by omega), hy, Nat.add_sub_cancel_left]
  simp only [t1, t2]
  congr 1
  apply Finset.sum_congr rfl
  intro p _
  apply Finset.sum_congr rfl
  intro q _
  rw [nth_append_left (by have := q.2; omega), nth_append_left (by have := p.2; omega)]

/-- **removal**: determinant without the rows at the positions `I` and the columns at the positions `J` -/
theorem dX_remove (f : X → Y → K) {N : Nat} {a : Nat → Nat → K} {xs : List X} {ys : List Y}
    (h : IsInv N a (U f xs ys)) {r c : List Nat} (hr : IsPerm N r) (hc : IsPerm N c) {I J : List Nat} {k : Nat}
    (hIl : I.length = k) (hJl : J.length = k)
    (hI : I.Pairwise (· < ·)) (hJ : J.Pairwise (· < ·)) (bI : ∀ i ∈ I, i < N) (bJ : ∀ j ∈ J, j < N) :
    dX f (removeAt I (r.map (nth xs))) (removeAt J (c.map (nth ys))) =
      (-1) ^ (I.sum + J.sum) * (dX f (r.map (nth xs)) (c.map (nth ys)) * detN k (fun l m => a (c.getD (J.getD l 0) 0) (r.getD (I.getD m 0) 0))) := by
  have bI' : ∀ i ∈ I, i < r.length := by rw [hr.length]; exact bI
  have bJ' : ∀ j ∈ J, j < c.length := by rw [hc.length]; exact bJ
  have lr := removeAt_length r I hI bI'
  have lc := removeAt_length c J hJ bJ'
  rw [hr.length] at lr; rw [hc.length] at lc
  have hr' : IsPerm N (removeAt I r ++ select I r) := (select_perm I hI bI').trans hr
  have hc' : IsPerm N (removeAt J c ++ select J c) := (select_perm J hJ bJ').trans hc
  have hs := dX_select f (r.map (nth xs)) (c.map (nth ys)) (n := N) (by simp [hr.length]) (by simp [hc.length]) (by omega) hI hJ bI bJ
  rw [removeAt_map, removeAt_map, select_map I _ _ bI', select_map J _ _ bJ', ← List.map_append, ← List.map_append,
    ← detO_U f xs ys hr'.length hc'.length] at hs
  obtain ⟨n, hn⟩ : ∃ n, N = n + k := ⟨(removeAt I r).length, by omega⟩
  have ht := h.ord hr' hc'
  unfold detO at hs
  subst hn
  have hk := detN_truncate ht
  have e1 : detN n (ord (U f xs ys) (removeAt I r ++ select I r) (removeAt J c ++ select J c)) =
      dX f (removeAt I (r.map (nth xs))) (removeAt J (c.map (nth ys))) := by
    rw [removeAt_map, removeAt_map, ← detO_U f xs ys (n := n) (by omega) (by omega)]
    unfold detO
    apply detN_congr
    intro i hi j hj
    unfold ord
    rw [List.getD_append _ _ _ _ (by omega), List.getD_append _ _ _ _ (by omega)]
  rw [e1] at hk
  have e2 : detN k (fun i j => ord a (removeAt J c ++ select J c) (removeAt I r ++ select I r) (n + i) (n + j)) =
      detN k (fun l m => a (c.getD (J.getD l 0) 0) (r.getD (I.getD m 0) 0)) := by
    apply detN_congr
    intro i hi j hj
    unfold ord
    rw [List.getD_append_right _ _ _ _ (by omega), List.getD_append_right _ _ _ _ (by omega)]
    rw [show n + i - (removeAt J c).length = i by omega, show n + j - (removeAt I r).length = j by omega]
    unfold select
    have m1 : (J.map (fun p => nth c p)).getD i 0 = nth c (J.getD i 0) := nth_map (α := Nat) _ (by omega)
    have m2 : (I.map (fun p => nth r p)).getD j 0 = nth r (I.getD j 0) := nth_map (α := Nat) _ (by omega)
    rw [m1, m2]; rfl
  rw [e2] at hk
  rw [hk, hs]
  have : ((-1 : K) ^ (I.sum + J.sum)) * (-1) ^ (I.sum + J.sum) = 1 := by rw [← mul_pow]; simp
  linear_combination (- detN (n + k) (ord (U f xs ys) (removeAt I r ++ select I r) (removeAt J c ++ select J c)) *
    detN k (fun l m => a (c.getD (J.getD l 0) 0) (r.getD (I.getD m 0) 0))) * this

/-! ## Change of one column, one row, or both -/

theorem permDet_eq {n : Nat} {r : List Nat} (h : IsPerm n r) : ∃ e : Equiv.Perm (Fin n), (∀ i : Fin n, (e i : Nat) = r.getD i 0) ∧ permDet n r = (Equiv.Perm.sign e : ℤ) := by
  obtain ⟨e, he⟩ := h.equiv
  refine ⟨e, he, ?_⟩
  unfold permDet detN
  have : Matrix.of (fun i j : Fin n => if r.getD i 0 = j then (1 : ℤ) else 0) = (1 : Matrix (Fin n) (Fin n) ℤ).submatrix e id := by
    ext i j
    simp only [Matrix.of_apply, Matrix.submatrix_apply, id, Matrix.one_apply, ← he, Fin.ext_iff]
  rw [this, Matrix.det_permute]
  simp

/-- reordering multiplies the determinant by the signs of the two tables -/
theorem detO_perm {n : Nat} (g : Nat → Nat → K) {r c : List Nat} (hr : IsPerm n r) (hc : IsPerm n c) :
    detO n g r c = ((permDet n r * permDet n c : ℤ) : K) * detN n g := by
  obtain ⟨er, her, hpr⟩ := permDet_eq hr
  obtain ⟨ec, hec, hpc⟩ := permDet_eq hc
  unfold detO
  rw [detN_eq, detN_eq, hpr, hpc]
  have : toM n n (ord g r c) = ((toM n n g).submatrix er id).submatrix id ec := by
    ext i j; simp [toM, ord, her, hec]
  rw [this, Matrix.det_permute', Matrix.det_permute]
  push_cast
  ring

theorem permDet_sign {n : Nat} {r : List Nat} (h : IsPerm n r) : permDet n r = 1 ∨ permDet n r = -1 := by
  obtain ⟨e, -, he⟩ := permDet_eq h
  rw [he]
  rcases Int.units_eq_one_or (Equiv.Perm.sign e) with h | h <;> simp [h]

/-- replacement of a column: determinant -/
theorem detN_col {n : Nat} {a g g' : Nat → Nat → K} (h : IsInv n a g) {j : Nat} (hj : j < n) (hg : ∀ i < n, ∀ l < n, l ≠ j → g' i l = g i l) :
    detN n g' = detN n g * dot n (a j) (fun m => g' m j) := by
  have e : toM n n a * toM n n g' = (1 : Matrix (Fin n) (Fin n) K).updateCol ⟨j, hj⟩ (fun i => dot n (a i) (fun m => g' m j)) := by
    ext i l
    rw [Matrix.updateCol_apply]
    by_cases hl : l = ⟨j, hj⟩
    · rw [if_pos hl, Matrix.mul_apply, dot_eq, hl]; rfl
    · rw [if_neg hl, ← h, Matrix.mul_apply, Matrix.mul_apply]
      apply Finset.sum_congr rfl
      intro m _
      have : g' m l = g m l := hg m m.2 l l.2 (fun he => hl (Fin.ext he))
      simp [toM, this]
  have hd := congrArg Matrix.det e
  rw [Matrix.det_mul, ← Matrix.cramer_apply, Matrix.cramer_one] at hd
  have h1 := congrArg Matrix.det h
  rw [Matrix.det_mul, Matrix.det_one] at h1
  rw [detN_eq, detN_eq]
  simp only [Module.End.one_apply] at hd
  linear_combination (-(toM n n g').det) * h1 + (toM n n g).det * hd

/-- replacement of a column: inverse -/
theorem IsInv.col {n : Nat} {a g g' a' : Nat → Nat → K} (h : IsInv n a g) {j : Nat} (hj : j < n) (hg : ∀ i < n, ∀ l < n, l ≠ j → g' i l = g i l)
    (hne : dot n (a j) (fun m => g' m j) ≠ 0)
    (ha : ∀ i < n, ∀ l < n, a' i l = if i = j then a j l / dot n (a j) (fun m => g' m j)
      else a i l - dot n (a i) (fun m => g' m j) / dot n (a j) (fun m => g' m j) * a j l) : IsInv n a' g' := by
  have hent : ∀ i : Fin n, ∀ l : Fin n, ∑ m : Fin n, a i m * g m l = (1 : Matrix (Fin n) (Fin n) K) i l := by
    intro i l; rw [← h, Matrix.mul_apply]; rfl
  unfold IsInv
  ext i l
  rw [Matrix.mul_apply]
  simp only [toM, Matrix.of_apply]
  have hs : ∀ m : Fin n, a' i m = if (i : Nat) = j then a j m / dot n (a j) (fun m => g' m j)
      else a i m - dot n (a i) (fun m => g' m j) / dot n (a j) (fun m => g' m j) * a j m := fun m => ha i i.2 m m.2
  simp only [hs]
  have hrow : ∀ (p : Fin n) , ∑ m : Fin n, a p m * g' m l = if (l : Nat) = j then dot n (a p) (fun m => g' m j) else (1 : Matrix (Fin n) (Fin n) K) p l := by
    intro p
    by_cases hl : (l : Nat) = j
    · rw [if_pos hl, dot_eq, hl]
    · rw [if_neg hl, ← hent]
      apply Finset.sum_congr rfl
      intro m _
      rw [hg m m.2 l l.2 hl]
  have hrj := hrow ⟨j, hj⟩
  by_cases hi : (i : Nat) = j
  · simp only [if_pos hi]
    have : ∑ m : Fin n, a j m / dot n (a j) (fun m => g' m j) * g' m l = (∑ m : Fin n, a j m * g' m l) / dot n (a j) (fun m => g' m j) := by
      rw [Finset.sum_div]; apply Finset.sum_congr rfl; intro m _; ring
    rw [this, hrj]
    have hij : i = ⟨j, hj⟩ := Fin.ext hi
    by_cases hl : (l : Nat) = j
    · rw [if_pos hl, div_self hne]
      have hlj : l = ⟨j, hj⟩ := Fin.ext hl
      rw [hij, hlj, Matrix.one_apply_eq]
    · rw [if_neg hl]
      have hlj : (⟨j, hj⟩ : Fin n) ≠ l := fun he => hl (congrArg Fin.val he.symm)
      rw [hij, Matrix.one_apply_ne hlj, zero_div]
  · simp only [if_neg hi]
    have : ∑ m : Fin n, (a i m - dot n (a i) (fun m => g' m j) / dot n (a j) (fun m => g' m j) * a j m) * g' m l =
        (∑ m : Fin n, a i m * g' m l) - dot n (a i) (fun m => g' m j) / dot n (a j) (fun m => g' m j) * (∑ m : Fin n, a j m * g' m l) := by
      rw [Finset.mul_sum, ← Finset.sum_sub_distrib]; apply Finset.sum_congr rfl; intro m _; ring
    rw [this, hrow i, hrj]
    by_cases hl : (l : Nat) = j
    · rw [if_pos hl, if_pos hl, div_mul_cancel₀ _ hne, sub_self]
      have : i ≠ l := fun he => hi (by rw [he]; exact hl)
      rw [Matrix.one_apply_ne this]
    · rw [if_neg hl, if_neg hl]
      have hlj : (⟨j, hj⟩ : Fin n) ≠ l := fun he => hl (congrArg Fin.val he.symm)
      rw [Matrix.one_apply_ne hlj, mul_zero, sub_zero]

theorem IsInv.transpose {n : Nat} {a g : Nat → Nat → K} (h : IsInv n a g) : IsInv n (fun i j => a j i) (fun i j => g j i) := by
  have := congrArg Matrix.transpose h.right
  rw [Matrix.transpose_mul, Matrix.transpose_one] at this
  exact this

theorem detN_transpose (n : Nat) (g : Nat → Nat → K) : detN n (fun i j => g j i) = detN n g := by
  rw [detN_eq, detN_eq, ← Matrix.det_transpose]; rfl

theorem detN_row {n : Nat} {a g g' : Nat → Nat → K} (h : IsInv n a g) {i : Nat} (hi : i < n) (hg : ∀ l < n, ∀ j < n, l ≠ i → g' l j = g l j) :
    detN n g' = detN n g * dot n (fun m => a m i) (g' i) := by
  rw [← detN_transpose n g', ← detN_transpose n g]
  exact detN_col h.transpose hi (fun i hi l hl hne => hg l hl i hi hne)

theorem IsInv.row {n : Nat} {a g g' a' : Nat → Nat → K} (h : IsInv n a g) {i : Nat} (hi : i < n) (hg : ∀ l < n, ∀ j < n, l ≠ i → g' l j = g l j)
    (hne : dot n (fun m => a m i) (g' i) ≠ 0)
    (ha : ∀ l < n, ∀ j < n, a' l j = if j = i then a l i / dot n (fun m => a m i) (g' i)
      else a l j - dot n (fun m => a m j) (g' i) / dot n (fun m => a m i) (g' i) * a l i) : IsInv n a' g' :=
  (IsInv.col (a' := fun i j => a' j i) h.transpose hi (fun i hi l hl hne => hg l hl i hi hne) hne (fun i hi l hl => ha l hl i hi)).transpose

/-- change of a row and a column: determinant (Sylvester) -/
theorem detN_rowcol {n : Nat} {a g : Nat → Nat → K} (h : IsInv n a g) {i j : Nat} (hi : i < n) (hj : j < n) (u w : Nat → K) (g' : Nat → Nat → K)
    (hg : ∀ p < n, ∀ q < n, g' p q = g p q + (if q = j then u p else 0) + (if p = i then w q else 0)) :
    detN n g' = detN n g * ((1 + dot n (a j) u) * (1 + dot n w (fun m => a m i)) - a j i * dot n w (fun p => dot n (a p) u)) := by
  let A : Matrix (Fin n) (Fin 2) K := Matrix.of (fun p t => if t = 0 then dot n (a p) u else a p i)
  let B : Matrix (Fin 2) (Fin n) K := Matrix.of (fun t q => if t = 0 then (if (q : Nat) = j then 1 else 0) else w q)
  have e : toM n n a * toM n n g' = 1 + A * B := by
    rw [← h]
    ext p q
    rw [Matrix.add_apply, Matrix.mul_apply, Matrix.mul_apply, Matrix.mul_apply, Fin.sum_univ_two]
    simp only [toM, Matrix.of_apply, A, B]
    have : ∀ m : Fin n, a p m * g' m q = a p m * g m q + (if (q : Nat) = j then a p m * u m else 0) + (if (m : Nat) = i then a p m * w q else 0) := by
      intro m
      rw [hg m m.2 q q.2]
      split_ifs <;> ring
    simp only [this, Finset.sum_add_distrib]
    have h2 : ∑ m : Fin n, (if (m : Nat) = i then a p m * w q else 0) = a p i * w q := by
      rw [Finset.sum_eq_single ⟨i, hi⟩]
      · simp
      · intro b _ hb; rw [if_neg (fun he => hb (Fin.ext he))]
      · simp
    rw [h2]
    by_cases hq : (q : Nat) = j
    · simp [hq, dot_eq, add_assoc]
    · simp [hq, add_assoc]
  have hBA : (1 + B * A).det = (1 + dot n (a j) u) * (1 + dot n w (fun m => a m i)) - a j i * dot n w (fun p => dot n (a p) u) := by
    rw [Matrix.det_fin_two]
    have k1 : ∀ (F : Nat → K), ∑ q : Fin n, (if (q : Nat) = j then (1 : K) else 0) * F q = F j := by
      intro F
      rw [Finset.sum_eq_single ⟨j, hj⟩]
      · simp
      · intro b _ hb; rw [if_neg (fun he => hb (Fin.ext he)), zero_mul]
      · simp
    simp only [Matrix.add_apply, Matrix.mul_apply, A, B, Matrix.of_apply, if_true, if_false, Fin.isValue, one_ne_zero, Matrix.one_apply_eq,
      Matrix.one_apply_ne (show (0 : Fin 2) ≠ 1 by decide), Matrix.one_apply_ne (show (1 : Fin 2) ≠ 0 by decide), zero_add]
    rw [k1 (fun q => dot n (a q) u), k1 (fun q => a q i)]
    simp only [dot_eq]
  have hd := congrArg Matrix.det e
  rw [Matrix.det_mul, Matrix.det_one_add_mul_comm, hBA] at hd
  have h1 := congrArg Matrix.det h
  rw [Matrix.det_mul, Matrix.det_one] at h1
  rw [detN_eq, detN_eq]
  linear_combination (-(toM n n g').det) * h1 + (toM n n g).det * hd

/-- change of a row and a column: inverse (Woodbury) -/
theorem IsInv.rowcol {n : Nat} {a g a' : Nat → Nat → K} (h : IsInv n a g) {i j : Nat} (hi : i < n) (hj : j < n) (u w : Nat → K) (g' : Nat → Nat → K)
    (hg : ∀ p < n, ∀ q < n, g' p q = g p q + (if q = j then u p else 0) + (if p = i then w q else 0))
    (D : K) (hD : D = (1 + dot n (a j) u) * (1 + dot n w (fun m => a m i)) - a j i * dot n w (fun p => dot n (a p) u)) (hne : D ≠ 0)
    (ha : ∀ p < n, ∀ q < n, a' p q = a p q + (-(1 + dot n w (fun m => a m i)) / D * dot n (a p) u * a j q
      + -(1 + dot n (a j) u) / D * a p i * dot n w (fun m => a m q)
      + a j i / D * dot n (a p) u * dot n w (fun m => a m q) + dot n w (fun p => dot n (a p) u) / D * a p i * a j q)) : IsInv n a' g' := by
  have hent : ∀ p : Fin n, ∀ q : Fin n, ∑ m : Fin n, a p m * g m q = (1 : Matrix (Fin n) (Fin n) K) p q := by
    intro i l; rw [← h, Matrix.mul_apply]; rfl
  have hg' : ∀ m q : Fin n, g' m q = g m q + (if (q : Nat) = j then u m else 0) + (if (m : Nat) = i then w q else 0) := fun m q => hg m m.2 q q.2
  -- a row times the new matrix
  have hrow : ∀ (v : Nat → K) (q : Fin n), ∑ m : Fin n, v m * g' m q =
      (∑ m : Fin n, v m * g m q) + (if (q : Nat) = j then dot n v u else 0) + v i * w q := by
    intro v q
    simp only [hg', mul_add, Finset.sum_add_distrib]
    congr 1
    · congr 1
      by_cases hq : (q : Nat) = j
      · simp [hq, dot_eq]
      · simp [hq]
    · rw [Finset.sum_eq_single ⟨i, hi⟩]
      · simp
      · intro b _ hb; rw [if_neg (fun he => hb (Fin.ext he)), mul_zero]
      · simp
  unfold IsInv
  ext p q
  rw [Matrix.mul_apply]
  simp only [toM, Matrix.of_apply]
  have hs : ∀ m : Fin n, a' p m = a p m + (-(1 + dot n w (fun m => a m i)) / D * dot n (a p) u + dot n w (fun p => dot n (a p) u) / D * a p i) * a j m
      + (-(1 + dot n (a j) u) / D * a p i + a j i / D * dot n (a p) u) * dot n w (fun l => a l m) := by
    intro m; rw [ha p p.2 m m.2]; ring
  simp only [hs, add_mul, Finset.sum_add_distrib, mul_assoc, ← Finset.mul_sum]
  rw [hrow (a p) q, hrow (a j) q, hrow (fun m => dot n w (fun l => a l m)) q, hent p q]
  have hjq := hent ⟨j, hj⟩ q
  simp only at hjq
  rw [hjq]
  -- w A g = w and w A u
  have hw : ∑ m : Fin n, dot n w (fun l => a l m) * g m q = w q := by
    simp only [dot_eq, Finset.sum_mul]
    rw [Finset.sum_comm]
    have : ∀ l : Fin n, ∑ m : Fin n, w l * a l m * g m q = w l * (1 : Matrix (Fin n) (Fin n) K) l q := by
      intro l; rw [← hent, Finset.mul_sum]; apply Finset.sum_congr rfl; intro m _; ring
    simp only [this]
    rw [Finset.sum_eq_single q]
    · simp
    · intro b _ hb; rw [Matrix.one_apply_ne hb, mul_zero]
    · simp
  have hwu : dot n (fun m => dot n w (fun l => a l m)) u = dot n w (fun p => dot n (a p) u) := by
    simp only [dot_eq, Finset.sum_mul, Finset.mul_sum]
    rw [Finset.sum_comm]
    apply Finset.sum_congr rfl; intro l _
    apply Finset.sum_congr rfl; intro m _
    ring
  rw [hw, hwu]
  generalize dot n w (fun p => dot n (a p) u) = Z at *
  generalize dot n w (fun m => a m i) = Yi at *
  generalize dot n (a j) u = Xj at *
  generalize dot n (a p) u = Cp at *
  generalize a j i = M at *
  generalize a p i = P at *
  generalize w q = W at *
  have hone : (if (q : Nat) = j then (1 : K) else 0) = (1 : Matrix (Fin n) (Fin n) K) ⟨j, hj⟩ q := by
    by_cases hq : (q : Nat) = j
    · have : q = ⟨j, hj⟩ := Fin.ext hq
      rw [if_pos hq, this, Matrix.one_apply_eq]
    · have : (⟨j, hj⟩ : Fin n) ≠ q := fun he => hq (congrArg Fin.val he.symm)
      rw [if_neg hq, Matrix.one_apply_ne this]
  rw [← hone]
  generalize (1 : Matrix (Fin n) (Fin n) K) p q = o
  split_ifs
  · field_simp
    rw [hD]; ring
  · field_simp
    rw [hD]; ring

end Verif.DetManip
