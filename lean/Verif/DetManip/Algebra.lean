import Verif.DetManip.Model
import Mathlib.Data.Matrix.Block
import Mathlib.LinearAlgebra.Matrix.Block
import Mathlib.Data.List.GetD
import Mathlib.Tactic.LinearCombination
import Mathlib.Tactic.Abel
import Mathlib.Tactic.FieldSimp

/-!
# Determinants and inverses under reordering, bordering and truncation

Matrices are given by functions of natural numbers `g i j` of which the first `n × n` entries count. A list of numbers `r` reorders rows or
columns.
-/

namespace Verif.DetManip

open Matrix

variable {K : Type} [Field K]

theorem at1_vec {n i : Nat} (g : Nat → K) (h : i < n) : at1 (vec n g) i = g i := by
  simp [at1, vec, h]

theorem at2_mat {n m i j : Nat} (g : Nat → Nat → K) (hi : i < n) (hj : j < m) : at2 (mat n m g) i j = g i j := by
  simp [at2, mat, hi, hj]

theorem dot_eq (n : Nat) (g h : Nat → K) : dot n g h = ∑ l : Fin n, g l * h l := by
  simp [dot, Finset.sum_range]

theorem dot_congr {n : Nat} {g g' h h' : Nat → K} (hg : ∀ l < n, g l = g' l) (hh : ∀ l < n, h l = h' l) : dot n g h = dot n g' h' := by
  unfold dot
  apply Finset.sum_congr rfl
  intro l hl
  rw [hg l (by simpa using hl), hh l (by simpa using hl)]

theorem detN_eq (n : Nat) (g : Nat → Nat → K) : detN n g = (toM n n g).det := rfl

theorem toM_congr {n m : Nat} {g g' : Nat → Nat → K} (h : ∀ i < n, ∀ j < m, g i j = g' i j) : toM n m g = toM n m g' := by
  ext i j; exact h i i.2 j j.2

theorem detN_congr {n : Nat} {g g' : Nat → Nat → K} (h : ∀ i < n, ∀ j < n, g i j = g' i j) : detN n g = detN n g' := by
  rw [detN_eq, detN_eq, toM_congr h]

/-- `a` is the inverse of `g` on the first `n` indices -/
def IsInv (n : Nat) (a g : Nat → Nat → K) : Prop := toM n n a * toM n n g = 1

theorem IsInv.congr {n : Nat} {a a' g g' : Nat → Nat → K} (h : IsInv n a g) (ha : ∀ i < n, ∀ j < n, a i j = a' i j)
    (hg : ∀ i < n, ∀ j < n, g i j = g' i j) : IsInv n a' g' := by
  unfold IsInv; rw [← toM_congr ha, ← toM_congr hg]; exact h

theorem IsInv.right {n : Nat} {a g : Nat → Nat → K} (h : IsInv n a g) : toM n n g * toM n n a = 1 := _root_.mul_eq_one_comm.mp h

theorem IsInv.det_ne {n : Nat} {a g : Nat → Nat → K} (h : IsInv n a g) : detN n g ≠ 0 := by
  intro h0
  have := congrArg Matrix.det h
  rw [Matrix.det_mul, ← detN_eq n g, h0, mul_zero, Matrix.det_one] at this
  exact zero_ne_one this

theorem at2_invN {n i j : Nat} (g : Nat → Nat → K) (hi : i < n) (hj : j < n) :
    at2 (invN n g) i j = ((detN n g)⁻¹ • (toM n n g).adjugate) ⟨i, hi⟩ ⟨j, hj⟩ := by
  have h : ∀ (F : Fin n → Fin n → K), at2 ((List.finRange n).map (fun i => (List.finRange n).map (fun j => F i j))) i j = F ⟨i, hi⟩ ⟨j, hj⟩ := by
    intro F
    unfold at2
    have h1 : ((List.finRange n).map (fun i => (List.finRange n).map (fun j => F i j))).getD i [] = (List.finRange n).map (fun j => F ⟨i, hi⟩ j) := by
      rw [List.getD_eq_getElem _ _ (by simpa using hi)]; simp
    rw [h1, List.getD_eq_getElem _ _ (by simpa using hj)]
    simp
  unfold invN
  rw [h]
  simp

theorem invN_isInv {n : Nat} (g : Nat → Nat → K) (h : detN n g ≠ 0) : IsInv n (at2 (invN n g)) g := by
  unfold IsInv
  have : toM n n (at2 (invN n g)) = (detN n g)⁻¹ • (toM n n g).adjugate := by
    ext i j
    exact at2_invN g i.2 j.2
  rw [this, Matrix.smul_mul, Matrix.adjugate_mul, ← detN_eq, smul_smul, inv_mul_cancel₀ h, one_smul]

/-! ## Reordering -/

/-- `r` lists `0..n-1` in some order -/
abbrev IsPerm (n : Nat) (r : List Nat) : Prop := r.Perm (List.range n)

theorem IsPerm.length {n : Nat} {r : List Nat} (h : IsPerm n r) : r.length = n := by simpa using List.Perm.length_eq h
theorem IsPerm.lt {n : Nat} {r : List Nat} (h : IsPerm n r) {a : Nat} (ha : a ∈ r) : a < n := by
  simpa using (List.Perm.mem_iff h).mp ha
theorem IsPerm.mem {n : Nat} {r : List Nat} (h : IsPerm n r) {a : Nat} (ha : a < n) : a ∈ r :=
  (List.Perm.mem_iff h).mpr (by simpa using ha)
theorem IsPerm.nodup {n : Nat} {r : List Nat} (h : IsPerm n r) : r.Nodup := (List.Perm.nodup_iff h).mpr List.nodup_range

theorem getD_mem {r : List Nat} {i : Nat} (h : i < r.length) : r.getD i 0 ∈ r := by
  rw [List.getD_eq_getElem _ _ h]; exact List.getElem_mem h

theorem IsPerm.getD_lt {n : Nat} {r : List Nat} (h : IsPerm n r) {i : Nat} (hi : i < n) : r.getD i 0 < n :=
  h.lt (getD_mem (by rw [h.length]; exact hi))

theorem IsPerm.inj {n : Nat} {r : List Nat} (h : IsPerm n r) {i j : Nat} (hi : i < n) (hj : j < n) (he : r.getD i 0 = r.getD j 0) : i = j := by
  have hl := h.length
  rw [List.getD_eq_getElem _ _ (by omega), List.getD_eq_getElem _ _ (by omega)] at he
  exact (List.Nodup.getElem_inj_iff h.nodup).mp he

/-- a reordering as an equivalence -/
theorem IsPerm.equiv {n : Nat} {r : List Nat} (h : IsPerm n r) : ∃ e : Fin n ≃ Fin n, ∀ i : Fin n, (e i : Nat) = r.getD i 0 := by
  let F : Fin n → Fin n := fun i => ⟨r.getD i 0, h.getD_lt i.2⟩
  have hF : Function.Injective F := by
    intro i j hij
    apply Fin.ext
    exact h.inj i.2 j.2 (by simpa [F] using hij)
  exact ⟨Equiv.ofBijective F (Finite.injective_iff_bijective.mp hF), fun i => rfl⟩

/-- rows in the order `r`, columns in the order `c` -/
def ord (g : Nat → Nat → K) (r c : List Nat) : Nat → Nat → K := fun i j => g (r.getD i 0) (c.getD j 0)

theorem IsInv.ord {n : Nat} {a g : Nat → Nat → K} (h : IsInv n a g) {r c : List Nat} (hr : IsPerm n r) (hc : IsPerm n c) :
    IsInv n (ord a c r) (ord g r c) := by
  obtain ⟨er, her⟩ := hr.equiv
  obtain ⟨ec, hec⟩ := hc.equiv
  have h1 : toM n n (Verif.DetManip.ord a c r) = (toM n n a).submatrix ec er := by
    ext i j; simp [toM, Verif.DetManip.ord, hec, her]
  have h2 : toM n n (Verif.DetManip.ord g r c) = (toM n n g).submatrix er ec := by
    ext i j; simp [toM, Verif.DetManip.ord, hec, her]
  unfold IsInv
  rw [h1, h2, Matrix.submatrix_mul_equiv, h, Matrix.submatrix_one_equiv]

/-- determinant in a given order -/
def detO (n : Nat) (g : Nat → Nat → K) (r c : List Nat) : K := detN n (ord g r c)

theorem detO_transpose (n : Nat) (g : Nat → Nat → K) (r c : List Nat) : detO n g r c = detO n (fun i j => g j i) c r := by
  unfold detO
  rw [detN_eq, detN_eq, ← Matrix.det_transpose]
  rfl

theorem detO_swap_rows {n : Nat} (g : Nat → Nat → K) (r r' c : List Nat) {p q : Nat} (hp : p < n) (hq : q < n) (hpq : p ≠ q)
    (h : ∀ i < n, r'.getD i 0 = r.getD (if i = p then q else if i = q then p else i) 0) : detO n g r' c = - detO n g r c := by
  have : toM n n (ord g r' c) = (toM n n (ord g r c)).submatrix (Equiv.swap ⟨p, hp⟩ ⟨q, hq⟩ : Equiv.Perm (Fin n)) id := by
    ext i j
    simp only [toM, ord, Matrix.of_apply, Matrix.submatrix_apply, id]
    rw [h i i.2]
    congr 2
    rw [Equiv.swap_apply_def]
    by_cases h1 : (i : Nat) = p
    · rw [if_pos h1, if_pos (Fin.ext h1)]
    · rw [if_neg h1, if_neg (fun h => h1 (congrArg Fin.val h))]
      by_cases h2 : (i : Nat) = q
      · rw [if_pos h2, if_pos (Fin.ext h2)]
      · rw [if_neg h2, if_neg (fun h => h2 (congrArg Fin.val h))]
  unfold detO
  rw [detN_eq, this, Matrix.det_permute, Equiv.Perm.sign_swap (fun h => hpq (congrArg Fin.val h)), ← detN_eq]
  simp

/-- moving a row to the right across `b` -/
theorem detO_move_row {n : Nat} (g : Nat → Nat → K) (c : List Nat) (x : Nat) : ∀ (b a w : List Nat), (a ++ x :: b ++ w).length = n →
    detO n g (a ++ x :: b ++ w) c = (-1) ^ b.length * detO n g (a ++ b ++ x :: w) c := by
  intro b
  induction b with
  | nil => intro a w _; simp
  | cons y b ih =>
    intro a w hl
    have h1 : detO n g (a ++ x :: (y :: b) ++ w) c = - detO n g ((a ++ [y]) ++ x :: b ++ w) c := by
      apply detO_swap_rows g _ _ c (p := a.length) (q := a.length + 1) (by simp at hl; omega) (by simp at hl; omega) (by omega)
      intro i hi
      have e1 : a ++ x :: (y :: b) ++ w = a ++ (x :: y :: (b ++ w)) := by simp
      have e2 : (a ++ [y]) ++ x :: b ++ w = a ++ (y :: x :: (b ++ w)) := by simp
      rw [e1, e2]
      by_cases hi1 : i < a.length
      · rw [if_neg (by omega), if_neg (by omega), List.getD_append _ _ _ _ hi1, List.getD_append _ _ _ _ hi1]
      · rw [List.getD_append_right _ _ _ _ (by omega)]
        by_cases hi2 : i = a.length
        · subst hi2; rw [if_pos rfl, List.getD_append_right _ _ _ _ (by omega)]; simp
        · rw [if_neg hi2]
          by_cases hi3 : i = a.length + 1
          · subst hi3; rw [if_pos rfl, List.getD_append_right _ _ _ _ (by omega)]; simp
          · rw [if_neg hi3, List.getD_append_right _ _ _ _ (by omega)]
            obtain ⟨t, ht⟩ : ∃ t, i - a.length = t + 2 := ⟨i - a.length - 2, by omega⟩
            rw [ht]; simp
    rw [h1, ih (a ++ [y]) w (by simp at hl ⊢; omega)]
    simp [pow_succ]

theorem detO_move_col {n : Nat} (g : Nat → Nat → K) (r : List Nat) (x : Nat) (b a w : List Nat) (h : (a ++ x :: b ++ w).length = n) :
    detO n g r (a ++ x :: b ++ w) = (-1) ^ b.length * detO n g r (a ++ b ++ x :: w) := by
  rw [detO_transpose, detO_move_row _ _ _ _ _ _ h, detO_transpose n g]

/-! ## Selecting positions -/

/-- the entries at positions not in `I` -/
def removeAt {α : Type} (I : List Nat) (v : List α) : List α :=
  (List.range v.length).filterMap (fun p => if p ∈ I then none else v[p]?)

/-- the entries at the positions `I` -/
def select {α : Type} [Inhabited α] (I : List Nat) (v : List α) : List α := I.map (fun p => nth v p)

theorem filterMap_take {α : Type} (v : List α) (i : Nat) (hi : i ≤ v.length) : (List.range i).filterMap (fun p => v[p]?) = v.take i := by
  induction i with
  | zero => simp
  | succ i ih =>
    rw [List.range_succ, List.filterMap_append, ih (by omega), List.take_add_one]
    have : v[i]? = some v[i] := List.getElem?_eq_getElem (by omega)
    simp [this]

/-- structure of `removeAt` at the smallest position -/
theorem removeAt_cons {α : Type} [Inhabited α] (v : List α) (i : Nat) (I : List Nat) (hi : i < v.length) (hI : ∀ p ∈ I, i < p) :
    ∃ b, removeAt I v = v.take i ++ nth v i :: b ∧ removeAt (i :: I) v = v.take i ++ b := by
  refine ⟨(List.range' (i + 1) (v.length - (i + 1))).filterMap (fun p => if p ∈ I then none else v[p]?), ?_, ?_⟩
  · unfold removeAt
    have hr : List.range v.length = List.range i ++ i :: List.range' (i + 1) (v.length - (i + 1)) := by
      rw [List.range_eq_range', List.range_eq_range', ← List.range'_succ, show v.length - (i + 1) + 1 = v.length - i by omega]
      have := List.range'_append (s := 0) (m := i) (n := v.length - i) (step := 1)
      rw [Nat.one_mul, Nat.zero_add] at this
      rw [this, show i + (v.length - i) = v.length by omega]
    rw [hr, List.filterMap_append, List.filterMap_cons]
    have h1 : (List.range i).filterMap (fun p => if p ∈ I then none else v[p]?) = v.take i := by
      rw [← filterMap_take v i (by omega)]
      apply List.filterMap_congr
      intro p hp
      rw [if_neg]
      intro h
      have := hI p h
      simp at hp; omega
    rw [h1, if_neg (fun h => absurd (hI i h) (lt_irrefl _)), List.getElem?_eq_getElem hi]
    simp [nth, hi]
  · unfold removeAt
    have hr : List.range v.length = List.range i ++ i :: List.range' (i + 1) (v.length - (i + 1)) := by
      rw [List.range_eq_range', List.range_eq_range', ← List.range'_succ, show v.length - (i + 1) + 1 = v.length - i by omega]
      have := List.range'_append (s := 0) (m := i) (n := v.length - i) (step := 1)
      rw [Nat.one_mul, Nat.zero_add] at this
      rw [this, show i + (v.length - i) = v.length by omega]
    rw [hr, List.filterMap_append, List.filterMap_cons]
    have h1 : (List.range i).filterMap (fun p => if p ∈ i :: I then none else v[p]?) = v.take i := by
      rw [← filterMap_take v i (by omega)]
      apply List.filterMap_congr
      intro p hp
      rw [if_neg]
      intro h
      simp at hp
      rcases List.mem_cons.mp h with h | h
      · omega
      · have := hI p h; omega
    rw [h1]
    simp only [List.mem_cons, true_or, if_true]
    congr 1
    apply List.filterMap_congr
    intro p hp
    have : p ≠ i := by rw [List.mem_range'_1] at hp; omega
    simp [this]

theorem removeAt_nil {α : Type} (v : List α) : removeAt [] v = v := by
  unfold removeAt
  simp only [List.not_mem_nil, if_false]
  rw [filterMap_take v v.length (le_refl _), List.take_length]

/-- number of inversions that the selection costs -/
def moves (n : Nat) : List Nat → Nat
  | [] => 0
  | i :: I => moves n I + (n - I.length - 1 - i)

theorem removeAt_length {α : Type} [Inhabited α] (v : List α) : ∀ (I : List Nat), I.Pairwise (· < ·) → (∀ i ∈ I, i < v.length) →
    (removeAt I v).length + I.length = v.length := by
  intro I
  induction I with
  | nil => intro _ _; rw [removeAt_nil]; simp
  | cons i I ih =>
    intro hs hb
    obtain ⟨b, h1, h2⟩ := removeAt_cons v i I (hb i (by simp)) (fun p hp => (List.pairwise_cons.mp hs).1 p hp)
    have := ih (List.pairwise_cons.mp hs).2 (fun p hp => hb p (by simp [hp]))
    rw [h1] at this
    rw [h2]
    simp at this ⊢
    omega

theorem select_perm {v : List Nat} : ∀ (I : List Nat), I.Pairwise (· < ·) → (∀ i ∈ I, i < v.length) →
    (removeAt I v ++ select I v).Perm v := by
  intro I
  induction I with
  | nil => intro _ _; rw [removeAt_nil]; simp [select]
  | cons i I ih =>
    intro hs hb
    obtain ⟨b, h1, h2⟩ := removeAt_cons v i I (hb i (by simp)) (fun p hp => (List.pairwise_cons.mp hs).1 p hp)
    have := ih (List.pairwise_cons.mp hs).2 (fun p hp => hb p (by simp [hp]))
    rw [h1] at this
    rw [h2]
    refine List.Perm.trans ?_ this
    simp only [select, List.map_cons, List.append_assoc]
    apply List.Perm.append_left
    rw [List.cons_append]
    exact List.perm_middle

theorem detO_select_rows {n : Nat} (g : Nat → Nat → K) (c : List Nat) (v : List Nat) (hv : v.length = n) : ∀ (I : List Nat),
    I.Pairwise (· < ·) → (∀ i ∈ I, i < n) → detO n g v c = (-1) ^ moves n I * detO n g (removeAt I v ++ select I v) c := by
  intro I
  induction I with
  | nil => intro _ _; rw [removeAt_nil]; simp [select, moves]
  | cons i I ih =>
    intro hs hb
    have hs' := (List.pairwise_cons.mp hs).2
    have hb' : ∀ p ∈ I, p < n := fun p hp => hb p (by simp [hp])
    obtain ⟨b, h1, h2⟩ := removeAt_cons v i I (by rw [hv]; exact hb i (by simp)) (fun p hp => (List.pairwise_cons.mp hs).1 p hp)
    have hlen := removeAt_length v I hs' (by rw [hv]; exact hb')
    rw [ih hs' hb', h2]
    have hbl : b.length = n - I.length - 1 - i := by
      rw [h1] at hlen
      have := hb i (by simp)
      simp at hlen; omega
    have hl : (v.take i ++ nth v i :: b ++ select I v).length = n := by
      rw [h1] at hlen
      have := hb i (by simp)
      simp [select] at hlen ⊢; omega
    rw [h1, detO_move_row g c (nth v i) b (v.take i) (select I v) hl, moves, pow_add, hbl, mul_assoc]
    simp [select]

theorem detO_select_cols {n : Nat} (g : Nat → Nat → K) (r : List Nat) (v : List Nat) (hv : v.length = n) (I : List Nat)
    (hs : I.Pairwise (· < ·)) (hb : ∀ i ∈ I, i < n) : detO n g r v = (-1) ^ moves n I * detO n g r (removeAt I v ++ select I v) := by
  rw [detO_transpose, detO_select_rows _ _ v hv I hs hb, detO_transpose n g]

theorem moves_parity (n : Nat) : ∀ (I J : List Nat), I.length = J.length → I.Pairwise (· < ·) → J.Pairwise (· < ·) → (∀ i ∈ I, i < n) →
    (∀ j ∈ J, j < n) → (moves n I + moves n J) % 2 = (I.sum + J.sum) % 2 := by
  intro I
  induction I with
  | nil => intro J h; cases J with
    | nil => intros; rfl
    | cons _ _ => simp at h
  | cons i I ih =>
    intro J h hI hJ hbI hbJ
    cases J with
    | nil => simp at h
    | cons j J =>
      have hl : I.length = J.length := by simpa using h
      have := ih J hl (List.pairwise_cons.mp hI).2 (List.pairwise_cons.mp hJ).2 (fun p hp => hbI p (by simp [hp])) (fun p hp => hbJ p (by simp [hp]))
      -- the positions behind `i` are distinct and below `n`
      have room : ∀ (l : List Nat) (i : Nat), (i :: l).Pairwise (· < ·) → (∀ p ∈ i :: l, p < n) → i + l.length + 1 ≤ n := by
        intro l
        induction l with
        | nil => intro i _ hb; have := hb i (by simp); simp; omega
        | cons a l ih2 =>
          intro i hs hb
          have h1 := ih2 a (List.pairwise_cons.mp hs).2 (fun p hp => hb p (by simp [List.mem_cons.mp hp]))
          have h2 := (List.pairwise_cons.mp hs).1 a (by simp)
          simp; omega
      have r1 := room I i hI hbI
      have r2 := room J j hJ hbJ
      simp only [moves, List.sum_cons]
      omega

/-! ## Bordering -/

omit [Field K] in
theorem toM_block {n k : Nat} (g : Nat → Nat → K) :
    toM (n + k) (n + k) g = (fromBlocks (toM n n g) (toM n k (fun i j => g i (n + j))) (toM k n (fun i j => g (n + i) j))
      (toM k k (fun i j => g (n + i) (n + j)))).submatrix finSumFinEquiv.symm finSumFinEquiv.symm := by
  ext i j
  simp only [Matrix.submatrix_apply]
  induction i using Fin.addCases <;> induction j using Fin.addCases <;> simp [toM, fromBlocks]

theorem detN_block {n k : Nat} (g : Nat → Nat → K) :
    detN (n + k) g = (fromBlocks (toM n n g) (toM n k (fun i j => g i (n + j))) (toM k n (fun i j => g (n + i) j))
      (toM k k (fun i j => g (n + i) (n + j)))).det := by
  rw [detN_eq, toM_block, Matrix.det_submatrix_equiv_self]

/-- Schur complement of the bordered matrix -/
def schur (n : Nat) (a g : Nat → Nat → K) : Nat → Nat → K := fun m l => g (n + m) (n + l) - ∑ p : Fin n, ∑ q : Fin n, g (n + m) p * a p q * g q (n + l)

theorem detN_border {n k : Nat} {a g : Nat → Nat → K} (h : IsInv n a g) : detN (n + k) g = detN n g * detN k (schur n a g) := by
  rw [detN_block]
  have hm : fromBlocks (toM n n g) (toM n k (fun i j => g i (n + j))) (toM k n (fun i j => g (n + i) j)) (toM k k (fun i j => g (n + i) (n + j))) *
      fromBlocks 1 (-(toM n n a * toM n k (fun i j => g i (n + j)))) 0 1 =
      fromBlocks (toM n n g) 0 (toM k n (fun i j => g (n + i) j)) (toM k k (schur n a g)) := by
    rw [fromBlocks_multiply]
    congr 1
    · simp
    · rw [Matrix.mul_neg, ← Matrix.mul_assoc, h.right]; simp
    · simp
    · rw [Matrix.mul_neg, ← Matrix.mul_assoc, Matrix.mul_one, neg_add_eq_sub]
      ext m l
      simp only [Matrix.sub_apply, Matrix.mul_apply, toM, schur, Matrix.of_apply, Finset.sum_mul]
      rw [Finset.sum_comm]
  have := congrArg Matrix.det hm
  rw [Matrix.det_mul, det_fromBlocks_zero₂₁, det_fromBlocks_zero₁₂, Matrix.det_one, Matrix.det_one, mul_one, mul_one] at this
  rw [this, detN_eq, detN_eq]

/-- the Schur complement does not depend on the order of the old rows and columns -/
theorem schur_ord {n : Nat} {a g : Nat → Nat → K} {r c r' c' : List Nat} (hr : IsPerm n r) (hc : IsPerm n c) (m l : Nat) :
    schur n (ord a c r) (ord g (r ++ r') (c ++ c')) m l =
      g (r'.getD m 0) (c'.getD l 0) - ∑ p : Fin n, ∑ q : Fin n, g (r'.getD m 0) p * a p q * g q (c'.getD l 0) := by
  obtain ⟨er, her⟩ := hr.equiv
  obtain ⟨ec, hec⟩ := hc.equiv
  have hlr := hr.length
  have hlc := hc.length
  have gl : ∀ (r r' : List Nat), r.length = n → ∀ i, (r ++ r').getD (n + i) 0 = r'.getD i 0 := by
    intro r r' h i
    rw [List.getD_append_right _ _ _ _ (by omega), h, Nat.add_sub_cancel_left]
  have gs : ∀ (r r' : List Nat), r.length = n → ∀ i : Fin n, (r ++ r').getD i 0 = r.getD i 0 := by
    intro r r' h i
    rw [List.getD_append _ _ _ _ (by have := i.2; omega)]
  unfold schur
  simp only [ord, gl r r' hlr, gl c c' hlc, gs r r' hlr, gs c c' hlc, ← her, ← hec]
  congr 1
  rw [← Equiv.sum_comp ec (fun p => ∑ q : Fin n, g (r'.getD m 0) p * a p q * g q (c'.getD l 0))]
  apply Finset.sum_congr rfl
  intro p _
  rw [← Equiv.sum_comp er (fun q => g (r'.getD m 0) (ec p) * a (ec p) q * g q (c'.getD l 0))]

/-- **insertion, determinant** in the order of the user: new rows and columns at the end -/
theorem detO_border {n k : Nat} {a g : Nat → Nat → K} (h : IsInv n a g) {r c r' c' : List Nat} (hr : IsPerm n r) (hc : IsPerm n c) :
    detO (n + k) g (r ++ r') (c ++ c') = detO n g r c *
      detN k (fun m l => g (r'.getD m 0) (c'.getD l 0) - ∑ p : Fin n, ∑ q : Fin n, g (r'.getD m 0) p * a p q * g q (c'.getD l 0)) := by
  have hlr := hr.length
  have hlc := hc.length
  have hcut : ∀ i < n, ∀ j < n, ord g r c i j = ord g (r ++ r') (c ++ c') i j := by
    intro i hi j hj
    unfold ord
    rw [List.getD_append _ _ _ _ (by omega), List.getD_append _ _ _ _ (by omega)]
  have hi : IsInv n (ord a c r) (ord g (r ++ r') (c ++ c')) := (h.ord hr hc).congr (fun _ _ _ _ => rfl) hcut
  unfold detO
  rw [detN_border hi, detN_congr (fun i hi j hj => (hcut i hi j hj).symm)]
  congr 1
  apply detN_congr
  intro m _ l _
  exact schur_ord hr hc m l

/-- **insertion, inverse** -/
theorem IsInv.border {n k : Nat} {a g : Nat → Nat → K} (h : IsInv n a g) (b : Nat → Nat → K) (hb : IsInv k b (schur n a g)) (a' : Nat → Nat → K)
    (h11 : ∀ i < n, ∀ j < n, a' i j = a i j + ∑ l : Fin k, ∑ m : Fin k,
      (∑ p : Fin n, a i p * g p (n + l)) * b l m * (∑ p : Fin n, g (n + m) p * a p j))
    (h12 : ∀ i < n, ∀ m < k, a' i (n + m) = - ∑ l : Fin k, (∑ p : Fin n, a i p * g p (n + l)) * b l m)
    (h21 : ∀ l < k, ∀ j < n, a' (n + l) j = - ∑ m : Fin k, b l m * (∑ p : Fin n, g (n + m) p * a p j))
    (h22 : ∀ l < k, ∀ m < k, a' (n + l) (n + m) = b l m) : IsInv (n + k) a' g := by
  unfold IsInv
  have hA : toM (n + k) (n + k) a' = (fromBlocks
      (toM n n a + toM n n a * toM n k (fun i j => g i (n + j)) * toM k k b * (toM k n (fun i j => g (n + i) j) * toM n n a))
      (-(toM n n a * toM n k (fun i j => g i (n + j)) * toM k k b))
      (-(toM k k b * (toM k n (fun i j => g (n + i) j) * toM n n a))) (toM k k b)).submatrix finSumFinEquiv.symm finSumFinEquiv.symm := by
    rw [toM_block]
    congr 2
    · ext i j
      simp only [toM, Matrix.of_apply, Matrix.add_apply, Matrix.mul_apply]
      rw [h11 i i.2 j j.2]
      congr 1
      rw [Finset.sum_comm]
      apply Finset.sum_congr rfl
      intro m _
      rw [Finset.sum_mul]
    · ext i j
      simp only [toM, Matrix.of_apply, Matrix.neg_apply, Matrix.mul_apply]
      rw [h12 i i.2 j j.2]
    · ext i j
      simp only [toM, Matrix.of_apply, Matrix.neg_apply, Matrix.mul_apply]
      rw [h21 i i.2 j j.2]
    · ext i j
      simp only [toM, Matrix.of_apply]
      rw [h22 i i.2 j j.2]
  have hS : toM k k (schur n a g) = toM k k (fun i j => g (n + i) (n + j)) -
      toM k n (fun i j => g (n + i) j) * toM n n a * toM n k (fun i j => g i (n + j)) := by
    ext m l
    simp only [Matrix.sub_apply, Matrix.mul_apply, toM, schur, Matrix.of_apply, Finset.sum_mul]
    rw [Finset.sum_comm]
  unfold IsInv at h hb
  rw [hS] at hb
  rw [hA, toM_block g, Matrix.submatrix_mul_equiv, fromBlocks_multiply]
  generalize toM n n a = A at *
  generalize toM n n g = G at *
  generalize toM n k (fun i j => g i (n + j)) = B at *
  generalize toM k n (fun i j => g (n + i) j) = C at *
  generalize toM k k (fun i j => g (n + i) (n + j)) = E at *
  generalize toM k k b = S at *
  have hSE : S * E = 1 + S * (C * A * B) := by rw [Matrix.mul_sub] at hb; rw [← hb]; abel
  have : fromBlocks ((A + A * B * S * (C * A)) * G + -(A * B * S) * C) ((A + A * B * S * (C * A)) * B + -(A * B * S) * E)
      (-(S * (C * A)) * G + S * C) (-(S * (C * A)) * B + S * E) = (1 : Matrix (Fin n ⊕ Fin k) (Fin n ⊕ Fin k) K) := by
    rw [← fromBlocks_one]
    congr 1
    · rw [Matrix.add_mul, h]
      simp only [Matrix.mul_assoc, Matrix.neg_mul, h, Matrix.mul_one]
      abel
    · rw [Matrix.add_mul, Matrix.neg_mul]
      simp only [Matrix.mul_assoc] at hSE ⊢
      rw [hSE]
      simp only [Matrix.mul_add, Matrix.mul_one]
      abel
    · simp only [Matrix.neg_mul, Matrix.mul_assoc, h, Matrix.mul_one]
      abel
    · simp only [Matrix.neg_mul, Matrix.mul_assoc] at hSE ⊢
      rw [hSE]
      abel
  rw [this, Matrix.submatrix_one_equiv]

/-! ## Truncation -/

/-- **removal, determinant** -/
theorem detN_truncate {n k : Nat} {a g : Nat → Nat → K} (h : IsInv (n + k) a g) :
    detN n g = detN (n + k) g * detN k (fun i j => a (n + i) (n + j)) := by
  have h' := h.right
  rw [toM_block g, toM_block a, Matrix.submatrix_mul_equiv, fromBlocks_multiply] at h'
  have h1 : fromBlocks (toM n n g * toM n n a + toM n k (fun i j => g i (n + j)) * toM k n (fun i j => a (n + i) j))
      (toM n n g * toM n k (fun i j => a i (n + j)) + toM n k (fun i j => g i (n + j)) * toM k k (fun i j => a (n + i) (n + j)))
      (toM k n (fun i j => g (n + i) j) * toM n n a + toM k k (fun i j => g (n + i) (n + j)) * toM k n (fun i j => a (n + i) j))
      (toM k n (fun i j => g (n + i) j) * toM n k (fun i j => a i (n + j)) + toM k k (fun i j => g (n + i) (n + j)) * toM k k (fun i j => a (n + i) (n + j)))
      = (1 : Matrix (Fin n ⊕ Fin k) (Fin n ⊕ Fin k) K) := by
    have := congrArg (fun M => M.submatrix finSumFinEquiv finSumFinEquiv) h'
    simpa using this
  rw [← fromBlocks_one, fromBlocks_inj] at h1
  have hm : fromBlocks (toM n n g) (toM n k (fun i j => g i (n + j))) (toM k n (fun i j => g (n + i) j)) (toM k k (fun i j => g (n + i) (n + j))) *
      fromBlocks 1 (toM n k (fun i j => a i (n + j))) 0 (toM k k (fun i j => a (n + i) (n + j))) =
      fromBlocks (toM n n g) 0 (toM k n (fun i j => g (n + i) j)) 1 := by
    rw [fromBlocks_multiply, h1.2.1, h1.2.2.2]
    simp
  have := congrArg Matrix.det hm
  rw [Matrix.det_mul, det_fromBlocks_zero₂₁, det_fromBlocks_zero₁₂, Matrix.det_one, Matrix.det_one, mul_one, one_mul] at this
  rw [detN_block, detN_eq, detN_eq, this]

/-- **removal, inverse** -/
theorem IsInv.truncate {n k : Nat} {a g : Nat → Nat → K} (h : IsInv (n + k) a g) (b : Nat → Nat → K)
    (hb : IsInv k b (fun i j => a (n + i) (n + j))) (a' : Nat → Nat → K)
    (ha : ∀ i < n, ∀ j < n, a' i j = a i j - ∑ l : Fin k, ∑ m : Fin k, a i (n + l) * b l m * a (n + m) j) : IsInv n a' g := by
  unfold IsInv at h
  rw [toM_block g, toM_block a, Matrix.submatrix_mul_equiv, fromBlocks_multiply] at h
  have h1 := congrArg (fun M => M.submatrix finSumFinEquiv finSumFinEquiv) h
  simp only [Matrix.submatrix_submatrix, Equiv.symm_comp_self, Matrix.submatrix_id_id, Matrix.submatrix_one_equiv] at h1
  rw [← fromBlocks_one, fromBlocks_inj] at h1
  obtain ⟨e1, -, e3, -⟩ := h1
  unfold IsInv
  have hA : toM n n a' = toM n n a - toM n k (fun i j => a i (n + j)) * toM k k b * toM k n (fun i j => a (n + i) j) := by
    ext i j
    simp only [toM, Matrix.of_apply, Matrix.sub_apply, Matrix.mul_apply, Finset.sum_mul]
    rw [ha i i.2 j j.2, Finset.sum_comm]
  unfold IsInv at hb
  rw [hA]
  generalize toM n n a = A at *
  generalize toM n n g = G at *
  generalize toM n k (fun i j => a i (n + j)) = Q at *
  generalize toM k n (fun i j => a (n + i) j) = R at *
  generalize toM k k (fun i j => a (n + i) (n + j)) = S at *
  generalize toM k k b = B at *
  generalize toM k n (fun i j => g (n + i) j) = C at *
  have e3' : R * G = -(S * C) := eq_neg_of_add_eq_zero_left e3
  rw [Matrix.sub_mul, Matrix.mul_assoc _ R G, e3', Matrix.mul_neg, sub_neg_eq_add, ← Matrix.mul_assoc, Matrix.mul_assoc Q B S, hb, Matrix.mul_one]
  exact e1

end Verif.DetManip
