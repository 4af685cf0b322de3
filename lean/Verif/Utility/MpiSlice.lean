import Mathlib.Algebra.BigOperators.Group.List.Basic
import Mathlib.Algebra.BigOperators.Group.Finset.Basic
import Mathlib.Tactic.Ring
import Mathlib.Tactic.Linarith

/-!
# Property C129: distribution of arrays over nodes

Source: `/repo/python/triqs/utility/mpi_mpi4py.py`.

Simplifications: `all_reduce` is the sum over the nodes of what they contribute, added in the order of the ranks.
-/

namespace Verif.MpiSlice

/-! ## Model -/

/-- `slice_inf`, mpi_mpi4py.py:96-99; `//` rounds down, which for a positive number of nodes is `/` on integers -/
def sliceInf (size rank imin imax : ℤ) : ℤ :=
  let j := (imax - imin + 1) / size
  let i := imax - imin + 1 - size * j
  if rank ≤ i - 1 then imin + rank * (j + 1) else imin + rank * j + i

/-- `slice_sup`, mpi_mpi4py.py:101-104 -/
def sliceSup (size rank imin imax : ℤ) : ℤ :=
  let j := (imax - imin + 1) / size
  let i := imax - imin + 1 - size * j
  if rank ≤ i - 1 then imin + (rank + 1) * (j + 1) - 1 else imin + (rank + 1) * j + i - 1

/-- an end of a Python slice for an array with `n` elements: negative numbers count from the end -/
def pyEnd (n : ℕ) (i : ℤ) : ℕ := if i < 0 then (i + n).toNat else min i.toNat n

/-- `A[a:b]` -/
def pySlice {α : Type*} (l : List α) (a b : ℤ) : List α :=
  (l.take (pyEnd l.length b)).drop (pyEnd l.length a)

/-- `slice_array` on the node `rank`, mpi_mpi4py.py:106-109 -/
def sliceArray {α : Type*} (size rank : ℕ) (l : List α) : List α :=
  let imax : ℤ := (l.length : ℤ) - 1
  pySlice l (sliceInf size rank 0 imax) (sliceSup size rank 0 imax + 1)

/-- `all_reduce` of a quantity which is on each node the sum over its slice -/
def reduceSum {α M : Type*} [AddCommMonoid M] (size : ℕ) (f : α → M) (l : List α) : M :=
  ((List.range size).map (fun r => ((sliceArray size r l).map f).sum)).sum

/-! ## Proofs -/

/-- first index of the slice of node `r`, in natural numbers -/
def cutAt (size n r : ℕ) : ℕ := r * (n / size) + min r (n % size)

theorem sliceInf_eq (size n r : ℕ) : sliceInf size r 0 ((n : ℤ) - 1) = cutAt size n r := by
  unfold sliceInf cutAt
  have e : (n : ℤ) - 1 - 0 + 1 = n := by ring
  have e2 : (n : ℤ) - size * ((n : ℤ) / size) = ((n % size : ℕ) : ℤ) := by
    rw [← Int.emod_def]; push_cast; rfl
  simp only [e, e2]
  have e3 : (n : ℤ) / size = ((n / size : ℕ) : ℤ) := by push_cast; rfl
  rw [e3]
  split
  · rename_i h
    have : r < n % size := by omega
    rw [min_eq_left this.le]
    push_cast; ring
  · rename_i h
    have : n % size ≤ r := by omega
    rw [min_eq_right this]
    push_cast; ring

theorem sliceSup_eq (size n r : ℕ) : sliceSup size r 0 ((n : ℤ) - 1) + 1 = cutAt size n (r + 1) := by
  unfold sliceSup cutAt
  have e : (n : ℤ) - 1 - 0 + 1 = n := by ring
  have e2 : (n : ℤ) - size * ((n : ℤ) / size) = ((n % size : ℕ) : ℤ) := by
    rw [← Int.emod_def]; push_cast; rfl
  simp only [e, e2]
  have e3 : (n : ℤ) / size = ((n / size : ℕ) : ℤ) := by push_cast; rfl
  rw [e3]
  split
  · rename_i h
    have : r + 1 ≤ n % size := by omega
    rw [min_eq_left this]
    push_cast; ring
  · rename_i h
    have : n % size ≤ r + 1 := by omega
    rw [min_eq_right this]
    push_cast; ring

theorem cutAt_mono (size n r : ℕ) : cutAt size n r ≤ cutAt size n (r + 1) := by
  unfold cutAt
  have : min r (n % size) ≤ min (r + 1) (n % size) := min_le_min_right _ (Nat.le_succ r)
  have e : (r + 1) * (n / size) = r * (n / size) + n / size := by ring
  rw [e]
  generalize n / size = q at *
  generalize r * q = w at *
  omega

theorem cutAt_zero (size n : ℕ) : cutAt size n 0 = 0 := by simp [cutAt]

theorem cutAt_size (size n : ℕ) (h : 0 < size) : cutAt size n size = n := by
  unfold cutAt
  rw [min_eq_right (Nat.mod_lt n h).le]
  exact Nat.div_add_mod n size

theorem cutAt_le (size n r : ℕ) (h : 0 < size) (hr : r ≤ size) : cutAt size n r ≤ n := by
  conv_rhs => rw [← cutAt_size size n h]
  exact monotone_nat_of_le_succ (cutAt_mono size n) hr

/-- the slice of a node in terms of `take` and `drop` -/
theorem sliceArray_eq {α : Type*} (size r : ℕ) (hr : r < size) (l : List α) :
    sliceArray size r l = (l.take (cutAt size l.length (r + 1))).drop (cutAt size l.length r) := by
  have h0 : 0 < size := by omega
  unfold sliceArray pySlice
  simp only
  rw [sliceInf_eq, sliceSup_eq]
  have h1 := cutAt_le size l.length r h0 (by omega)
  have h2 := cutAt_le size l.length (r + 1) h0 (by omega)
  unfold pyEnd
  rw [if_neg (by omega), if_neg (by omega), Int.toNat_natCast, Int.toNat_natCast, min_eq_left h1, min_eq_left h2]

theorem prefix_eq {α : Type*} (size : ℕ) (l : List α) : ∀ k ≤ size,
    (List.range k).flatMap (fun r => sliceArray size r l) = l.take (cutAt size l.length k)
  | 0, _ => by simp [cutAt_zero]
  | k + 1, hk => by
    rw [List.range_succ, List.flatMap_append, prefix_eq size l k (by omega), List.flatMap_singleton,
      sliceArray_eq size k (by omega)]
    have e : l.take (cutAt size l.length k) = (l.take (cutAt size l.length (k + 1))).take (cutAt size l.length k) := by
      rw [List.take_take, min_eq_left (cutAt_mono _ _ _)]
    rw [e, List.take_append_drop]

/-- **C129** the slices of the nodes, put together in the order of the ranks, are the array: no element is lost and none
is counted twice -/
theorem C129_partition {α : Type*} (size : ℕ) (h : 0 < size) (l : List α) :
    (List.range size).flatMap (fun r => sliceArray size r l) = l := by
  rw [prefix_eq size l size (le_refl _), cutAt_size size _ h, List.take_length]

/-- **C129** the work is balanced: the numbers of elements differ by at most one -/
theorem C129_balanced {α : Type*} (size r : ℕ) (hr : r < size) (l : List α) :
    l.length / size ≤ (sliceArray size r l).length ∧ (sliceArray size r l).length ≤ l.length / size + 1 := by
  have h0 : 0 < size := by omega
  rw [sliceArray_eq size r hr, List.length_drop, List.length_take, min_eq_left (cutAt_le _ _ _ h0 (by omega))]
  unfold cutAt
  have e : (r + 1) * (l.length / size) = r * (l.length / size) + l.length / size := by ring
  rw [e]
  generalize l.length / size = q
  generalize r * q = w
  rcases le_total (r + 1) (l.length % size) with h | h
  · rw [min_eq_left h, min_eq_left (by omega)]; omega
  · rw [min_eq_right h]
    rcases le_total r (l.length % size) with h' | h'
    · rw [min_eq_left h']; omega
    · rw [min_eq_right h']; omega

/-- **C129** a sum over the slices, reduced over the nodes, is the whole sum, for any number of nodes -/
theorem C129_sum {α M : Type*} [AddCommMonoid M] (size : ℕ) (h : 0 < size) (f : α → M) (l : List α) :
    reduceSum size f l = (l.map f).sum := by
  unfold reduceSum
  conv_rhs => rw [← C129_partition size h l]
  induction (List.range size) with
  | nil => simp
  | cons r k ih => rw [List.map_cons, List.sum_cons, List.flatMap_cons, List.map_append, List.sum_append, ih]

/-- **C129** arrays of the same length are cut at the same places, so that a loop over the zipped slices meets the right
partners -/
theorem C129_zip {α β : Type*} (size r : ℕ) (hr : r < size) (l : List α) (m : List β) (h : l.length = m.length) :
    (sliceArray size r l).zip (sliceArray size r m) = sliceArray size r (l.zip m) := by
  have hl : (l.zip m).length = l.length := by rw [List.length_zip, h, min_self]
  rw [sliceArray_eq size r hr, sliceArray_eq size r hr, sliceArray_eq size r hr, hl, ← h]
  simp only [List.zip, List.take_zipWith, List.drop_zipWith]

/-- **C129** the slices of Python: the elements `[a, b)`; a negative end counts from the end of the list -/
theorem C129_python {α : Type*} (l : List α) (a b : ℕ) :
    pySlice l a b = (l.take b).drop a ∧ (0 < b → pySlice l a (-b) = (l.take (l.length - b)).drop a) := by
  constructor
  · unfold pySlice pyEnd
    rw [if_neg (by omega), if_neg (by omega), Int.toNat_natCast, Int.toNat_natCast]
    rcases le_total a l.length with h | h
    · rw [min_eq_left h, ← List.take_eq_take_min]
    · rw [min_eq_right h, ← List.take_eq_take_min, List.drop_eq_nil_of_le (by simp), List.drop_eq_nil_of_le (by simp; omega)]
  · intro hb
    unfold pySlice pyEnd
    rw [if_neg (show ¬ ((a : ℤ) < 0) by omega), if_pos (show -(b : ℤ) < 0 by omega), Int.toNat_natCast]
    rw [show (-(b : ℤ) + (l.length : ℤ)).toNat = l.length - b by omega]
    rcases le_total a l.length with h | h
    · rw [min_eq_left h]
    · rw [min_eq_right h, List.drop_eq_nil_of_le (by simp), List.drop_eq_nil_of_le (by simp; omega)]

/-! ### Examples -/

example : (List.range 4).map (fun r => sliceArray 4 r [10, 11, 12, 13, 14, 15]) = [[10, 11], [12, 13], [14], [15]] := by
  decide +kernel

/-- more nodes than elements -/
example : (List.range 4).map (fun r => sliceArray 4 r [10, 11]) = [[10], [11], [], []] := by
  decide +kernel

end Verif.MpiSlice
