import Mathlib.Data.List.Basic
import Mathlib.Algebra.BigOperators.Group.List.Basic
import Mathlib.Tactic.Ring
import Mathlib.Tactic.Linarith

/-!
# Property C57: flattening arrays to two dimensions

Source: `/repo/c++/triqs/gfs/gf/flatten.hpp`.

Simplifications: `long` unbounded; arrays are in C order (`regular_type` of the data of a Green function). nda's
`transposed_view<0, N>` exchanges two dimensions and `reshape` keeps the elements in memory order; both belong to nda and
are modelled by their meaning. An array is a shape and a function of index lists.
-/

namespace Verif.Flatten

/-! ## Model -/

/-- position of an element in C order -/
def lin : List ℕ → List ℕ → ℕ
  | _ :: sh, i :: idx => i * sh.prod + lin sh idx
  | _, _ => 0

/-- the index list at a position in C order -/
def unlin : List ℕ → ℕ → List ℕ
  | [], _ => []
  | _ :: sh, k => (k / sh.prod) :: unlin sh (k % sh.prod)

/-- exchange entries `0` and `N` -/
def swap0 (N : ℕ) (l : List ℕ) : List ℕ := (l.set 0 (l.getD N 0)).set N (l.getD 0 0)

/-- `flatten_2d<N>`, flatten.hpp:33-37: number of rows, number of columns, elements. `none`: division by zero rows, or no
dimension `N` (not compilable). -/
def flatten2d {K : Type} (sh : List ℕ) (v : List ℕ → K) (N : ℕ) : Option (ℕ × ℕ × (ℕ → ℕ → K)) :=
  if N < sh.length then
    let nrows := sh.getD N 0
    if nrows = 0 then none
    else
      let ncols := sh.prod / nrows
      let mem : ℕ → K := fun k => v (swap0 N (unlin (swap0 N sh) k))
      some (nrows, ncols, fun r c => mem (r * ncols + c))
  else none

/-- `unflatten_2d<N>`, flatten.hpp:42-47: elements of `out`, of shape `sh`; `none`: the sizes do not match -/
def unflatten2d {K : Type} (sh : List ℕ) (N nrows ncols : ℕ) (afl : ℕ → ℕ → K) : Option (List ℕ → K) :=
  let shFl := swap0 N sh
  if nrows * ncols = shFl.prod then
    let mem : ℕ → K := fun k => afl (k / ncols) (k % ncols)
    some (fun idx => mem (lin shFl (swap0 N idx)))
  else none

/-! ## Specification -/

/-- the indices are inside of the shape -/
def inShape (sh idx : List ℕ) : Prop := List.Forall₂ (· < ·) idx sh

/-! ## Proofs -/

theorem lin_lt {sh idx : List ℕ} (h : inShape sh idx) : lin sh idx < sh.prod := by
  unfold inShape at h
  induction h with
  | nil => simp [lin]
  | @cons i s idx sh hi _ ih =>
    rw [lin, List.prod_cons]
    have : (i + 1) * sh.prod ≤ s * sh.prod := Nat.mul_le_mul_right _ hi
    rw [add_mul] at this
    omega

theorem unlin_lin {sh idx : List ℕ} (h : inShape sh idx) : unlin sh (lin sh idx) = idx := by
  unfold inShape at h
  induction h with
  | nil => simp [unlin]
  | @cons i s idx sh hi h' ih =>
    have hlt := lin_lt h'
    have hp : 0 < sh.prod := by omega
    rw [lin, unlin, mul_comm i, Nat.mul_add_div hp, Nat.div_eq_of_lt hlt, add_zero, Nat.mul_add_mod, Nat.mod_eq_of_lt hlt, ih]

theorem length_swap0 (N : ℕ) (l : List ℕ) : (swap0 N l).length = l.length := by simp [swap0]

theorem getD_swap0 {N : ℕ} {l : List ℕ} (hN : N < l.length) (k : ℕ) (hk : k < l.length) :
    (swap0 N l).getD k 0 = if k = N then l.getD 0 0 else if k = 0 then l.getD N 0 else l.getD k 0 := by
  have h0 : 0 < l.length := by omega
  simp only [swap0, List.getD_eq_getElem?_getD, List.getElem?_set, List.length_set]
  by_cases h1 : k = N
  · subst h1; simp [hN]
  · rw [if_neg (Ne.symm h1), if_neg h1]
    by_cases h2 : k = 0
    · subst h2; simp [h0]
    · rw [if_neg (Ne.symm h2), if_neg h2]

theorem ext_getD {l l' : List ℕ} (h : l.length = l'.length) (he : ∀ k, k < l.length → l.getD k 0 = l'.getD k 0) : l = l' := by
  apply List.ext_getElem h
  intro k h1 h2
  have := he k h1
  simpa [List.getD_eq_getElem?_getD, h1, h2] using this

theorem swap0_swap0 {N : ℕ} {l : List ℕ} (hN : N < l.length) : swap0 N (swap0 N l) = l := by
  apply ext_getD
  · simp [length_swap0]
  · intro k hk
    simp only [length_swap0] at hk
    have h0 : 0 < l.length := by omega
    have hN' : N < (swap0 N l).length := by simpa [length_swap0]
    rw [getD_swap0 hN' k (by simpa [length_swap0])]
    rw [getD_swap0 hN 0 h0, getD_swap0 hN N hN, getD_swap0 hN k hk]
    by_cases h1 : k = N
    · subst h1
      by_cases h2 : k = 0
      · subst h2; simp
      · rw [if_pos rfl, if_neg (Ne.symm h2)]; simp
    · rw [if_neg h1, if_neg h1]
      by_cases h2 : k = 0
      · subst h2; simp
      · simp [h2]

theorem inShape_iff {sh idx : List ℕ} : inShape sh idx ↔ idx.length = sh.length ∧ ∀ k, k < sh.length → idx.getD k 0 < sh.getD k 0 := by
  unfold inShape
  rw [List.forall₂_iff_get]
  constructor
  · rintro ⟨h, h2⟩
    refine ⟨h, fun k hk => ?_⟩
    have := h2 k (by omega) hk
    simpa [List.getD_eq_getElem?_getD, hk, h ▸ hk, show k < idx.length from by omega] using this
  · rintro ⟨h, h2⟩
    refine ⟨h, fun k hk1 hk2 => ?_⟩
    have := h2 k hk2
    simpa [List.getD_eq_getElem?_getD, hk1, hk2] using this

theorem inShape_swap0 {N : ℕ} {sh idx : List ℕ} (hN : N < sh.length) (h : inShape sh idx) : inShape (swap0 N sh) (swap0 N idx) := by
  rw [inShape_iff] at h ⊢
  obtain ⟨h1, h2⟩ := h
  refine ⟨by simp [length_swap0, h1], ?_⟩
  intro k hk
  rw [length_swap0] at hk
  rw [getD_swap0 hN k hk, getD_swap0 (by omega) k (by omega)]
  split_ifs
  · exact h2 0 (by omega)
  · exact h2 N hN
  · exact h2 k hk

theorem prod_swap0 {N : ℕ} {sh : List ℕ} (hN : N < sh.length) : (swap0 N sh).prod = sh.prod := by
  rcases sh with _ | ⟨s, sh⟩
  · simp at hN
  · rcases N with _ | N
    · simp [swap0]
    · have hN' : N < sh.length := by simpa using hN
      have e : swap0 (N + 1) (s :: sh) = sh.getD N 0 :: sh.set N s := by simp [swap0]
      rw [e, List.prod_cons, List.prod_cons]
      clear e hN
      induction sh generalizing N with
      | nil => simp at hN'
      | cons t sh ih =>
        rcases N with _ | N
        · simp; ring
        · have := ih (N := N) (by simpa using hN')
          simp only [List.getD_cons_succ, List.set_cons_succ, List.prod_cons]
          calc sh.getD N 0 * (t * (sh.set N s).prod) = t * (sh.getD N 0 * (sh.set N s).prod) := by ring
            _ = t * (s * sh.prod) := by rw [this]
            _ = s * (t * sh.prod) := by ring

theorem swap0_cons {N : ℕ} {sh : List ℕ} (hN : N < sh.length) : swap0 N sh = sh.getD N 0 :: (swap0 N sh).tail := by
  rcases sh with _ | ⟨s, sh⟩
  · simp at hN
  · rcases N with _ | N <;> simp [swap0]

/-- number of columns: the product of the other extents -/
theorem ncols_eq {N : ℕ} {sh : List ℕ} (hN : N < sh.length) (h0 : sh.getD N 0 ≠ 0) : sh.prod / sh.getD N 0 = (swap0 N sh).tail.prod := by
  rw [← prod_swap0 hN, swap0_cons hN, List.prod_cons, List.tail_cons]
  exact Nat.mul_div_cancel_left _ (by omega)

/-- **C57, where the elements go.** For every shape and kept dimension of nonzero extent, element `idx` is found in the row
given by its `N`-th index and in the column given by the C order of the other indices, with index 0 in the place of index
`N`. -/
theorem C57_elements {K : Type} (sh : List ℕ) (v : List ℕ → K) (N : ℕ) (hN : N < sh.length) (h0 : sh.getD N 0 ≠ 0) :
    ∃ ncols a, flatten2d sh v N = some (sh.getD N 0, ncols, a) ∧ sh.getD N 0 * ncols = sh.prod ∧
      ∀ idx, inShape sh idx → lin (swap0 N sh).tail (swap0 N idx).tail < ncols ∧
        a (idx.getD N 0) (lin (swap0 N sh).tail (swap0 N idx).tail) = v idx := by
  refine ⟨_, _, by rw [flatten2d, if_pos hN]; simp only [h0, if_false]; rfl, ?_, ?_⟩
  · rw [ncols_eq hN h0, ← prod_swap0 hN]
    conv_rhs => rw [swap0_cons hN, List.prod_cons]
  · intro idx hidx
    have hlen : idx.length = sh.length := (inShape_iff.mp hidx).1
    have hs := inShape_swap0 hN hidx
    have hN' : N < idx.length := by omega
    have hlin : lin (swap0 N sh) (swap0 N idx) = idx.getD N 0 * (swap0 N sh).tail.prod + lin (swap0 N sh).tail (swap0 N idx).tail := by
      rw [swap0_cons hN, swap0_cons hN', lin]
      simp
    constructor
    · rw [ncols_eq hN h0]
      apply lin_lt
      rw [swap0_cons hN, swap0_cons hN'] at hs
      exact (List.forall₂_cons.mp hs).2
    · beta_reduce
      rw [ncols_eq hN h0, ← hlin, unlin_lin hs, swap0_swap0 hN']

/-- **C57, round trip.** `unflatten_2d<N>` gives back every array flattened by `flatten_2d<N>`. -/
theorem C57_round_trip {K : Type} (sh : List ℕ) (v : List ℕ → K) (N : ℕ) (hN : N < sh.length) (h0 : sh.getD N 0 ≠ 0) :
    ∃ nrows ncols a out, flatten2d sh v N = some (nrows, ncols, a) ∧ unflatten2d sh N nrows ncols a = some out ∧
      ∀ idx, inShape sh idx → out idx = v idx := by
  obtain ⟨ncols, a, h1, h2, h3⟩ := C57_elements sh v N hN h0
  refine ⟨_, _, _, _, h1, by rw [unflatten2d]; simp only [prod_swap0 hN, h2, if_true]; rfl, ?_⟩
  intro idx hidx
  have hN' : N < idx.length := by rw [(inShape_iff.mp hidx).1]; exact hN
  obtain ⟨hlt, hv⟩ := h3 idx hidx
  have hnc : ncols = (swap0 N sh).tail.prod := by
    have h4 := h2
    rw [← prod_swap0 hN, swap0_cons hN, List.prod_cons] at h4
    exact Nat.eq_of_mul_eq_mul_left (by omega) h4
  have hlin : lin (swap0 N sh) (swap0 N idx) = ncols * idx.getD N 0 + lin (swap0 N sh).tail (swap0 N idx).tail := by
    rw [hnc]
    rw [swap0_cons hN, swap0_cons hN', lin]
    simp [mul_comm]
  beta_reduce
  rw [hlin, Nat.mul_add_div (by omega), Nat.div_eq_of_lt hlt, add_zero, Nat.mul_add_mod, Nat.mod_eq_of_lt hlt]
  exact hv

/-- **C57, documented order** for the kept dimensions 0 and 1: the column is the C order of the other indices in their
original order. Missing: kept dimensions from 2 on (`C57_order_changes`). -/
theorem C57_order_partial {K : Type} (sh : List ℕ) (v : List ℕ → K) (N : ℕ) (hN1 : N ≤ 1) (hN : N < sh.length) (h0 : sh.getD N 0 ≠ 0) :
    ∃ ncols a, flatten2d sh v N = some (sh.getD N 0, ncols, a) ∧
      ∀ idx, inShape sh idx → a (idx.getD N 0) (lin (sh.eraseIdx N) (idx.eraseIdx N)) = v idx := by
  obtain ⟨ncols, a, h1, -, h3⟩ := C57_elements sh v N hN h0
  refine ⟨ncols, a, h1, ?_⟩
  intro idx hidx
  have hlen : idx.length = sh.length := (inShape_iff.mp hidx).1
  have key : ∀ l : List ℕ, N < l.length → (swap0 N l).tail = l.eraseIdx N := by
    intro l hl
    rcases l with _ | ⟨x, l⟩
    · simp at hl
    · rcases N with _ | N
      · simp [swap0]
      · obtain rfl : N = 0 := by omega
        rcases l with _ | ⟨y, l⟩
        · simp at hl
        · simp [swap0]
  rw [← key sh hN, ← key idx (by omega)]
  exact (h3 idx hidx).2

example : ((flatten2d [2, 3, 2] (fun idx => idx) 1).map fun r => (r.1, r.2.1, r.2.2 2 1, r.2.2 0 2)) = some (3, 4, [0, 2, 1], [1, 0, 0]) := by decide
example : (((flatten2d [2, 3, 2] (fun idx => idx) 2).bind fun r => unflatten2d [2, 3, 2] 2 r.1 r.2.1 r.2.2).map fun o => o [1, 2, 0]) = some [1, 2, 0] := by decide

/-- **The documented order fails** when dimension 2 is kept: column 1 of a `2 × 2 × 1` array is element `(1, 0, 0)` and not
`(0, 1, 0)`. -/
theorem C57_order_changes : ∃ a, flatten2d [2, 2, 1] (fun idx => idx) 2 = some (1, 4, a) ∧
    lin ([2, 2, 1].eraseIdx 2) ([0, 1, 0].eraseIdx 2) = 1 ∧ a 0 1 = [1, 0, 0] := ⟨_, rfl, rfl, by decide⟩

/-- an empty kept dimension divides by zero -/
theorem C57_no_rows {K : Type} (sh : List ℕ) (v : List ℕ → K) (N : ℕ) (h : sh.getD N 0 = 0) : flatten2d sh v N = none := by
  unfold flatten2d
  by_cases hN : N < sh.length
  · rw [if_pos hN]; simp only [h, if_true]
  · rw [if_neg hN]

end Verif.Flatten
