import Verif.Gfs.Flatten
import Mathlib.Algebra.BigOperators.Ring.Finset
import Mathlib.Algebra.BigOperators.Group.Finset.Sigma
import Mathlib.Data.List.GetD
import Mathlib.Data.List.Perm.Basic
import Mathlib.Tactic.NormNum

/-!
# Property C152: transforms of one variable of a function of several variables

Source: `/repo/c++/triqs/gfs/transform/fourier.hpp` (60-85, 93-114, 152-181), `/repo/c++/triqs/gfs/transform/partial_transform.hpp`
(29-43), `/repo/c++/triqs/gfs/functions/dlr.hpp` (37-53), `/repo/c++/triqs/gfs/functions/functions2.hpp` (154-158).

The data are flattened so that variable `N` comes first (`flatten_2d<N>`), a transform of vector valued functions of one variable acts
on the columns, and the result is put back. The transforms of one variable are those of C52, C53, C76 and C144; here they are any
function that acts on every column separately.

Simplifications: as for C57; the check `EXPECTS` of the meshes is off.
-/

namespace Verif.PartialTransform

open Verif.Flatten

/-! ## Model -/

variable {K : Type}

/-- `_fourier<N>`, fourier.hpp:61-85, `partial_transform`, `apply_to_mesh`: flatten, transform to `n'` points, put back. The extents
of the result are those of the input with `n'` for variable `N` -/
def transform (N n' : ℕ) (impl : (ℕ → ℕ → K) → ℕ → ℕ → K) (g : List ℕ × (List ℕ → K)) : Option (List ℕ × (List ℕ → K)) :=
  match flatten2d g.1 g.2 N with
  | none => none
  | some (_, c, a) =>
    match unflatten2d (g.1.set N n') N n' c (impl a) with
    | none => none
    | some w => some (g.1.set N n', w)

/-- the same with known moments, fourier.hpp:83: these are flattened with their first dimension in front -/
def transformMoments (N n' : ℕ) (impl : (ℕ → ℕ → K) → (ℕ → ℕ → K) → ℕ → ℕ → K) (g mom : List ℕ × (List ℕ → K)) :
    Option (List ℕ × (List ℕ → K)) :=
  match flatten2d mom.1 mom.2 0 with
  | none => none
  | some (_, _, m) => transform N n' (fun a => impl a m) g

/-- several variables one after the other, fourier.hpp:153-157, 163-176, dlr.hpp:42 -/
def transforms : List (ℕ × ℕ × ((ℕ → ℕ → K) → ℕ → ℕ → K)) → List ℕ × (List ℕ → K) → Option (List ℕ × (List ℕ → K))
  | [], g => some g
  | (N, n', impl) :: l, g =>
    match transform N n' impl g with
    | none => none
    | some g' => transforms l g'

/-- `make_zero_tail<N>`, functions2.hpp:155-158: `rotate_index_view<N>` puts dimension `N` in front and keeps the order of the others -/
def zeroTailShape (N nMoments : ℕ) (sh : List ℕ) : List ℕ := nMoments :: sh.eraseIdx N

/-! ## Specification -/

/-- `impl` applies to column `c` the function `T c`, which depends on the `n` values of the column only -/
def Columnwise (n : ℕ) (impl : (ℕ → ℕ → K) → ℕ → ℕ → K) (T : ℕ → (ℕ → K) → ℕ → K) : Prop :=
  (∀ a k c, impl a k c = T c (fun k' => a k' c) k) ∧ ∀ c f f', (∀ k, k < n → f k = f' k) → T c f = T c f'

/-! ## Proofs -/

theorem tail_swap0_set (N x : ℕ) (l : List ℕ) : (swap0 N (l.set N x)).tail = (swap0 N l).tail := by
  unfold swap0
  rcases l with _ | ⟨y, l⟩
  · simp
  · rcases N with _ | N
    · simp
    · simp

theorem getD_set_self (N x : ℕ) (l : List ℕ) (h : N < l.length) : (l.set N x).getD N 0 = x := by
  rw [List.getD_eq_getElem _ _ (by simpa using h), List.getElem_set_self]

theorem getD_set_ne (N M x : ℕ) (l : List ℕ) (h : N ≠ M) : (l.set N x).getD M 0 = l.getD M 0 := by
  rw [List.getD_eq_getElem?_getD, List.getD_eq_getElem?_getD, List.getElem?_set_ne h]

theorem inShape_set (N n k : ℕ) (sh idx : List ℕ) (h : inShape (sh.set N n) idx) (hk : k < sh.getD N 0) : inShape sh (idx.set N k) := by
  rw [inShape_iff] at h ⊢
  obtain ⟨h1, h2⟩ := h
  rw [List.length_set] at h1 h2
  refine ⟨by rw [List.length_set, h1], fun j hj => ?_⟩
  by_cases hN : N = j
  · subst hN
    rw [getD_set_self _ _ _ (by omega)]
    exact hk
  · rw [getD_set_ne _ _ _ _ hN]
    have := h2 j hj
    rwa [getD_set_ne _ _ _ _ hN] at this

/-- the column of an element -/
def column (N : ℕ) (sh idx : List ℕ) : ℕ := lin (swap0 N sh).tail (swap0 N idx).tail

/-- every element of the result is the transform of the line through it along variable `N` -/
theorem transform_spec (sh : List ℕ) (v : List ℕ → K) (N n' : ℕ) (hN : N < sh.length) (h0 : sh.getD N 0 ≠ 0)
    (impl : (ℕ → ℕ → K) → ℕ → ℕ → K) (T : ℕ → (ℕ → K) → ℕ → K) (hT : Columnwise (sh.getD N 0) impl T) :
    ∃ w, transform N n' impl (sh, v) = some (sh.set N n', w) ∧
      ∀ idx, inShape (sh.set N n') idx → w idx = T (column N sh idx) (fun k => v (idx.set N k)) (idx.getD N 0) := by
  obtain ⟨c, a, h1, h2, h3⟩ := C57_elements sh v N hN h0
  have hN' : N < (sh.set N n').length := by simpa using hN
  have hnc : c = (swap0 N sh).tail.prod := by
    have h4 := h2
    rw [← prod_swap0 hN, swap0_cons hN, List.prod_cons] at h4
    exact Nat.eq_of_mul_eq_mul_left (by omega) h4
  have hprod : n' * c = (swap0 N (sh.set N n')).prod := by
    rw [swap0_cons hN', List.prod_cons, tail_swap0_set, getD_set_self _ _ _ hN, hnc]
  unfold transform
  simp only
  rw [h1]
  simp only
  unfold unflatten2d
  simp only [hprod, if_true]
  refine ⟨_, rfl, fun idx hidx => ?_⟩
  have hlen : idx.length = sh.length := by rw [(inShape_iff.mp hidx).1, List.length_set]
  have hNi : N < idx.length := by omega
  -- the column
  have hcol : column N sh idx < c := by
    rw [hnc]
    unfold column
    have hs := inShape_swap0 hN' hidx
    rw [swap0_cons hN', swap0_cons hNi] at hs
    have := lin_lt (List.forall₂_cons.mp hs).2
    rwa [tail_swap0_set] at this
  have hlin : lin (swap0 N (sh.set N n')) (swap0 N idx) = c * idx.getD N 0 + column N sh idx := by
    rw [swap0_cons hN', swap0_cons hNi, lin, tail_swap0_set, hnc]
    unfold column
    simp [mul_comm]
  rw [hlin, Nat.mul_add_div (by omega), Nat.div_eq_of_lt hcol, add_zero, Nat.mul_add_mod, Nat.mod_eq_of_lt hcol, hT.1]
  refine congrFun (hT.2 _ _ _ fun k hk => ?_) _
  have := (h3 (idx.set N k) (inShape_set N n' k sh idx hidx hk)).2
  rw [getD_set_self _ _ _ hNi, tail_swap0_set] at this
  exact this

/-- every element of the result is the transform of the line through it along variable `N`, all other variables are untouched -/
theorem C152_lines (sh : List ℕ) (v : List ℕ → K) (N n' : ℕ) (hN : N < sh.length) (h0 : sh.getD N 0 ≠ 0)
    (impl : (ℕ → ℕ → K) → ℕ → ℕ → K) (T : (ℕ → K) → ℕ → K) (hT : Columnwise (sh.getD N 0) impl fun _ => T) :
    ∃ w, transform N n' impl (sh, v) = some (sh.set N n', w) ∧
      ∀ idx, inShape (sh.set N n') idx → w idx = T (fun k => v (idx.set N k)) (idx.getD N 0) :=
  transform_spec sh v N n' hN h0 impl (fun _ => T) hT

theorem set_getD_self (N : ℕ) (l : List ℕ) (h : N < l.length) : l.set N (l.getD N 0) = l := by
  rw [List.getD_eq_getElem _ _ h, List.set_getElem_self]

/-- a transform and its inverse give back the function -/
theorem C152_round_trip (sh : List ℕ) (v : List ℕ → K) (N n' : ℕ) (hN : N < sh.length) (h0 : sh.getD N 0 ≠ 0) (hn' : n' ≠ 0)
    (impl impl' : (ℕ → ℕ → K) → ℕ → ℕ → K) (T T' : (ℕ → K) → ℕ → K) (hT : Columnwise (sh.getD N 0) impl fun _ => T)
    (hT' : Columnwise n' impl' fun _ => T') (hinv : ∀ f k, k < sh.getD N 0 → T' (T f) k = f k) :
    ∃ g w, transform N n' impl (sh, v) = some g ∧ transform N (sh.getD N 0) impl' g = some (sh, w) ∧ ∀ idx, inShape sh idx → w idx = v idx := by
  obtain ⟨w1, e1, s1⟩ := C152_lines sh v N n' hN h0 impl T hT
  have hg : (sh.set N n').getD N 0 = n' := getD_set_self N n' sh hN
  obtain ⟨w2, e2, s2⟩ := C152_lines (sh.set N n') w1 N (sh.getD N 0) (by simpa using hN) (by rw [hg]; exact hn') impl' T' (by rw [hg]; exact hT')
  have hsh : (sh.set N n').set N (sh.getD N 0) = sh := by rw [List.set_set, set_getD_self N sh hN]
  rw [hsh] at e2 s2
  refine ⟨_, w2, e1, e2, fun idx hidx => ?_⟩
  have hlen : idx.length = sh.length := (inShape_iff.mp hidx).1
  have hlt : idx.getD N 0 < sh.getD N 0 := (inShape_iff.mp hidx).2 N hN
  rw [s2 idx hidx]
  have hT'' : T' (fun k => w1 (idx.set N k)) = T' (T fun k => v (idx.set N k)) := by
    apply hT'.2 0
    intro k hk
    have hin : inShape (sh.set N n') (idx.set N k) := by
      apply inShape_set N (sh.getD N 0)
      · rw [hsh]; exact hidx
      · rw [hg]; exact hk
    rw [s1 _ hin, getD_set_self _ _ _ (by omega)]
    congr 1
    funext j
    rw [List.set_set]
  rw [hT'', hinv _ _ hlt, set_getD_self _ _ (by omega)]

section Linear

variable [CommSemiring K]

/-- a linear transform of `n` values -/
def lin1 (n : ℕ) (A : ℕ → ℕ → K) (f : ℕ → K) (k : ℕ) : K := ∑ j ∈ Finset.range n, A k j * f j

def lin2d (n : ℕ) (A : ℕ → ℕ → K) (a : ℕ → ℕ → K) (k c : ℕ) : K := ∑ j ∈ Finset.range n, A k j * a j c

theorem lin2d_columnwise (n : ℕ) (A : ℕ → ℕ → K) : Columnwise n (lin2d n A) fun _ => lin1 n A := by
  refine ⟨fun a k c => rfl, fun c f f' h => ?_⟩
  funext k
  exact Finset.sum_congr rfl fun j hj => by rw [h j (Finset.mem_range.mp hj)]

/-- linear transforms of two different variables can be done in any order -/
theorem C152_commute (sh : List ℕ) (v : List ℕ → K) (N M n' m' : ℕ) (hN : N < sh.length) (hM : M < sh.length) (hNM : N ≠ M)
    (h0 : sh.getD N 0 ≠ 0) (h1 : sh.getD M 0 ≠ 0) (A B : ℕ → ℕ → K) :
    ∃ w w', transforms [(N, n', lin2d (sh.getD N 0) A), (M, m', lin2d (sh.getD M 0) B)] (sh, v) = some ((sh.set N n').set M m', w) ∧
      transforms [(M, m', lin2d (sh.getD M 0) B), (N, n', lin2d (sh.getD N 0) A)] (sh, v) = some ((sh.set N n').set M m', w') ∧
      ∀ idx, inShape ((sh.set N n').set M m') idx → w idx = w' idx ∧
        w idx = ∑ i ∈ Finset.range (sh.getD N 0), ∑ j ∈ Finset.range (sh.getD M 0),
          A (idx.getD N 0) i * B (idx.getD M 0) j * v ((idx.set N i).set M j) := by
  have key : ∀ (N M n' m' : ℕ) (hN : N < sh.length) (hM : M < sh.length) (hNM : N ≠ M) (h0 : sh.getD N 0 ≠ 0) (h1 : sh.getD M 0 ≠ 0)
      (A B : ℕ → ℕ → K), ∃ w, transforms [(N, n', lin2d (sh.getD N 0) A), (M, m', lin2d (sh.getD M 0) B)] (sh, v) =
        some ((sh.set N n').set M m', w) ∧ ∀ idx, inShape ((sh.set N n').set M m') idx →
          w idx = ∑ j ∈ Finset.range (sh.getD M 0), ∑ i ∈ Finset.range (sh.getD N 0),
            A (idx.getD N 0) i * B (idx.getD M 0) j * v ((idx.set N i).set M j) := by
    intro N M n' m' hN hM hNM h0 h1 A B
    obtain ⟨w1, e1, s1⟩ := C152_lines sh v N n' hN h0 _ _ (lin2d_columnwise (sh.getD N 0) A)
    have hg : (sh.set N n').getD M 0 = sh.getD M 0 := getD_set_ne _ _ _ _ hNM
    obtain ⟨w2, e2, s2⟩ := C152_lines (sh.set N n') w1 M m' (by simpa using hM) (by rw [hg]; exact h1) (lin2d (sh.getD M 0) B)
      (lin1 (sh.getD M 0) B) (by rw [hg]; exact lin2d_columnwise _ B)
    refine ⟨w2, by simp only [transforms, e1, e2], fun idx hidx => ?_⟩
    rw [s2 idx hidx]
    unfold lin1
    refine Finset.sum_congr rfl fun j hj => ?_
    have hin : inShape (sh.set N n') (idx.set M j) := inShape_set M m' j _ idx hidx (by rw [hg]; exact Finset.mem_range.mp hj)
    beta_reduce
    rw [s1 _ hin]
    unfold lin1
    rw [Finset.mul_sum, getD_set_ne _ _ _ _ (Ne.symm hNM)]
    refine Finset.sum_congr rfl fun i _ => ?_
    beta_reduce
    rw [List.set_comm _ _ (Ne.symm hNM)]
    ring
  obtain ⟨w, e, s⟩ := key N M n' m' hN hM hNM h0 h1 A B
  obtain ⟨w', e', s'⟩ := key M N m' n' hM hN (Ne.symm hNM) h1 h0 B A
  have hs : (sh.set M m').set N n' = (sh.set N n').set M m' := List.set_comm _ _ (Ne.symm hNM)
  rw [hs] at e' s'
  refine ⟨w, w', e, e', fun idx hidx => ?_⟩
  have h2 : w idx = ∑ i ∈ Finset.range (sh.getD N 0), ∑ j ∈ Finset.range (sh.getD M 0),
      A (idx.getD N 0) i * B (idx.getD M 0) j * v ((idx.set N i).set M j) := by
    rw [s idx hidx, Finset.sum_comm]
  refine ⟨?_, h2⟩
  rw [h2, s' idx hidx]
  refine Finset.sum_congr rfl fun i _ => Finset.sum_congr rfl fun j _ => ?_
  rw [List.set_comm _ _ (Ne.symm hNM)]
  ring

end Linear

theorem swap0_tail_erase (N : ℕ) (hN1 : N ≤ 1) (l : List ℕ) (hl : N < l.length) : (swap0 N l).tail = l.eraseIdx N := by
  rcases l with _ | ⟨x, l⟩
  · simp at hl
  · rcases N with _ | N
    · simp [swap0]
    · obtain rfl : N = 0 := by omega
      rcases l with _ | ⟨y, l⟩
      · simp at hl
      · simp [swap0]

/-- **Known moments.** For the first and the second variable, each line of the function is transformed with the moments of the same
indices, given in the layout of `make_zero_tail`. Missing: further variables (`C152_moments_mixed`). -/
theorem C152_moments_partial (sh : List ℕ) (v mom : List ℕ → K) (N n' p : ℕ) (hN1 : N ≤ 1) (hN : N < sh.length) (h0 : sh.getD N 0 ≠ 0) (hp : p ≠ 0)
    (impl : (ℕ → ℕ → K) → (ℕ → ℕ → K) → ℕ → ℕ → K) (T : (ℕ → K) → (ℕ → K) → ℕ → K)
    (hT : ∀ a m k c, impl a m k c = T (fun k' => a k' c) (fun q => m q c) k)
    (hl : ∀ f f' q q', (∀ k, k < sh.getD N 0 → f k = f' k) → (∀ k, k < p → q k = q' k) → T f q = T f' q') :
    ∃ w, transformMoments N n' impl (sh, v) (zeroTailShape N p sh, mom) = some (sh.set N n', w) ∧
      ∀ idx, inShape (sh.set N n') idx →
        w idx = T (fun k => v (idx.set N k)) (fun q => mom (q :: idx.eraseIdx N)) (idx.getD N 0) := by
  obtain ⟨c, m, e1, e2, e3⟩ := C57_elements (zeroTailShape N p sh) mom 0 (by simp [zeroTailShape]) (by simpa [zeroTailShape] using hp)
  obtain ⟨w, h1, h2⟩ := transform_spec sh v N n' hN h0 (fun a => impl a m) (fun c f => T f (fun q => m q c))
    ⟨fun a k c => hT a m k c, fun c f f' h => hl f f' _ _ h fun _ _ => rfl⟩
  refine ⟨w, by unfold transformMoments; simp only; rw [e1]; exact h1, fun idx hidx => ?_⟩
  rw [h2 idx hidx]
  refine congrFun (hl _ _ _ _ (fun _ _ => rfl) fun q hq => ?_) _
  have hlen : idx.length = sh.length := by rw [(inShape_iff.mp hidx).1, List.length_set]
  have herase : inShape (sh.eraseIdx N) (idx.eraseIdx N) := by
    have hs := inShape_swap0 (by simpa using hN : N < (sh.set N n').length) hidx
    rw [swap0_cons (by simpa using hN : N < (sh.set N n').length), swap0_cons (by omega : N < idx.length)] at hs
    have := (List.forall₂_cons.mp hs).2
    rw [tail_swap0_set, swap0_tail_erase N hN1 sh hN, swap0_tail_erase N hN1 idx (by omega)] at this
    exact this
  have hin : inShape (zeroTailShape N p sh) (q :: idx.eraseIdx N) := List.Forall₂.cons hq herase
  have := (e3 _ hin).2
  have t1 : (swap0 0 (zeroTailShape N p sh)).tail = sh.eraseIdx N := by simp [swap0, zeroTailShape]
  have t2 : (swap0 0 (q :: idx.eraseIdx N)).tail = idx.eraseIdx N := by simp [swap0]
  rw [t1, t2] at this
  unfold column
  rw [swap0_tail_erase N hN1 sh hN, swap0_tail_erase N hN1 idx (by omega)]
  simpa using this

/-! ### Examples -/

/-- for the third variable the moments of different lines are mixed up: a transform that returns the zeroth moment of each line gives
at `(0, 1, 0)` the moment of the line `(1, 0, ·)`, whose index is `(0; 1, 0)`, and not that of the line `(0, 1, ·)` -/
theorem C152_moments_mixed : ((transformMoments 2 1 (fun _ m k c => m k c) ([2, 2, 1], fun idx => idx) (zeroTailShape 2 1 [2, 2, 1], fun idx => idx)).map
    fun g => g.2 [0, 1, 0]) = some [0, 1, 0] := by decide

example : ((transform 1 2 (lin2d 3 fun k j => (k + j : ℕ)) ([2, 3], fun idx => lin [2, 3] idx)).map fun g => (g.1, g.2 [1, 1])) = some ([2, 2], 26) := by
  decide

end Verif.PartialTransform
