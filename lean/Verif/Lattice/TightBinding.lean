import Verif.Lattice.Bravais
import Verif.Gfs.FourierLattice
import Mathlib.Analysis.Complex.Trigonometric
import Mathlib.Analysis.SpecialFunctions.Complex.Circle

/-!
# Properties C62, C78: tight-binding Hamiltonians

Source: `/repo/c++/triqs/lattice/tight_binding.{hpp,cpp}`.

Simplifications: exact real and complex numbers. The elements of the vectors of the class are read
with a default outside their range; the model only reads inside when the sizes agree.
-/

namespace Verif.TightBinding
open Complex

/-! ## Model -/

/-- hopping matrix: shape and elements -/
structure Mat where
  r : ℕ
  c : ℕ
  e : ℕ → ℕ → ℂ

/-- outcome of the constructor: normal, exception, or undefined (arithmetic on arrays of different shapes) -/
inductive Res where
  | ok
  | exn
  | undef
  deriving DecidableEq

/-- members of `tight_binding`: dimension of the lattice, number of orbitals, displacements, matrices -/
structure TB where
  nd : ℕ
  norb : ℕ
  displ : List (List ℤ)
  mats : List Mat

def TB.disp (t : TB) (i : ℕ) : List ℤ := t.displ.getD i []
def TB.mat (t : TB) (i : ℕ) : Mat := t.mats.getD i ⟨0, 0, fun _ _ => 0⟩

/-- the inner loop, tight_binding.cpp:42-51: the first `j` with `displ[i] == -displ[j]` -/
def TB.partner (t : TB) (i : ℕ) : Option ℕ :=
  (List.range t.displ.length).find? (fun j => decide (t.disp i = (t.disp j).map (fun x => -x)))

open Classical in
/-- body of the outer loop, tight_binding.cpp:34-53 -/
noncomputable def TB.check (t : TB) (i : ℕ) : Res :=
  if (t.disp i).length ≠ t.nd then .exn
  else if (t.mat i).r ≠ t.norb then .exn
  else if (t.mat i).c ≠ t.norb then .exn
  else match t.partner i with
    | none => .exn
    | some j =>
      if (t.mat j).r ≠ t.norb ∨ (t.mat j).c ≠ t.norb then .undef
      else if ∃ a b, a < t.norb ∧ b < t.norb ∧ ‖(t.mat i).e a b - (starRingEnd ℂ) ((t.mat j).e b a)‖ > 1e-12 then .exn
      else .ok

/-- the outer loop -/
noncomputable def TB.loop (t : TB) : List ℕ → Res
  | [] => .ok
  | i :: is => match t.check i with
    | .ok => t.loop is
    | x => x

/-- constructor, tight_binding.cpp:29-55 -/
noncomputable def TB.construct (t : TB) : Res :=
  if t.displ.length ≠ t.mats.length then .exn else t.loop (List.range t.displ.length)

/-- dot product of the first `nd` components of `k` with a displacement -/
def dotk (nd : ℕ) (k : ℕ → ℝ) (R : List ℤ) : ℝ := ∑ i ∈ Finset.range nd, k i * (R.getD i 0 : ℤ)

/-- `fourier(k)`, tight_binding.hpp:88-107, one matrix element; `none`: `vals(0)` out of bounds. -/
noncomputable def TB.fourier (t : TB) (k : ℕ → ℝ) (a b : ℕ) : Option ℂ :=
  if t.displ.length = 0 then none
  else some (∑ j ∈ Finset.range t.displ.length, exp (2 * I * Real.pi * dotk t.nd k (t.disp j)) * (t.mat j).e a b)

open Verif.Lattice3 Matrix in
/-- `fourier(k_mesh)` at one mesh index, tight_binding.hpp:116-123: the row `k.value() * K^{-1}` -/
noncomputable def TB.fourierMesh (t : TB) (m : BrMesh) (n : Fin 3 → ℤ) (a b : ℕ) : Option ℂ :=
  let krec : V3 := m.toValue n ᵥ* m.bz.Kinv
  t.fourier (fun i => if h : i < 3 then krec ⟨i, h⟩ else 0) a b

/-! ## Proofs -/

theorem loop_ok (t : TB) (l : List ℕ) : t.loop l = .ok ↔ ∀ i ∈ l, t.check i = .ok := by
  induction l with
  | nil => simp [TB.loop]
  | cons i l ih =>
    unfold TB.loop
    cases h : t.check i <;> simp [h, ih]

theorem construct_ok (t : TB) : t.construct = .ok ↔ t.displ.length = t.mats.length ∧ ∀ i < t.displ.length, t.check i = .ok := by
  unfold TB.construct
  split
  · rename_i h
    simp [h]
  · rename_i h
    rw [loop_ok]
    simp only [ne_eq, not_not] at h
    simp [h]

theorem check_ok {t : TB} {i : ℕ} (h : t.check i = .ok) :
    (t.disp i).length = t.nd ∧ ∃ j, t.partner i = some j ∧
      ∀ a b, a < t.norb → b < t.norb → ‖(t.mat i).e a b - (starRingEnd ℂ) ((t.mat j).e b a)‖ ≤ 1e-12 := by
  unfold TB.check at h
  split at h
  · simp at h
  · rename_i h1
    split at h
    · simp at h
    · split at h
      · simp at h
      · cases hp : t.partner i with
        | none => simp [hp] at h
        | some j =>
          rw [hp] at h
          simp only at h
          split at h
          · simp at h
          · split at h
            · simp at h
            · rename_i h5
              refine ⟨not_not.mp h1, j, rfl, ?_⟩
              intro a b ha hb
              by_contra hc
              exact h5 ⟨a, b, ha, hb, not_le.mp hc⟩

theorem partner_spec {t : TB} {i j : ℕ} (h : t.partner i = some j) :
    j < t.displ.length ∧ t.disp i = (t.disp j).map (fun x => -x) := by
  unfold TB.partner at h
  have h1 := List.find?_some h
  have h2 := List.mem_of_find?_eq_some h
  exact ⟨List.mem_range.mp h2, by simpa using h1⟩

theorem map_neg_neg (l : List ℤ) : (l.map (fun x => -x)).map (fun x => -x) = l := by
  rw [List.map_map]
  conv_rhs => rw [← List.map_id l]
  apply List.map_congr_left
  intro x _
  simp

theorem dotk_neg (nd : ℕ) (k : ℕ → ℝ) (R : List ℤ) : dotk nd k (R.map (fun x => -x)) = -dotk nd k R := by
  unfold dotk
  rw [← Finset.sum_neg_distrib]
  apply Finset.sum_congr rfl
  intro i _
  have : (R.map (fun x => -x)).getD i 0 = -(R.getD i 0) := by
    simp only [List.getD_eq_getElem?_getD, List.getElem?_map]
    cases R[i]? <;> simp
  rw [this]
  push_cast
  ring

theorem disp_inj {t : TB} (hnd : t.displ.Nodup) {i j : ℕ} (hi : i < t.displ.length) (hj : j < t.displ.length)
    (h : t.disp i = t.disp j) : i = j := by
  unfold TB.disp at h
  rw [List.getD_eq_getElem?_getD, List.getD_eq_getElem?_getD, List.getElem?_eq_getElem hi, List.getElem?_eq_getElem hj,
    Option.getD_some, Option.getD_some] at h
  exact (List.Nodup.getElem_inj_iff hnd).mp h

/-- **C62, for distinct displacements.** Every accepted set of distinct displacements gives a matrix which
is Hermitian at every `k`, up to the tolerance of the test times the number of displacements; if the
matrices of opposite displacements are exactly conjugate, it is exactly Hermitian. Missing: repeated
displacements, see `C62_fails_for_repeated_displacements`. -/
theorem C62_hermitian_partial (t : TB) (h : t.construct = .ok) (hnd : t.displ.Nodup) (k : ℕ → ℝ) {a b : ℕ}
    (ha : a < t.norb) (hb : b < t.norb) (x y : ℂ) (hx : t.fourier k a b = some x) (hy : t.fourier k b a = some y) :
    ‖x - (starRingEnd ℂ) y‖ ≤ t.displ.length * 1e-12 ∧
    ((∀ i j, i < t.displ.length → j < t.displ.length → t.disp i = (t.disp j).map (fun x => -x) →
      (t.mat i).e a b = (starRingEnd ℂ) ((t.mat j).e b a)) → x = (starRingEnd ℂ) y) := by
  obtain ⟨_, hc⟩ := (construct_ok t).mp h
  set n := t.displ.length with hn
  have hp : ∀ i, ∃ j, i < n → t.partner i = some j ∧
      ‖(t.mat i).e a b - (starRingEnd ℂ) ((t.mat j).e b a)‖ ≤ 1e-12 := by
    intro i
    by_cases hi : i < n
    · obtain ⟨_, j, hj, hb'⟩ := check_ok (hc i hi)
      exact ⟨j, fun _ => ⟨hj, hb' a b ha hb⟩⟩
    · exact ⟨0, fun h => absurd h hi⟩
  choose σ hσ using hp
  have hlt : ∀ i < n, σ i < n := fun i hi => (partner_spec (hσ i hi).1).1
  have hdisp : ∀ i < n, t.disp i = (t.disp (σ i)).map (fun x => -x) := fun i hi => (partner_spec (hσ i hi).1).2
  have hinv : ∀ i < n, σ (σ i) = i := by
    intro i hi
    apply disp_inj hnd (hlt _ (hlt i hi)) hi
    have h1 := hdisp i hi
    have h2 := hdisp (σ i) (hlt i hi)
    rw [h1, h2, map_neg_neg]
  unfold TB.fourier at hx hy
  by_cases hn0 : n = 0
  · rw [← hn, if_pos hn0] at hx
    simp at hx
  rw [← hn, if_neg hn0, Option.some.injEq] at hx hy
  have key : x - (starRingEnd ℂ) y = ∑ j ∈ Finset.range n, exp (2 * I * Real.pi * dotk t.nd k (t.disp j)) *
      ((t.mat j).e a b - (starRingEnd ℂ) ((t.mat (σ j)).e b a)) := by
    rw [← hx, ← hy, map_sum]
    have hre : ∑ j ∈ Finset.range n, (starRingEnd ℂ) (exp (2 * I * Real.pi * dotk t.nd k (t.disp j)) * (t.mat j).e b a)
        = ∑ j ∈ Finset.range n, exp (2 * I * Real.pi * dotk t.nd k (t.disp j)) * (starRingEnd ℂ) ((t.mat (σ j)).e b a) := by
      apply Finset.sum_nbij' σ σ
      · intro i hi; exact Finset.mem_range.mpr (hlt i (Finset.mem_range.mp hi))
      · intro i hi; exact Finset.mem_range.mpr (hlt i (Finset.mem_range.mp hi))
      · intro i hi; exact hinv i (Finset.mem_range.mp hi)
      · intro i hi; exact hinv i (Finset.mem_range.mp hi)
      · intro i hi
        have hi' := Finset.mem_range.mp hi
        rw [hinv i hi', map_mul, ← exp_conj]
        congr 2
        rw [hdisp i hi', dotk_neg]
        have h2 : (starRingEnd ℂ) 2 = 2 := by exact_mod_cast Complex.conj_ofReal 2
        simp [Complex.conj_ofReal, h2]
    rw [hre, ← Finset.sum_sub_distrib]
    apply Finset.sum_congr rfl
    intro j _
    ring
  have hnorm : ∀ j, ‖exp (2 * I * Real.pi * dotk t.nd k (t.disp j))‖ = 1 := by
    intro j
    have : (2 * I * Real.pi * dotk t.nd k (t.disp j) : ℂ) = ((2 * Real.pi * dotk t.nd k (t.disp j) : ℝ) : ℂ) * I := by
      push_cast; ring
    rw [this, norm_exp_ofReal_mul_I]
  constructor
  · rw [key]
    calc _ ≤ ∑ j ∈ Finset.range n, ‖exp (2 * I * Real.pi * dotk t.nd k (t.disp j)) *
          ((t.mat j).e a b - (starRingEnd ℂ) ((t.mat (σ j)).e b a))‖ := norm_sum_le _ _
      _ ≤ ∑ _j ∈ Finset.range n, (1e-12 : ℝ) := by
        apply Finset.sum_le_sum
        intro j hj
        rw [norm_mul, hnorm, one_mul]
        exact (hσ j (Finset.mem_range.mp hj)).2
      _ = n * 1e-12 := by simp
  · intro hex
    rw [← sub_eq_zero, key]
    apply Finset.sum_eq_zero
    intro j hj
    have hj' := Finset.mem_range.mp hj
    rw [hex j (σ j) hj' (hlt j hj') (hdisp j hj'), sub_self, mul_zero]

/-- a chain with hopping 1 to the right and the hopping 1 to the left given twice -/
noncomputable def dup : TB := ⟨1, 1, [[1], [-1], [-1]], [⟨1, 1, fun _ _ => 1⟩, ⟨1, 1, fun _ _ => 1⟩, ⟨1, 1, fun _ _ => 1⟩]⟩

/-- **C62 fails** for repeated displacements: the constructor accepts the set `dup` and the energy at
`k = 1/4` is `-i`. -/
theorem C62_fails_for_repeated_displacements : dup.construct = .ok ∧ dup.fourier (fun _ => 1 / 4) 0 0 = some (-I) := by
  constructor
  · rw [construct_ok]
    refine ⟨rfl, ?_⟩
    intro i hi
    have hi3 : i < 3 := hi
    have p0 : dup.partner 0 = some 1 := by decide
    have p1 : dup.partner 1 = some 0 := by decide
    have p2 : dup.partner 2 = some 0 := by decide
    interval_cases i
    · simp only [TB.check, p0]
      simp [dup, TB.disp, TB.mat]
      norm_num
    · simp only [TB.check, p1]
      simp [dup, TB.disp, TB.mat]
      norm_num
    · simp only [TB.check, p2]
      simp [dup, TB.disp, TB.mat]
      norm_num
  · have e1 : exp (2 * I * Real.pi * ((1 / 4 : ℝ) : ℂ)) = I := by
      rw [show (2 * I * Real.pi * ((1 / 4 : ℝ) : ℂ)) = Real.pi / 2 * I by push_cast; ring, exp_pi_div_two_mul_I]
    have e2 : exp (2 * I * Real.pi * ((-(1 / 4) : ℝ) : ℂ)) = -I := by
      rw [show (2 * I * Real.pi * ((-(1 / 4) : ℝ) : ℂ)) = -(Real.pi / 2 * I) by push_cast; ring, exp_neg, exp_pi_div_two_mul_I, inv_I]
    have d0 : dotk dup.nd (fun _ => 1 / 4) (dup.disp 0) = 1 / 4 := by simp [dotk, dup, TB.disp]
    have d1 : dotk dup.nd (fun _ => 1 / 4) (dup.disp 1) = -(1 / 4) := by simp [dotk, dup, TB.disp]
    have d2 : dotk dup.nd (fun _ => 1 / 4) (dup.disp 2) = -(1 / 4) := by simp [dotk, dup, TB.disp]
    unfold TB.fourier
    have hl : dup.displ.length = 3 := rfl
    rw [hl, if_neg (by norm_num), Finset.sum_range_succ, Finset.sum_range_succ, Finset.sum_range_succ, d0, d1, d2, e1, e2]
    simp [dup, TB.mat]

/-- no displacement at all is accepted, but `fourier` then reads out of bounds -/
theorem C62_empty_undefined (nd norb : ℕ) (k : ℕ → ℝ) (a b : ℕ) :
    (TB.mk nd norb [] []).construct = .ok ∧ (TB.mk nd norb [] []).fourier k a b = none := by
  constructor
  · simp [TB.construct, TB.loop]
  · simp [TB.fourier]

/-! ### C78: Fourier transform on a mesh -/

theorem sum_range_fin3 {nd : ℕ} (h : nd ≤ 3) (f : ℕ → ℝ) :
    ∑ i ∈ Finset.range nd, f i = ∑ i : Fin 3, if i.val < nd then f i else 0 := by
  interval_cases nd <;> simp [Fin.sum_univ_three, Finset.sum_range_succ]

open Verif.Lattice3 Matrix in
/-- **C78.** On the mesh of any lattice accepted by the constructors the Hamiltonian at the index `n` is
`Σ_j m_j exp(2πi Σ_{i < ndim} n_i R_{j,i} / d_i)`. -/
theorem C78_mesh_values {nd : ℕ} {u : R3} {bl : Bravais} (h : Bravais.mk' nd u = some bl) {bz : BZ} (hbz : BZ.mk' bl = some bz)
    (dims : Fin 3 → ℤ) (hd : ∀ i, 1 ≤ dims i) (n : Fin 3 → ℤ) (t : TB) (ht : t.nd = nd) (hne : t.displ ≠ []) (a b : ℕ) :
    t.fourierMesh (BrMesh.mk' bz dims) n a b = some (∑ j ∈ Finset.range t.displ.length,
      exp (2 * I * Real.pi * ((∑ i : Fin 3, if i.val < nd then (n i : ℝ) * (t.disp j).getD i 0 / dims i else 0 : ℝ) : ℂ)) * (t.mat j).e a b) := by
  unfold Bravais.mk' at h
  rw [Option.map_eq_some_iff] at h
  obtain ⟨U, hU, rfl⟩ := h
  obtain ⟨hnd, _, _, hdet⟩ := C77_completion nd u U hU
  unfold BZ.mk' at hbz
  split at hbz
  · simp at hbz
  obtain rfl := Option.some.inj hbz
  have hD : (Matrix.diagonal (fun i => (dims i : ℝ)))⁻¹ = Matrix.diagonal (fun i => ((dims i : ℝ))⁻¹) := by
    apply Matrix.inv_eq_left_inv
    rw [Matrix.diagonal_mul_diagonal, ← Matrix.diagonal_one]
    congr 1
    funext i
    have : (dims i : ℝ) ≠ 0 := by
      have := hd i
      have h1 : dims i ≠ 0 := by omega
      exact_mod_cast h1
    field_simp
  have hKdet : IsUnit ((2 * Real.pi) • (Matrix.of U)ᵀ⁻¹).det := by
    rw [Matrix.det_smul]
    apply IsUnit.mul
    · apply IsUnit.pow
      exact isUnit_iff_ne_zero.mpr (by positivity)
    · rw [Matrix.isUnit_nonsing_inv_det_iff, Matrix.det_transpose]
      exact isUnit_iff_ne_zero.mpr hdet
  unfold TB.fourierMesh TB.fourier
  have hl : t.displ.length ≠ 0 := by simpa using hne
  simp only [if_neg hl, Option.some.injEq]
  apply Finset.sum_congr rfl
  intro j _
  congr 3
  congr 1
  unfold dotk
  rw [ht, sum_range_fin3 hnd.2]
  apply Finset.sum_congr rfl
  intro i _
  split
  · rename_i hi
    beta_reduce
    rw [dif_pos i.isLt]
    unfold BrMesh.toValue BrMesh.mk'
    simp only [tmulN_eq, hD]
    rw [Matrix.vecMul_vecMul, Matrix.mul_assoc, Matrix.mul_nonsing_inv _ hKdet, Matrix.mul_one, Matrix.vecMul_diagonal]
    unfold restrict
    rw [if_pos hi]
    ring
  · rfl

/-- the hoppings on the cyclic lattice of extents `a × b × c`: the displacements folded into the cell,
one matrix element -/
def TB.folded (t : TB) (a b c : ℕ) (x y : ℕ) (d : ℕ) : ℂ :=
  ∑ j ∈ Finset.range t.displ.length,
    if FourierLattice.flat b c (((t.disp j).getD 0 0) % a).toNat (((t.disp j).getD 1 0) % b).toNat (((t.disp j).getD 2 0) % c).toNat = d
    then (t.mat j).e x y else 0

open Verif.Fourier in
theorem phase_mod {L : ℕ} (hL : L ≠ 0) (R : ℤ) (x : ℕ) : phase L (1 * (((R % (L : ℤ)).toNat : ℕ) * (x : ℤ))) = exp (2 * Real.pi * I * (R * x / L)) := by
  have h0 : 0 ≤ R % (L : ℤ) := Int.emod_nonneg _ (by exact_mod_cast hL)
  rw [Int.toNat_of_nonneg h0, one_mul]
  have : R * x = R % L * x + L * (R / L * x) := by
    have := Int.mul_ediv_add_emod R (L : ℤ)
    linear_combination (-(x : ℤ)) * this
  have h2 : phase L (R % L * x) = phase L (R * x) := by
    rw [this, phase_period hL]
  rw [h2, phase_eq_exp]
  congr 1
  push_cast
  ring

open Verif.Lattice3 Verif.FourierLattice Verif.Fourier Matrix in
/-- **C78.** The Hamiltonian on the mesh is the lattice Fourier transform of the hoppings placed on the
cyclic lattice of the same extents (folded displacements add up), for every matrix element. -/
theorem C78_is_lattice_transform {nd : ℕ} {u : R3} {bl : Bravais} (h : Bravais.mk' nd u = some bl) {bz : BZ} (hbz : BZ.mk' bl = some bz)
    {a b c : ℕ} (hd1 : ∀ l : Fin 3, nd ≤ l.val → (![(a : ℤ), b, c] : Fin 3 → ℤ) l = 1) {x y z : ℕ} (hx : x < a) (hy : y < b) (hz : z < c)
    (t : TB) (ht : t.nd = nd) (hne : t.displ ≠ []) (p q : ℕ) :
    ∃ gk, rToK (a, b, c) a b c (t.folded a b c p q) = some gk ∧
      t.fourierMesh (BrMesh.mk' bz ![(a : ℤ), b, c]) ![(x : ℤ), y, z] p q = some (gk (flat b c x y z)) := by
  have ha0 : a ≠ 0 := by omega
  have hb0 : b ≠ 0 := by omega
  have hc0 : c ≠ 0 := by omega
  rw [C78_mesh_values h hbz _ (by intro l; fin_cases l <;> simp <;> omega) _ t ht hne]
  unfold rToK impl
  simp only [lt_irrefl, if_false, Option.some.injEq, exists_eq_left', if_pos (flat_lt hx hy hz)]
  obtain ⟨e1, e2, e3⟩ := flat_decode (i := x) hy hz
  unfold dft3
  rw [e1, e2, e3]
  have hsum : ∀ i j k, t.folded a b c p q (flat b c i j k) = ∑ l ∈ Finset.range t.displ.length,
      if flat b c (((t.disp l).getD 0 0) % a).toNat (((t.disp l).getD 1 0) % b).toNat (((t.disp l).getD 2 0) % c).toNat = flat b c i j k
      then (t.mat l).e p q else 0 := fun i j k => rfl
  simp only [hsum, Finset.sum_mul]
  -- exchange the sums
  have hswap : ∀ F : ℕ → ℕ → ℕ → ℕ → ℂ, ∑ i ∈ Finset.range a, ∑ j ∈ Finset.range b, ∑ k ∈ Finset.range c, ∑ l ∈ Finset.range t.displ.length, F i j k l
      = ∑ l ∈ Finset.range t.displ.length, ∑ i ∈ Finset.range a, ∑ j ∈ Finset.range b, ∑ k ∈ Finset.range c, F i j k l := by
    intro F
    symm
    rw [Finset.sum_comm]
    apply Finset.sum_congr rfl
    intro i _
    rw [Finset.sum_comm]
    apply Finset.sum_congr rfl
    intro j _
    rw [Finset.sum_comm]
  rw [hswap]
  apply Finset.sum_congr rfl
  intro l _
  have hmod : ∀ (R : ℤ) {L : ℕ}, L ≠ 0 → (R % (L : ℤ)).toNat < L := by
    intro R L hL
    have h0 : 0 ≤ R % (L : ℤ) := Int.emod_nonneg _ (by exact_mod_cast hL)
    have h1 : R % (L : ℤ) < L := Int.emod_lt_of_pos _ (by omega)
    omega
  have hr0 := hmod ((t.disp l).getD 0 0) ha0
  have hr1 := hmod ((t.disp l).getD 1 0) hb0
  have hr2 := hmod ((t.disp l).getD 2 0) hc0
  have p0 := phase_mod ha0 ((t.disp l).getD 0 0) x
  have p1 := phase_mod hb0 ((t.disp l).getD 1 0) y
  have p2 := phase_mod hc0 ((t.disp l).getD 2 0) z
  have hexp : exp (2 * I * Real.pi * ((∑ i : Fin 3, if i.val < nd then ((![(x : ℤ), y, z] : Fin 3 → ℤ) i : ℝ) * (t.disp l).getD i 0 /
      (![(a : ℤ), b, c] : Fin 3 → ℤ) i else 0 : ℝ) : ℂ)) = exp (2 * Real.pi * I * ((t.disp l).getD 0 0 * x / a)) *
        exp (2 * Real.pi * I * ((t.disp l).getD 1 0 * y / b)) * exp (2 * Real.pi * I * ((t.disp l).getD 2 0 * z / c)) := by
    rw [← exp_add, ← exp_add]
    congr 1
    have hfull : (∑ i : Fin 3, if i.val < nd then ((![(x : ℤ), y, z] : Fin 3 → ℤ) i : ℝ) * (t.disp l).getD i 0 /
        (![(a : ℤ), b, c] : Fin 3 → ℤ) i else 0 : ℝ)
        = ∑ i : Fin 3, ((![(x : ℤ), y, z] : Fin 3 → ℤ) i : ℝ) * (t.disp l).getD i 0 / (![(a : ℤ), b, c] : Fin 3 → ℤ) i := by
      apply Finset.sum_congr rfl
      intro i _
      split
      · rfl
      · rename_i hi
        have h1 := hd1 i (by omega)
        have : (![(x : ℤ), y, z] : Fin 3 → ℤ) i = 0 := by
          fin_cases i <;> simp at h1 ⊢ <;> omega
        rw [this]
        simp
    rw [hfull, Fin.sum_univ_three]
    simp
    ring
  rw [hexp, ← p0, ← p1, ← p2]
  generalize (((t.disp l).getD 0 0) % (a : ℤ)).toNat = r0 at hr0 ⊢
  generalize (((t.disp l).getD 1 0) % (b : ℤ)).toNat = r1 at hr1 ⊢
  generalize (((t.disp l).getD 2 0) % (c : ℤ)).toNat = r2 at hr2 ⊢
  obtain ⟨f1, f2, f3⟩ := flat_decode (i := r0) hr1 hr2
  have hflat : ∀ i j k, j < b → k < c → flat b c r0 r1 r2 = flat b c i j k → i = r0 ∧ j = r1 ∧ k = r2 := by
    intro i j k hj hk he
    obtain ⟨g1, g2, g3⟩ := flat_decode (i := i) hj hk
    rw [he] at f1 f2 f3
    exact ⟨g1.symm.trans f1, g2.symm.trans f2, g3.symm.trans f3⟩
  rw [Finset.sum_eq_single r0, Finset.sum_eq_single r1, Finset.sum_eq_single r2]
  · rw [if_pos rfl]
    ring
  · intro k hk hne'
    rw [if_neg, zero_mul]
    intro he
    exact hne' (hflat _ _ _ hr1 (Finset.mem_range.mp hk) he).2.2
  · intro hc'; exact absurd (Finset.mem_range.mpr hr2) hc'
  · intro j hj hne'
    apply Finset.sum_eq_zero
    intro k hk
    rw [if_neg, zero_mul]
    intro he
    exact hne' (hflat _ _ _ (Finset.mem_range.mp hj) (Finset.mem_range.mp hk) he).2.1
  · intro hc'; exact absurd (Finset.mem_range.mpr hr1) hc'
  · intro i hi hne'
    apply Finset.sum_eq_zero
    intro j hj
    apply Finset.sum_eq_zero
    intro k hk
    rw [if_neg, zero_mul]
    intro he
    exact hne' (hflat _ _ _ (Finset.mem_range.mp hj) (Finset.mem_range.mp hk) he).1
  · intro hc'; exact absurd (Finset.mem_range.mpr hr0) hc'

/-! ### examples -/

/-- the square lattice with nearest-neighbour hopping -/
noncomputable def squareTB : TB :=
  let m : Mat := ⟨1, 1, fun _ _ => -1⟩
  ⟨2, 1, [[1, 0], [-1, 0], [0, 1], [0, -1]], [m, m, m, m]⟩

example : squareTB.construct = .ok := by
  rw [construct_ok]
  refine ⟨rfl, ?_⟩
  intro i hi
  have hi4 : i < 4 := hi
  have p0 : squareTB.partner 0 = some 1 := by decide
  have p1 : squareTB.partner 1 = some 0 := by decide
  have p2 : squareTB.partner 2 = some 3 := by decide
  have p3 : squareTB.partner 3 = some 2 := by decide
  interval_cases i
  · simp only [TB.check, p0]; simp [squareTB, TB.disp, TB.mat]; norm_num
  · simp only [TB.check, p1]; simp [squareTB, TB.disp, TB.mat]; norm_num
  · simp only [TB.check, p2]; simp [squareTB, TB.disp, TB.mat]; norm_num
  · simp only [TB.check, p3]; simp [squareTB, TB.disp, TB.mat]; norm_num

/-- bottom of the band -/
example : squareTB.fourier (fun _ => 0) 0 0 = some (-4) := by
  have hl : squareTB.displ.length = 4 := rfl
  unfold TB.fourier
  rw [hl, if_neg (by norm_num)]
  simp [Finset.sum_range_succ, dotk, squareTB, TB.mat, TB.disp]
  norm_num

/-- a hopping without its opposite is refused -/
example : (TB.mk 1 1 [[1]] [⟨1, 1, fun _ _ => 1⟩]).construct = .exn := by
  have p0 : (TB.mk 1 1 [[1]] [⟨1, 1, fun _ _ => 1⟩]).partner 0 = none := by decide
  simp [TB.construct, TB.loop, TB.check, p0, TB.disp, TB.mat]

end Verif.TightBinding
