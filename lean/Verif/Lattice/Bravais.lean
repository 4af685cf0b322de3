import Mathlib.Analysis.SpecialFunctions.Sqrt
import Mathlib.Analysis.SpecialFunctions.Trigonometric.Basic
import Mathlib.LinearAlgebra.Matrix.NonsingularInverse
import Mathlib.LinearAlgebra.Matrix.Notation
import Mathlib.Tactic.FinCases
import Mathlib.Tactic.FieldSimp
import Mathlib.Tactic.LinearCombination

/-!
# Properties C64, C77: Bravais lattices, Brillouin zones and their meshes

Source: `/repo/c++/triqs/lattice/bravais_lattice.{hpp,cpp}`, `/repo/c++/triqs/lattice/brillouin_zone.{hpp,cpp}`,
`/repo/c++/triqs/mesh/brzone.hpp`.

Simplifications: exact real numbers; `nda::inverse` is the matrix inverse; orbital positions and
names are left out. The input matrix is stored as a function of two indices below `ndim`; the rows
of a matrix are the vectors, as in the code. A division by zero (which yields NaN) is `none`.
-/

namespace Verif.Lattice3
open Matrix

abbrev V3 := Fin 3 → ℝ
abbrev M3 := Matrix (Fin 3) (Fin 3) ℝ
/-- three row vectors -/
abbrev R3 := Fin 3 → Fin 3 → ℝ

/-! ## Model -/

/-- `nda::linalg::cross_product` -/
def cross (a b : V3) : V3 := ![a 1 * b 2 - a 2 * b 1, a 2 * b 0 - a 0 * b 2, a 0 * b 1 - a 1 * b 0]

/-- `sqrt(dot(v, v))` -/
noncomputable def norm (v : V3) : ℝ := Real.sqrt (v ⬝ᵥ v)

/-- division of a vector by a number, `none` when the number is zero -/
noncomputable def vdiv (v : V3) (x : ℝ) : Option V3 := if x = 0 then none else some (fun i => v i / x)

/-- `units_() = 0; units_(r, r) = units__(r, r)`, bravais_lattice.cpp:42-43 -/
def pad (nd : ℕ) (u : R3) : R3 := fun i j => if i.val < nd ∧ j.val < nd then u i j else 0

/-- `almost_zero`, bravais_lattice.cpp:27 -/
noncomputable def almostZero : ℝ := 1e-10

/-- completion of the basis, bravais_lattice.cpp:44-83; `none` for the exceptions and for a division
by zero -/
noncomputable def complete (nd : ℕ) (u : R3) : Option R3 :=
  let U := pad nd u
  match nd with
  | 1 =>
    let ux := U 0
    let uz : V3 := ![0, 1, 0]
    let uz := uz - (uz ⬝ᵥ ux) • ux
    let uz := if norm uz < almostZero then
        let uz : V3 := ![0, 0, 1]
        uz - (uz ⬝ᵥ ux) • ux
      else uz
    (vdiv uz (norm uz)).bind (fun uz =>
      let uy := cross uz ux
      (vdiv uy (norm uy)).map (fun uy => ![U 0, uz, uy]))
  | 2 =>
    let uy := cross (U 0) (U 1)
    let delta := norm uy
    if |delta| < almostZero then none else (vdiv uy delta).map (fun v => ![U 0, U 1, v])
  | 3 =>
    let delta := cross (U 0) (U 1) ⬝ᵥ U 2
    if |delta| < almostZero then none else some U
  | _ => none

/-- `bravais_lattice`: dimension and units -/
structure Bravais where
  nd : ℕ
  units : M3

noncomputable def Bravais.mk' (nd : ℕ) (u : R3) : Option Bravais := (complete nd u).map (fun U => ⟨nd, Matrix.of U⟩)

/-- `transpose(M)(all, range(nd)) * x(range(nd))` -/
def tmulN (nd : ℕ) (A : M3) (x : V3) : V3 := fun j => ∑ i : Fin 3, if i.val < nd then A i j * x i else 0

/-- `lattice_to_real_coordinates`, bravais_lattice.hpp:107-109 -/
noncomputable def Bravais.latticeToReal (bl : Bravais) (x : V3) : V3 := tmulN bl.nd bl.units x
/-- `real_to_lattice_coordinates`, bravais_lattice.hpp:112-114 -/
noncomputable def Bravais.realToLattice (bl : Bravais) (x : V3) : V3 := tmulN bl.nd bl.units⁻¹ x

/-- `brillouin_zone`: lattice, reciprocal vectors (rows) and inverse -/
structure BZ where
  bl : Bravais
  K : M3
  Kinv : M3

/-- constructor, brillouin_zone.cpp:29-37 -/
noncomputable def BZ.mk' (bl : Bravais) : Option BZ :=
  if |bl.units.det| < almostZero then none
  else
    let K := (2 * Real.pi) • bl.unitsᵀ⁻¹
    some ⟨bl, K, K⁻¹⟩

/-- default constructor, brillouin_zone.hpp:34-37: the cubic lattice with `K_reciprocal = 1` -/
noncomputable def BZ.default : BZ := ⟨⟨3, 1⟩, 1, 1⟩

/-- mesh on a Brillouin zone, brzone.hpp:67-75: extents and units -/
structure BrMesh where
  bz : BZ
  dims : Fin 3 → ℤ
  units : M3

noncomputable def BrMesh.mk' (bz : BZ) (dims : Fin 3 → ℤ) : BrMesh :=
  ⟨bz, dims, (Matrix.diagonal (fun i => (dims i : ℝ)))⁻¹ * bz.K⟩

/-- constructor from one linear size, brzone.hpp:96-97 -/
noncomputable def BrMesh.ofN (bz : BZ) (n : ℤ) : BrMesh :=
  BrMesh.mk' bz ![n, if bz.bl.nd ≥ 2 then n else 1, if bz.bl.nd ≥ 3 then n else 1]

/-- `to_value`, brzone.hpp:285-288 -/
noncomputable def BrMesh.toValue (m : BrMesh) (n : Fin 3 → ℤ) : V3 := tmulN m.bz.bl.nd m.units (fun i => (n i : ℝ))

/-- conversion of a point of the cyclic lattice to a vector, bravais_lattice.hpp:83-88 -/
noncomputable def Bravais.point (bl : Bravais) (r : Fin 3 → ℤ) : V3 := bl.latticeToReal (fun i => (r i : ℝ))

/-! ## Proofs -/

theorem norm_z (x : ℝ) : norm ![0, 0, x] = |x| := by
  unfold norm
  simp [dotProduct, Fin.sum_univ_three, ← sq, Real.sqrt_sq_eq_abs]

/-- explicit form of the completed basis -/
theorem complete_one (u : R3) :
    complete 1 u = if u 0 0 = 0 then none else some ![![u 0 0, 0, 0], ![0, 1, 0], ![0, 0, -u 0 0 / |u 0 0|]] := by
  have hp : pad 1 u 0 = ![u 0 0, 0, 0] := by
    funext j; fin_cases j <;> simp [pad]
  have hz : (![0, 1, 0] : V3) - ((![0, 1, 0] : V3) ⬝ᵥ ![u 0 0, 0, 0]) • ![u 0 0, 0, 0] = ![0, 1, 0] := by
    funext j; fin_cases j <;> simp [dotProduct, Fin.sum_univ_three]
  have hn : norm ![0, 1, 0] = 1 := by
    unfold norm
    simp [dotProduct, Fin.sum_univ_three]
  have hc : cross ![0, 1, 0] ![u 0 0, 0, 0] = ![0, 0, -u 0 0] := by
    funext j; fin_cases j <;> simp [cross]
  have ha : ¬ (1 : ℝ) < almostZero := by unfold almostZero; norm_num
  have hv : vdiv ![0, 1, 0] 1 = some ![0, 1, 0] := by
    unfold vdiv
    rw [if_neg one_ne_zero]
    congr 1
    funext j; fin_cases j <;> simp
  simp only [complete, hp, hz, hn, if_neg ha, hv, Option.bind_some, hc, norm_z, abs_neg]
  unfold vdiv
  by_cases h : u 0 0 = 0
  · simp [h]
  · rw [if_neg (by simpa using h), if_neg h, Option.map_some]
    apply congrArg some
    funext i
    fin_cases i
    · rfl
    · rfl
    · funext j
      fin_cases j <;> simp

theorem complete_two (u : R3) :
    let D := u 0 0 * u 1 1 - u 0 1 * u 1 0
    complete 2 u = if |D| < almostZero then none else some ![![u 0 0, u 0 1, 0], ![u 1 0, u 1 1, 0], ![0, 0, D / |D|]] := by
  intro D
  have hp0 : pad 2 u 0 = ![u 0 0, u 0 1, 0] := by
    funext j; fin_cases j <;> simp [pad]
  have hp1 : pad 2 u 1 = ![u 1 0, u 1 1, 0] := by
    funext j; fin_cases j <;> simp [pad]
  have hc : cross ![u 0 0, u 0 1, 0] ![u 1 0, u 1 1, 0] = ![0, 0, D] := by
    funext j; fin_cases j <;> simp [cross, D]
  simp only [complete, hp0, hp1, hc, norm_z, abs_abs]
  by_cases h : |D| < almostZero
  · rw [if_pos h, if_pos h]
  · rw [if_neg h, if_neg h]
    have hD : |D| ≠ 0 := by
      intro h0
      apply h
      rw [h0]
      unfold almostZero
      norm_num
    unfold vdiv
    rw [if_neg hD, Option.map_some]
    apply congrArg some
    funext i
    fin_cases i
    · rfl
    · rfl
    · funext j
      fin_cases j <;> simp

theorem complete_three (u : R3) :
    complete 3 u = if |Matrix.det (Matrix.of u)| < almostZero then none else some u := by
  have hp : pad 3 u = u := by
    funext i j
    simp [pad, i.isLt, j.isLt]
  have hd : cross (u 0) (u 1) ⬝ᵥ u 2 = Matrix.det (Matrix.of u) := by
    rw [Matrix.det_fin_three]
    simp [cross, dotProduct, Fin.sum_univ_three]
    ring
  simp only [complete, hp, hd]

/-- **C77.** Every accepted lattice, in one, two or three dimensions, keeps the given vectors (with
zero components outside the first `ndim` directions), its added rows are unit vectors orthogonal to
all other rows, and its three rows are independent. -/
theorem C77_completion (nd : ℕ) (u : R3) (U : R3) (h : complete nd u = some U) :
    (1 ≤ nd ∧ nd ≤ 3) ∧
    (∀ i j : Fin 3, i.val < nd → U i j = if j.val < nd then u i j else 0) ∧
    (∀ i : Fin 3, nd ≤ i.val → U i ⬝ᵥ U i = 1 ∧ ∀ k, k ≠ i → U i ⬝ᵥ U k = 0) ∧
    (Matrix.of U).det ≠ 0 := by
  match nd, h with
  | 0, h => simp [complete] at h
  | 1, h =>
    rw [complete_one] at h
    by_cases h0 : u 0 0 = 0
    · simp [h0] at h
    · rw [if_neg h0] at h
      obtain rfl := Option.some.inj h
      have habs : |u 0 0| ≠ 0 := abs_ne_zero.mpr h0
      have hsq : u 0 0 * u 0 0 = |u 0 0| * |u 0 0| := (abs_mul_abs_self _).symm
      refine ⟨by omega, ?_, ?_, ?_⟩
      · intro i j hi
        have : i = 0 := Fin.ext (by simpa using hi)
        subst this
        fin_cases j <;> simp
      · intro i hi
        fin_cases i
        · simp at hi
        · refine ⟨by simp [dotProduct, Fin.sum_univ_three], ?_⟩
          intro k hk
          fin_cases k <;> simp [dotProduct, Fin.sum_univ_three] at hk ⊢
        · refine ⟨?_, ?_⟩
          · simp [dotProduct, Fin.sum_univ_three]
            field_simp
            linear_combination hsq
          · intro k hk
            fin_cases k <;> simp [dotProduct, Fin.sum_univ_three] at hk ⊢
      · rw [Matrix.det_fin_three]
        simp [h0]
  | 2, h =>
    rw [complete_two] at h
    generalize hD : u 0 0 * u 1 1 - u 0 1 * u 1 0 = D at h
    by_cases h0 : |D| < almostZero
    · simp [h0] at h
    · rw [if_neg h0] at h
      obtain rfl := Option.some.inj h
      have habs : |D| ≠ 0 := by
        intro hz
        apply h0
        rw [hz]
        unfold almostZero
        norm_num
      have hDne : D ≠ 0 := abs_ne_zero.mp habs
      have hsq : D * D = |D| * |D| := (abs_mul_abs_self _).symm
      refine ⟨by omega, ?_, ?_, ?_⟩
      · intro i j hi
        fin_cases i
        · fin_cases j <;> simp
        · fin_cases j <;> simp
        · simp at hi
      · intro i hi
        fin_cases i
        · simp at hi
        · simp at hi
        · refine ⟨?_, ?_⟩
          · simp [dotProduct, Fin.sum_univ_three]
            field_simp
            linear_combination hsq
          · intro k hk
            fin_cases k <;> simp [dotProduct, Fin.sum_univ_three] at hk ⊢
      · have : Matrix.det (Matrix.of ![![u 0 0, u 0 1, 0], ![u 1 0, u 1 1, 0], ![0, 0, D / |D|]]) = D * (D / |D|) := by
          rw [Matrix.det_fin_three]
          simp
          rw [← hD]
          ring
        rw [this]
        exact mul_ne_zero hDne (div_ne_zero hDne habs)
  | 3, h =>
    rw [complete_three] at h
    by_cases h0 : |Matrix.det (Matrix.of u)| < almostZero
    · simp [h0] at h
    · rw [if_neg h0] at h
      obtain rfl := Option.some.inj h
      refine ⟨by omega, ?_, ?_, ?_⟩
      · intro i j _
        simp [j.isLt]
      · intro i hi
        have := i.isLt
        omega
      · intro hz
        apply h0
        rw [hz]
        unfold almostZero
        norm_num
  | n + 4, h => simp [complete] at h

/-- a one-dimensional lattice with vanishing basis vector is not refused: the code divides by zero -/
theorem C77_zero_vector_undefined (u : R3) (h : u 0 0 = 0) : complete 1 u = none := by
  rw [complete_one, if_pos h]

/-- what the code accepts -/
theorem C77_accepts (nd : ℕ) (u : R3) :
    complete nd u = none ↔ ¬ ((nd = 1 ∧ u 0 0 ≠ 0) ∨ (nd = 2 ∧ almostZero ≤ |u 0 0 * u 1 1 - u 0 1 * u 1 0|) ∨
      (nd = 3 ∧ almostZero ≤ |Matrix.det (Matrix.of u)|)) := by
  match nd with
  | 0 => simp [complete]
  | 1 =>
    rw [complete_one]
    by_cases h : u 0 0 = 0 <;> simp [h]
  | 2 =>
    rw [complete_two]
    by_cases h : |u 0 0 * u 1 1 - u 0 1 * u 1 0| < almostZero
    · simp [h, not_le.mpr h]
    · simp [h, not_lt.mp h]
  | 3 =>
    rw [complete_three]
    by_cases h : |Matrix.det (Matrix.of u)| < almostZero
    · simp [h, not_le.mpr h]
    · simp [h, not_lt.mp h]
  | n + 4 => simp [complete]

/-! ### coordinates -/

/-- restriction of a vector to the first `nd` components -/
def restrict (nd : ℕ) (x : V3) : V3 := fun i => if i.val < nd then x i else 0

theorem tmulN_eq (nd : ℕ) (A : M3) (x : V3) : tmulN nd A x = (restrict nd x) ᵥ* A := by
  funext j
  unfold tmulN restrict Matrix.vecMul dotProduct
  refine Finset.sum_congr rfl ?_
  intro i _
  simp only
  split <;> ring

/-- the lattice vectors of an accepted lattice stay in the first `nd` directions -/
theorem restrict_latticeToReal {nd : ℕ} {u : R3} {U : R3} (h : complete nd u = some U) (x : V3) :
    restrict nd ((restrict nd x) ᵥ* Matrix.of U) = (restrict nd x) ᵥ* Matrix.of U := by
  obtain ⟨_, h1, _, _⟩ := C77_completion nd u U h
  funext j
  unfold restrict Matrix.vecMul dotProduct
  split
  · rfl
  · rename_i hj
    symm
    apply Finset.sum_eq_zero
    intro i _
    simp only [Matrix.of_apply]
    split
    · rename_i hi
      rw [h1 i j hi, if_neg hj, mul_zero]
    · ring

/-- **C77.** Lattice coordinates → real coordinates → lattice coordinates is the identity on the first
`ndim` components (the others come back as zero). -/
theorem C77_coordinates_round_trip {nd : ℕ} {u : R3} {bl : Bravais} (h : Bravais.mk' nd u = some bl) (x : V3) :
    bl.realToLattice (bl.latticeToReal x) = restrict nd x := by
  unfold Bravais.mk' at h
  rw [Option.map_eq_some_iff] at h
  obtain ⟨U, hU, rfl⟩ := h
  unfold Bravais.realToLattice Bravais.latticeToReal
  simp only [tmulN_eq]
  rw [restrict_latticeToReal hU, Matrix.vecMul_vecMul, Matrix.mul_nonsing_inv, Matrix.vecMul_one]
  exact isUnit_iff_ne_zero.mpr (C77_completion nd u U hU).2.2.2

/-! ### C64 -/

/-- **C64.** For every lattice accepted by both constructors and every mesh with positive extents, the
product of the mesh vector `n` with the lattice translation `r` is `2π Σ_{i < ndim} n_i r_i / d_i`. -/
theorem C64_duality {nd : ℕ} {u : R3} {bl : Bravais} (h : Bravais.mk' nd u = some bl) {bz : BZ}
    (hbz : BZ.mk' bl = some bz) (dims : Fin 3 → ℤ) (hd : ∀ i, 1 ≤ dims i) (n r : Fin 3 → ℤ) :
    (BrMesh.mk' bz dims).toValue n ⬝ᵥ bl.point r
      = 2 * Real.pi * ∑ i : Fin 3, if i.val < nd then (n i : ℝ) * r i / dims i else 0 := by
  unfold Bravais.mk' at h
  rw [Option.map_eq_some_iff] at h
  obtain ⟨U, hU, rfl⟩ := h
  have hdet : (Matrix.of U).det ≠ 0 := (C77_completion nd u U hU).2.2.2
  unfold BZ.mk' at hbz
  split at hbz
  · simp at hbz
  · obtain rfl := Option.some.inj hbz
    have hD : (Matrix.diagonal (fun i => (dims i : ℝ)))⁻¹ = Matrix.diagonal (fun i => ((dims i : ℝ))⁻¹) := by
      apply Matrix.inv_eq_left_inv
      rw [Matrix.diagonal_mul_diagonal, ← Matrix.diagonal_one]
      congr 1
      funext i
      have : (dims i : ℝ) ≠ 0 := by
        have := hd i
        have h1 : dims i ≠ 0 := by omega
        exact_mod_cast h1
      field_simp
    unfold BrMesh.toValue BrMesh.mk' Bravais.point Bravais.latticeToReal
    simp only [tmulN_eq, hD]
    rw [← Matrix.mulVec_transpose (Matrix.of U), Matrix.dotProduct_mulVec, Matrix.vecMul_vecMul, Matrix.mul_assoc, Matrix.smul_mul,
      Matrix.nonsing_inv_mul]
    · rw [Matrix.mul_smul, Matrix.mul_one, Matrix.vecMul_smul, smul_dotProduct, smul_eq_mul]
      congr 1
      unfold dotProduct
      refine Finset.sum_congr rfl ?_
      intro i _
      rw [Matrix.vecMul_diagonal]
      unfold restrict
      split <;> ring
    · rw [Matrix.det_transpose]
      exact isUnit_iff_ne_zero.mpr hdet

/-- **C64, as stated, for meshes with one point in the directions beyond `ndim`** (in particular for every
three-dimensional lattice and for the constructor from one linear size). Missing in general: the extents
beyond `ndim`, see `C64_fails_beyond_ndim`. -/
theorem C64_duality_partial {nd : ℕ} {u : R3} {bl : Bravais} (h : Bravais.mk' nd u = some bl) {bz : BZ}
    (hbz : BZ.mk' bl = some bz) (dims : Fin 3 → ℤ) (hd : ∀ i, 1 ≤ dims i) (hd1 : ∀ i : Fin 3, nd ≤ i.val → dims i = 1)
    (n r : Fin 3 → ℤ) (hn : ∀ i, 0 ≤ n i ∧ n i < dims i) :
    (BrMesh.mk' bz dims).toValue n ⬝ᵥ bl.point r = 2 * Real.pi * ∑ i : Fin 3, (n i : ℝ) * r i / dims i := by
  rw [C64_duality h hbz dims hd]
  congr 1
  refine Finset.sum_congr rfl ?_
  intro i _
  split
  · rfl
  · rename_i hi
    have h1 := hd1 i (by omega)
    have h2 := hn i
    have : n i = 0 := by omega
    rw [this]
    simp

/-- the constructor from one linear size satisfies the hypotheses -/
theorem C64_linear_size {nd : ℕ} {u : R3} {bl : Bravais} (h : Bravais.mk' nd u = some bl) {bz : BZ}
    (hbz : BZ.mk' bl = some bz) (N : ℤ) (hN : 1 ≤ N) (n r : Fin 3 → ℤ) (hn : ∀ i, 0 ≤ n i ∧ n i < (BrMesh.ofN bz N).dims i) :
    (BrMesh.ofN bz N).toValue n ⬝ᵥ bl.point r = 2 * Real.pi * ∑ i : Fin 3, (n i : ℝ) * r i / (BrMesh.ofN bz N).dims i := by
  have hbl : bz.bl = bl ∧ bl.nd = nd := by
    unfold Bravais.mk' at h
    rw [Option.map_eq_some_iff] at h
    obtain ⟨U, hU, rfl⟩ := h
    unfold BZ.mk' at hbz
    split at hbz
    · simp at hbz
    · obtain rfl := Option.some.inj hbz
      exact ⟨rfl, rfl⟩
  have hnd : 1 ≤ nd := by
    unfold Bravais.mk' at h
    rw [Option.map_eq_some_iff] at h
    obtain ⟨U, hU, _⟩ := h
    exact (C77_completion nd u U hU).1.1
  apply C64_duality_partial h hbz _ _ _ n r hn
  · intro i
    unfold BrMesh.ofN BrMesh.mk'
    rw [hbl.1, hbl.2]
    fin_cases i
    · simpa using hN
    · simp only [Fin.mk_one, Matrix.cons_val_one, Matrix.cons_val_zero]
      split <;> omega
    · simp only [Fin.reduceFinMk, Matrix.cons_val]
      split <;> omega
  · intro i hi
    unfold BrMesh.ofN BrMesh.mk'
    rw [hbl.1, hbl.2]
    fin_cases i
    · simp at hi; omega
    · simp at hi ⊢; omega
    · simp at hi ⊢; omega

/-- the square lattice -/
noncomputable def square : R3 := fun i j => if i = j then 1 else 0

theorem square_units : complete 2 square = some ![![1, 0, 0], ![0, 1, 0], ![0, 0, 1]] := by
  rw [complete_two]
  have : square 0 0 * square 1 1 - square 0 1 * square 1 0 = 1 := by simp [square]
  simp only [this]
  have h : ¬ |(1 : ℝ)| < almostZero := by unfold almostZero; norm_num
  rw [if_neg h]
  simp [square]

/-- **C64 fails** for a two-dimensional lattice whose mesh has two points in the third direction: the
phase of `n = r = (0,0,1)` is `0` instead of `π`. -/
theorem C64_fails_beyond_ndim : ∃ bl bz, Bravais.mk' 2 square = some bl ∧ BZ.mk' bl = some bz ∧
    (BrMesh.mk' bz ![1, 1, 2]).toValue ![0, 0, 1] ⬝ᵥ bl.point ![0, 0, 1] = 0 ∧
    2 * Real.pi * ∑ i : Fin 3, ((![0, 0, 1] : Fin 3 → ℤ) i : ℝ) * (![0, 0, 1] : Fin 3 → ℤ) i / (![1, 1, 2] : Fin 3 → ℤ) i = Real.pi := by
  have h1 : Bravais.mk' 2 square = some ⟨2, Matrix.of ![![1, 0, 0], ![0, 1, 0], ![0, 0, 1]]⟩ := by
    unfold Bravais.mk'
    rw [square_units]
    rfl
  have hdet : Matrix.det (Matrix.of ![![1, 0, 0], ![0, 1, 0], ![0, 0, 1]] : M3) = 1 := by
    rw [Matrix.det_fin_three]
    simp
  have h2 : ∃ bz, BZ.mk' ⟨2, Matrix.of ![![1, 0, 0], ![0, 1, 0], ![0, 0, 1]]⟩ = some bz := by
    unfold BZ.mk'
    simp only [hdet]
    have h : ¬ |(1 : ℝ)| < almostZero := by unfold almostZero; norm_num
    rw [if_neg h]
    exact ⟨_, rfl⟩
  obtain ⟨bz, h2⟩ := h2
  refine ⟨_, bz, h1, h2, ?_, ?_⟩
  · rw [C64_duality h1 h2 _ (by intro i; fin_cases i <;> simp)]
    simp [Fin.sum_univ_three]
  · simp [Fin.sum_univ_three]
    ring

/-- **C64 fails** for the default Brillouin zone, which lacks the factor `2π`: for two points in each
direction the phase of `n = r = (1,0,0)` is `1/2` instead of `π`. -/
theorem C64_fails_for_default : (BrMesh.mk' BZ.default ![2, 2, 2]).toValue ![1, 0, 0] ⬝ᵥ BZ.default.bl.point ![1, 0, 0] = 1 / 2 := by
  have hD : (Matrix.diagonal (fun i => ((![2, 2, 2] : Fin 3 → ℤ) i : ℝ)))⁻¹ = Matrix.diagonal (fun _ : Fin 3 => (1 / 2 : ℝ)) := by
    apply Matrix.inv_eq_left_inv
    rw [Matrix.diagonal_mul_diagonal, ← Matrix.diagonal_one]
    congr 1
    funext i
    fin_cases i <;> simp
  unfold BrMesh.toValue BrMesh.mk' Bravais.point Bravais.latticeToReal BZ.default
  simp only [tmulN_eq, hD, Matrix.mul_one, Matrix.vecMul_one]
  unfold dotProduct
  simp [Fin.sum_univ_three, Matrix.vecMul_diagonal, restrict]

/-! ### examples -/

/-- the triangular lattice (scaled by 2 in the second direction) is accepted and completed with a unit vector -/
example : complete 2 (fun i j => if i = 0 ∧ j = 0 then 1 else if i = 1 ∧ j = 0 then 1 / 2 else if i = 1 ∧ j = 1 then 2 else 0)
    = some ![![1, 0, 0], ![1 / 2, 2, 0], ![0, 0, 1]] := by
  rw [complete_two]
  have h : almostZero ≤ 2 := by unfold almostZero; norm_num
  simp [h]

/-- a chain with negative unit vector -/
example : complete 1 (fun _ _ => -3) = some ![![-3, 0, 0], ![0, 1, 0], ![0, 0, 1]] := by
  rw [complete_one]
  norm_num

/-- two parallel vectors are refused -/
example : complete 2 (fun _ _ => 1) = none := by
  rw [complete_two]
  have h : (0 : ℝ) < almostZero := by unfold almostZero; norm_num
  simp [h]

end Verif.Lattice3
